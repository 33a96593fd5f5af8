import Verif.Pool.Stored
/-!
What the passes of the builder write into the fields, extensions and methods of the descriptors it keeps.
-/
set_option autoImplicit false
namespace Verif.Pool
open Verif.Wire Verif.Dyn

/-- The field or extension at a path of a file of the pool. -/
def Pool.fieldIn (p : Pool) (i : Nat) (q : Path) : Option FieldP :=
  match p.files[i]? with
  | some fd => fieldAt fd.raw q
  | none => none

/-- The method at a path of a file of the pool. -/
def Pool.methodIn (p : Pool) (i : Nat) (q : Path) : Option MethodP :=
  match p.files[i]? with
  | some fd => methodAt fd.raw q
  | none => none

/-- Nothing but what is at one path of one file differs. -/
structure Except1 (file : Nat) (path : Path) (a b : Pool) : Prop where
  names : b.names = a.names
  trans : ∀ (i : Nat), (b.files[i]?).map FileD.trans = (a.files[i]?).map FileD.trans
  fields : ∀ i q, ¬ (i = file ∧ q = path) → b.fieldIn i q = a.fieldIn i q
  methods : ∀ i q, ¬ (i = file ∧ q = path) → b.methodIn i q = a.methodIn i q

theorem Except1.of_eq {file : Nat} {path : Path} {a b : Pool} (h : b.files = a.files) (hn : b.names = a.names) :
    Except1 file path a b where
  names := hn
  trans i := by rw [h]
  fields i q _ := by simp only [Pool.fieldIn, h]
  methods i q _ := by simp only [Pool.methodIn, h]

theorem Except1.trans' {file : Nat} {path : Path} {a b c : Pool} (h : Except1 file path a b)
    (g : Except1 file path b c) : Except1 file path a c where
  names := g.names.trans h.names
  trans i := (g.trans i).trans (h.trans i)
  fields i q hq := (g.fields i q hq).trans (h.fields i q hq)
  methods i q hq := (g.methods i q hq).trans (h.methods i q hq)

theorem Except1.file {file : Nat} {path : Path} {a b : Pool} (h : Except1 file path a b) {i : Nat} {fd : FileD}
    (hfd : a.files[i]? = some fd) : ∃ fd', b.files[i]? = some fd' ∧ fd'.trans = fd.trans := by
  have := h.trans i
  rw [hfd, Option.map_some, Option.map_eq_some_iff] at this
  exact this

theorem fieldIn_congr {a b : Pool} (h : b.files = a.files) (i : Nat) (q : Path) : b.fieldIn i q = a.fieldIn i q := by
  simp only [Pool.fieldIn, h]

theorem methodIn_congr {a b : Pool} (h : b.files = a.files) (i : Nat) (q : Path) : b.methodIn i q = a.methodIn i q := by
  simp only [Pool.methodIn, h]

/-! ### Writing back -/

theorem setRaw_field {st st' : St} {file : Nat} {path : Path} {g : FieldP → FieldP} {x : FieldP}
    (h : setRaw st file (fun raw => modField g raw path) = .ok st') (hx : st.pool.fieldIn file path = some x) :
    st'.pool.fieldIn file path = some (g x) ∧ Except1 file path st.pool st'.pool := by
  simp only [setRaw, bind_ok, getR_ok, unwrapR_ok, Except.ok.injEq] at h
  obtain ⟨fd, h1, raw, h2, h3⟩ := h
  subst h3
  simp only [Pool.fieldIn, h1] at hx
  have hl := getElem?_lt h1
  have key := fieldAt_mod g h2 hx
  refine ⟨?_, rfl, ?_, ?_, ?_⟩
  · simp only [Pool.fieldIn, List.getElem?_set_self hl, key, if_true]
  · intro i
    by_cases hi : file = i
    · subst hi; simp only [List.getElem?_set_self hl, h1, Option.map_some]
    · simp only [List.getElem?_set_ne hi]
  · intro i q hq
    by_cases hi : file = i
    · subst hi
      simp only [Pool.fieldIn, List.getElem?_set_self hl, h1, key]
      rw [if_neg (fun hc => hq ⟨rfl, hc⟩)]
    · simp only [Pool.fieldIn, List.getElem?_set_ne hi]
  · intro i q _
    by_cases hi : file = i
    · subst hi
      simp only [Pool.methodIn, List.getElem?_set_self hl, h1, methodAt_modField g h2]
    · simp only [Pool.methodIn, List.getElem?_set_ne hi]

theorem setRaw_method {st st' : St} {file : Nat} {path : Path} {g : MethodP → MethodP} {x : MethodP}
    (h : setRaw st file (fun raw => modMethod g raw path) = .ok st') (hx : st.pool.methodIn file path = some x) :
    st'.pool.methodIn file path = some (g x) ∧ Except1 file path st.pool st'.pool := by
  simp only [setRaw, bind_ok, getR_ok, unwrapR_ok, Except.ok.injEq] at h
  obtain ⟨fd, h1, raw, h2, h3⟩ := h
  subst h3
  simp only [Pool.methodIn, h1] at hx
  have hl := getElem?_lt h1
  have key := methodAt_mod g h2 hx
  refine ⟨?_, rfl, ?_, ?_, ?_⟩
  · simp only [Pool.methodIn, List.getElem?_set_self hl, key, if_true]
  · intro i
    by_cases hi : file = i
    · subst hi; simp only [List.getElem?_set_self hl, h1, Option.map_some]
    · simp only [List.getElem?_set_ne hi]
  · intro i q _
    by_cases hi : file = i
    · subst hi
      simp only [Pool.fieldIn, List.getElem?_set_self hl, h1, fieldAt_modMethod g h2]
    · simp only [Pool.fieldIn, List.getElem?_set_ne hi]
  · intro i q hq
    by_cases hi : file = i
    · subst hi
      simp only [Pool.methodIn, List.getElem?_set_self hl, h1, key]
      rw [if_neg (fun hc => hq ⟨rfl, hc⟩)]
    · simp only [Pool.methodIn, List.getElem?_set_ne hi]

theorem setRaw_msgOpt {st st' : St} {file : Nat} {path : Path} {o : Option (Option Bool)}
    (h : setRaw st file (fun raw => modMsg (fun mp => { mp with options := o }) raw path) = .ok st') (i : Nat)
    (q : Path) :
    st'.pool.fieldIn i q = st.pool.fieldIn i q ∧ st'.pool.methodIn i q = st.pool.methodIn i q := by
  simp only [setRaw, bind_ok, getR_ok, unwrapR_ok, Except.ok.injEq] at h
  obtain ⟨fd, h1, raw, h2, h3⟩ := h
  subst h3
  have hl := getElem?_lt h1
  by_cases hi : file = i
  · subst hi
    simp only [Pool.fieldIn, Pool.methodIn, List.getElem?_set_self hl, h1]
    exact at_modMsg o h2 q
  · simp only [Pool.fieldIn, Pool.methodIn, List.getElem?_set_ne hi]
    trivial

/-! ### What is written -/

/-- The name `n` is that of the type `k`. -/
def TypeNamed (names : List (Name × Def)) (n : Name) : Kind → Prop
  | .message t => ∃ d, lookupN names n = some d ∧ d.kind = .message t
  | .enum t => ∃ d, lookupN names n = some d ∧ d.kind = .enum t
  | _ => False

/-- The `type` written next to a resolved type name (resolve.rs:893-908). -/
def resolvedTy (ty : PType) : Kind → PType
  | .message _ => if ty = .group then .group else .message
  | _ => if ty = .group then .group else .enum

/-- The field `x`, whose type is `k`, with its type resolved. -/
def TypeFilled (names : List (Name × Def)) (f : FieldP) (k : Kind) (x y : FieldP) : Prop :=
  (f.typeName = [] ∧ y = x) ∨
  (f.typeName ≠ [] ∧ ∃ n, TypeNamed names n k ∧ y = { x with typeName := '.' :: n, ty := resolvedTy x.ty k })

theorem resolveIn_at {st st' : St} {scope name n : Name} {file : Nat} {path : Path} {t : Target} {fl : Filter}
    {d : Def} {fd : FileD} {r : Option Def} (h : resolveIn st scope name file path t fl = .ok (st', r))
    (hfd : st.pool.files[file]? = some fd)
    (hr : resolveName fd.trans st.pool.names scope name fl = .found n d) :
    r = some d ∧ setRaw st file (setTypeName path t ('.' :: n) d.kind.isMessage) = .ok st' := by
  simp only [resolveIn, bind_ok, getR_ok] at h
  obtain ⟨fd', h1, h⟩ := h
  rw [hfd] at h1; cases h1
  rw [hr] at h
  simp only [bind_ok, Except.ok.injEq, Prod.mk.injEq] at h
  obtain ⟨st1, h1, rfl, rfl⟩ := h
  exact ⟨rfl, h1⟩

theorem resolveType_at {st st' : St} {f : FieldP} {scope : Name} {file : Nat} {path : Path}
    {r : Option (Kind × Bool)} {fd : FileD} {k : Kind} {g : Bool} {x : FieldP}
    (h : resolveType st f scope file path = .ok (st', r))
    (hfd : st.pool.files[file]? = some fd) (ht : TypeOk fd.trans st.pool.names scope f k g)
    (hx : st.pool.fieldIn file path = some x) :
    ∃ y, st'.pool.fieldIn file path = some y ∧ TypeFilled st.pool.names f k x y ∧
      Except1 file path st.pool st'.pool := by
  unfold resolveType at h
  cases ht with
  | scalar k hn hk =>
    rw [if_pos hn, hk] at h
    simp only [Except.ok.injEq, Prod.mk.injEq] at h
    rw [← h.1]
    exact ⟨x, hx, .inl ⟨hn, rfl⟩, .of_eq rfl rfl⟩
  | message n d i hn hr hd =>
    rw [if_neg hn] at h
    simp only [bind_ok] at h
    obtain ⟨⟨st1, d'⟩, h1, h⟩ := h
    obtain ⟨rfl, h2⟩ := resolveIn_at h1 hfd hr
    simp only [hd, Except.ok.injEq, Prod.mk.injEq] at h
    rw [← h.1]
    obtain ⟨g1, g2⟩ := setRaw_field h2 hx
    exact ⟨_, g1, .inr ⟨hn, n, ⟨d, (resolveName_found hr).1, hd⟩, by
      simp only [resolvedTy, hd, DefKind.isMessage, if_true]⟩, g2⟩
  | enum n d i hn hr hd =>
    rw [if_neg hn] at h
    simp only [bind_ok] at h
    obtain ⟨⟨st1, d'⟩, h1, h⟩ := h
    obtain ⟨rfl, h2⟩ := resolveIn_at h1 hfd hr
    simp only [hd, Except.ok.injEq, Prod.mk.injEq] at h
    rw [← h.1]
    obtain ⟨g1, g2⟩ := setRaw_field h2 hx
    exact ⟨_, g1, .inr ⟨hn, n, ⟨d, (resolveName_found hr).1, hd⟩, by
      simp [resolvedTy, hd, DefKind.isMessage]⟩, g2⟩

theorem resolveJsonName_at {st st' : St} {f : FieldP} {file : Nat} {path : Path} {j : Name} {x : FieldP}
    (h : resolveJsonName st f file path = .ok (st', j)) (hx : st.pool.fieldIn file path = some x)
    (hj : x.jsonName = f.jsonName) :
    st'.pool.fieldIn file path = some { x with jsonName := some (jsonOf f) } ∧
      Except1 file path st.pool st'.pool := by
  unfold resolveJsonName at h
  unfold jsonOf
  split at h
  · next n hn =>
    simp only [Except.ok.injEq, Prod.mk.injEq] at h
    rw [← h.1, hn, hx]
    refine ⟨?_, .of_eq rfl rfl⟩
    simp only
    rw [← hn, ← hj]
  · next hn =>
    simp only [bind_ok, Except.ok.injEq, Prod.mk.injEq] at h
    obtain ⟨st1, h1, h2, h3⟩ := h
    subst h2
    rw [hn]
    exact setRaw_field h1 hx

theorem findMessage_at {st st' : St} {scope name : Name} {file : Nat} {path : Path} {t : Target}
    {r : Option Nat} {fd : FileD} {k : Nat} (h : findMessage st scope name file path t = .ok (st', r))
    (hfd : st.pool.files[file]? = some fd) (hm : MessageOk fd.trans st.pool.names scope name k) :
    ∃ n, TypeNamed st.pool.names n (.message k) ∧
      setRaw st file (setTypeName path t ('.' :: n) true) = .ok st' := by
  obtain ⟨n, d, hr, hd⟩ := hm
  simp only [findMessage, bind_ok] at h
  obtain ⟨⟨st1, d'⟩, h1, h⟩ := h
  obtain ⟨rfl, h2⟩ := resolveIn_at h1 hfd hr
  simp only [hd, Except.ok.injEq, Prod.mk.injEq, DefKind.isMessage] at h h2
  rw [← h.1]
  exact ⟨n, ⟨d, (resolveName_found hr).1, hd⟩, h2⟩

/-! ### The callbacks of the second pass -/

/-- A field as the second pass leaves it. -/
def FieldFilled (names : List (Name × Def)) (f : FieldP) (k : Kind) (y : FieldP) : Prop :=
  ∃ x, TypeFilled names f k f x ∧ y = { x with jsonName := some (jsonOf f) }

theorem TypeFilled.json {names : List (Name × Def)} {f x y : FieldP} {k : Kind} (h : TypeFilled names f k x y) :
    y.jsonName = x.jsonName := by
  rcases h with ⟨_, rfl⟩ | ⟨_, n, _, rfl⟩ <;> rfl

theorem field_at {env : Env} {st st' : St} {path : Path} {full : Name} {file k i : Nat} {f : FieldP} {fd : FileD}
    {kind : Kind} {g : Bool} (hs : resolveStep env st (.field path full file k i f) = .ok st')
    (hfd : st.pool.files[file]? = some fd) (ht : TypeOk fd.trans st.pool.names full f kind g)
    (hx : st.pool.fieldIn file path = some f) :
    (∃ y, st'.pool.fieldIn file path = some y ∧ FieldFilled st.pool.names f kind y) ∧
      Except1 file path st.pool st'.pool := by
  simp only [resolveStep, resolveField, bind_ok, getR_ok] at hs
  obtain ⟨fd', hfd', st1, h1, ⟨st2, kind'⟩, h2, ⟨st3, json⟩, h3, ⟨st4, dflt⟩, h4, m, hm,
    st5, h5, st6, h6, st7, h7, h8⟩ := hs
  simp only [Except.ok.injEq] at h8
  have e1 := (checkNumber_quiet h1).pool
  rw [← e1] at hfd ht hx
  obtain ⟨y, g1, g2, g3⟩ := resolveType_at h2 hfd ht hx
  obtain ⟨k1, k2⟩ := resolveJsonName_at h3 g1 g2.json
  have e7 : st7.pool = st3.pool := by
    rw [(reportDup_quiet h7).pool, (reportDup_quiet h6).pool, (reportDup_quiet h5).pool,
      (oneofStep_quiet st4 m f.oneofIndex i).pool, (parseDefaultOpt_quiet h4).pool]
  rw [← h8]
  rw [← e1]
  refine ⟨⟨_, ?_, y, g2, rfl⟩, ?_⟩
  · rw [fieldIn_congr (a := st3.pool) (by rw [e7])]; exact k1
  · exact (g3.trans' k2).trans' (.of_eq (by rw [e7]) (by rw [e7]))

theorem extension_at' {env : Env} {st st' : St} {path : Path} {full : Name} {file i : Nat} {parent : Option Nat}
    {f : FieldP} {fd : FileD} {kind : Kind} {g : Bool} {t : Nat}
    (hs : resolveStep env st (.extension path full file parent i f) = .ok st')
    (hfd : st.pool.files[file]? = some fd) (ht : TypeOk fd.trans st.pool.names full f kind g)
    (hm : MessageOk fd.trans st.pool.names full f.extendeeName t)
    (hx : st.pool.fieldIn file path = some f) :
    (∃ y n, TypeNamed st.pool.names n (.message t) ∧
      st'.pool.fieldIn file path = some { y with extendee := some ('.' :: n) } ∧
      FieldFilled st.pool.names f kind y) ∧
      Except1 file path st.pool st'.pool := by
  simp only [resolveStep, resolveExtension, bind_ok, getR_ok, Except.ok.injEq] at hs
  obtain ⟨⟨st1, ext⟩, h1, st2, h2, fd', hfd', ⟨st3, kind'⟩, h3, ⟨st4, json⟩, h4, ⟨st5, dflt⟩, h5,
    h6⟩ := hs
  obtain ⟨n, hn, h1⟩ := findMessage_at h1 hfd hm
  obtain ⟨a1, a2⟩ := setRaw_field h1 hx
  have f2 : st2.pool.files = st1.pool.files ∧ st2.pool.names = st1.pool.names := by
    unfold extendeeStep at h2
    split at h2
    · simp only [Except.ok.injEq] at h2; rw [← h2]; exact ⟨rfl, rfl⟩
    · simp only [bind_ok, modR_ok] at h2
      obtain ⟨ms, ⟨_, h7⟩, h8⟩ := h2
      have := (checkNumber_quiet h8).pool
      rw [this]; exact ⟨rfl, rfl⟩
  have a3 : Except1 file path st.pool st2.pool := a2.trans' (.of_eq f2.1 f2.2)
  rw [← fieldIn_congr f2.1] at a1
  obtain ⟨fd2, b1, b2⟩ := a3.file hfd
  rw [← b2, ← a3.names] at ht
  obtain ⟨y, g1, g2, g3⟩ := resolveType_at h3 b1 ht a1
  obtain ⟨k1, k2⟩ := resolveJsonName_at h4 g1 g2.json
  have e5 : st5.pool = st4.pool := (parseDefaultOpt_quiet h5).pool
  rw [← h6]
  refine ⟨⟨{ y with jsonName := some (jsonOf f), extendee := f.extendee }, n, hn, ?_, ?_⟩, ?_⟩
  · rw [fieldIn_congr (a := st4.pool) (by rw [e5])]
    rw [k1]
    rcases g2 with ⟨_, rfl⟩ | ⟨_, m, _, rfl⟩ <;> rfl
  · rw [a3.names] at g2
    rcases g2 with ⟨c1, rfl⟩ | ⟨c1, m, c2, rfl⟩
    · exact ⟨f, .inl ⟨c1, rfl⟩, rfl⟩
    · exact ⟨_, .inr ⟨c1, m, c2, rfl⟩, rfl⟩
  · exact ((a3.trans' g3).trans' k2).trans' (.of_eq (by rw [e5]) (by rw [e5]))

theorem method_at' {env : Env} {st st' : St} {path : Path} {full : Name} {file k i : Nat}
    {m : MethodP} {fd : FileD} {a b : Nat}
    (hs : resolveStep env st (.method path full file k i m) = .ok st')
    (hfd : st.pool.files[file]? = some fd)
    (ha : MessageOk fd.trans st.pool.names full m.input a)
    (hb : MessageOk fd.trans st.pool.names full m.output b)
    (hx : st.pool.methodIn file path = some m) :
    (∃ n n', TypeNamed st.pool.names n (.message a) ∧ TypeNamed st.pool.names n' (.message b) ∧
      st'.pool.methodIn file path = some { m with input := '.' :: n, output := '.' :: n' }) ∧
      Except1 file path st.pool st'.pool := by
  simp only [resolveStep, resolveMethod, bind_ok, modR_ok, Except.ok.injEq] at hs
  obtain ⟨⟨st1, a'⟩, h1, ⟨st2, b'⟩, h2, ss, ⟨_, h3⟩, h4⟩ := hs
  obtain ⟨n, hn, h1⟩ := findMessage_at h1 hfd ha
  obtain ⟨a1, a2⟩ := setRaw_method h1 hx
  obtain ⟨fd2, b1, b2⟩ := a2.file hfd
  rw [← b2, ← a2.names] at hb
  obtain ⟨n', hn', h2⟩ := findMessage_at h2 b1 hb
  obtain ⟨c1, c2⟩ := setRaw_method h2 a1
  rw [← h4]
  refine ⟨⟨n, n', hn, by rw [a2.names] at hn'; exact hn', ?_⟩, ?_⟩
  · exact (methodIn_congr (a := st2.pool) rfl _ _).trans c1
  · exact (a2.trans' c2).trans' (.of_eq rfl rfl)

/-- Where a callback of the second pass writes to. -/
def Event.slot : Event → Option (Nat × Path)
  | .field path _ fi _ _ _ => some (fi, path)
  | .extension path _ fi _ _ _ => some (fi, path)
  | .method path _ fi _ _ _ => some (fi, path)
  | _ => none

theorem depLoop_at {env : Env} {index : Nat} :
    ∀ {ds : List Name} {st st' : St} {tr tr' : List Nat},
      depLoop env index ds st tr = .ok (st', tr') → ∀ i q, st'.pool.fieldIn i q = st.pool.fieldIn i q ∧
        st'.pool.methodIn i q = st.pool.methodIn i q
  | [], st, st', tr, tr', hs => by
    simp only [depLoop, Except.ok.injEq, Prod.mk.injEq] at hs; rw [← hs.1]; exact fun _ _ => ⟨rfl, rfl⟩
  | d :: ds, st, st', tr, tr', hs => by
    simp only [depLoop] at hs
    split at hs
    · simp only [bind_ok, modR_ok] at hs
      obtain ⟨fs, ⟨_, h1⟩, tr1, _, hs⟩ := hs
      intro i q
      obtain ⟨e1, e2⟩ := depLoop_at (st := ⟨{ st.pool with files := fs }, st.errors⟩) hs i q
      rw [e1, e2]
      simp only [Pool.fieldIn, Pool.methodIn, h1]
      by_cases hi : index = i
      · subst hi
        rw [getElem?_modify_eq]
        cases st.pool.files[index]? <;> exact ⟨rfl, rfl⟩
      · rw [getElem?_modify_ne _ _ hi]; exact ⟨rfl, rfl⟩
    · simp only [bind_ok] at hs
      obtain ⟨st1, h1, hs⟩ := hs
      intro i q
      obtain ⟨e1, e2⟩ := depLoop_at hs i q
      rw [e1, e2, (Quiet.report h1).pool]
      exact ⟨rfl, rfl⟩

/-- The other callbacks write to no field and no method. -/
theorem other_at {env : Env} {st st' : St} {e : Event} (hs : resolveStep env st e = .ok st') (he : e.slot = none)
    (i : Nat) (q : Path) :
    st'.pool.fieldIn i q = st.pool.fieldIn i q ∧ st'.pool.methodIn i q = st.pool.methodIn i q := by
  cases e with
  | file path k f =>
    simp only [resolveStep, resolveFile, bind_ok, modR_ok, Except.ok.injEq] at hs
    obtain ⟨⟨st1, tr⟩, h1, fs, ⟨_, h2⟩, h3⟩ := hs
    obtain ⟨e1, e2⟩ := depLoop_at h1 i q
    rw [← e1, ← e2, ← h3, ((checkImports_quiet _ _ _).trans (checkImports_quiet _ _ _)).pool]
    simp only [Pool.fieldIn, Pool.methodIn, h2]
    by_cases hi : k = i
    · subst hi
      rw [getElem?_modify_eq]
      cases st1.pool.files[k]? <;> exact ⟨rfl, rfl⟩
    · rw [getElem?_modify_ne _ _ hi]; exact ⟨rfl, rfl⟩
  | message path full file parent k m =>
    simp only [resolveStep, Except.ok.injEq] at hs; rw [← hs]; exact ⟨rfl, rfl⟩
  | oneof path full file msg k o =>
    simp only [resolveStep, Except.ok.injEq] at hs; rw [← hs]; exact ⟨rfl, rfl⟩
  | enum path full file parent k en =>
    simp only [resolveStep, Except.ok.injEq] at hs; rw [← hs]; exact ⟨rfl, rfl⟩
  | service path full file k s =>
    simp only [resolveStep, Except.ok.injEq] at hs; rw [← hs]; exact ⟨rfl, rfl⟩
  | enumValue path full file enum k v =>
    simp only [resolveStep, resolveEnumValue, bind_ok, getR_ok, Except.ok.injEq] at hs
    obtain ⟨st1, h1, e, he, st2, h2, st3, h3, h4⟩ := hs
    rw [← h4]
    have : st3.pool = st.pool := by
      rw [(reportValueName_quiet h3).pool, (reportAlias_quiet h2).pool, (checkEnumNumber_quiet h1).pool]
    simp only [Pool.fieldIn, Pool.methodIn, this]
    trivial
  | field => cases he
  | method => cases he
  | extension => cases he

end Verif.Pool
