import Verif.Pool.Batch
/-!
The first pass when it reports no errors: what the pool contains for every declaration.
-/
set_option autoImplicit false
namespace Verif.Pool
open Verif.Wire Verif.Dyn

/-- The entry a declaration makes in the name table. -/
def Event.defn : Event → Option (Name × Def)
  | .file .. => none
  | .message path full fi _ i _ => some (full, ⟨fi, path, .message i⟩)
  | .field path full fi msg _ _ => some (full, ⟨fi, path, .field msg⟩)
  | .oneof path full fi msg _ _ => some (full, ⟨fi, path, .oneof msg⟩)
  | .service path full fi i _ => some (full, ⟨fi, path, .service i⟩)
  | .method path full fi svc _ _ => some (full, ⟨fi, path, .method svc⟩)
  | .enum path full fi _ i _ => some (full, ⟨fi, path, .enum i⟩)
  | .enumValue path full fi k _ _ => some (full, ⟨fi, path, .enumValue k⟩)
  | .extension path full fi _ i _ => some (full, ⟨fi, path, .extension i⟩)

theorem addName_ok {st st' : St} {file : Nat} {n : Name} {path : Path} {k : DefKind}
    (h : addName st file n path k = .ok st') (he : st'.errors = []) :
    st.errors = [] ∧
    ((lookupN st.pool.names n = none ∧ st'.pool = { st.pool with
      names := st.pool.names ++ [(n, ⟨file, path, k⟩)] }) ∨
     (k = .package ∧ st' = st ∧ ∃ d, lookupN st.pool.names n = some d ∧ d.kind = .package)) := by
  unfold addName at h
  split at h
  · next hn =>
    simp only [Except.ok.injEq] at h
    subst h
    exact ⟨he, .inl ⟨hn, rfl⟩⟩
  · next d hd =>
    split at h
    · next hk =>
      simp only [Except.ok.injEq] at h
      subst h
      exact ⟨he, .inr ⟨hk.1, rfl, d, hd, hk.2⟩⟩
    · simp only [bind_ok, report_ok] at h
      obtain ⟨_, _, _, h⟩ := h
      rw [h] at he
      exact absurd he (push_ne _ _)

theorem addPackages_errs {file : Nat} {path : Path} : ∀ {ns : List Name} {st st' : St},
    addPackages file path st ns = .ok st' → st.errors <+: st'.errors
  | [], st, st', h => by simp only [addPackages, Except.ok.injEq] at h; rw [h]; exact List.prefix_refl _
  | n :: ns, st, st', h => by
    simp only [addPackages] at h
    split at h
    · next st1 h1 =>
      refine List.IsPrefix.trans ?_ (addPackages_errs h)
      unfold addName at h1
      split at h1
      · simp only [Except.ok.injEq] at h1; rw [← h1]; exact List.prefix_refl _
      · split at h1
        · simp only [Except.ok.injEq] at h1; rw [← h1]; exact List.prefix_refl _
        · simp only [bind_ok, report_ok] at h1
          obtain ⟨_, _, _, h1⟩ := h1
          rw [h1]; exact (Quiet.push _ _).errors
    · cases h

theorem addPackages_ok {file : Nat} {path : Path} : ∀ {ns : List Name} {st st' : St},
    addPackages file path st ns = .ok st' → st'.errors = [] →
    ∃ l, st'.pool = { st.pool with names := st.pool.names ++ l } ∧
      (∀ x ∈ l, x.1 ∈ ns ∧ x.2 = ⟨file, path, .package⟩ ∧ lookupN st.pool.names x.1 = none) ∧
      ∀ n ∈ ns, ∃ d, lookupN (st.pool.names ++ l) n = some d ∧ d.kind = .package
  | [], st, st', h, he => by
    simp only [addPackages, Except.ok.injEq] at h
    subst h
    exact ⟨[], by simp, by simp, by simp⟩
  | n :: ns, st, st', h, he => by
    simp only [addPackages] at h
    split at h
    · next st1 h1 =>
      obtain ⟨l, h2, h3, h4⟩ := addPackages_ok h he
      obtain ⟨_, h5⟩ := addName_ok h1 (errors_nil (addPackages_errs h) he)
      rcases h5 with ⟨hn, h6⟩ | ⟨_, rfl, d, hd, hdk⟩
      · refine ⟨(n, ⟨file, path, .package⟩) :: l, by rw [h2, h6]; simp, ?_, ?_⟩
        · intro x hx
          rcases List.mem_cons.mp hx with rfl | hx
          · exact ⟨by simp, rfl, hn⟩
          · obtain ⟨a, b, c⟩ := h3 x hx
            refine ⟨List.mem_cons_of_mem _ a, b, ?_⟩
            rw [h6, lookupN_append] at c
            cases hh : lookupN st.pool.names x.1 with
            | none => rfl
            | some d => simp [hh] at c
        · have e : st.pool.names ++ (n, (⟨file, path, .package⟩ : Def)) :: l = st1.pool.names ++ l := by
            rw [h6]; simp
          rw [e]
          intro m hm
          rcases List.mem_cons.mp hm with rfl | hm
          · refine ⟨⟨file, path, .package⟩, ?_, rfl⟩
            rw [h6]
            simp [lookupN_append, hn, lookupN]
          · exact h4 m hm
      · refine ⟨l, h2, fun x hx => ?_, fun m hm => ?_⟩
        · obtain ⟨a, b, c⟩ := h3 x hx
          exact ⟨List.mem_cons_of_mem _ a, b, c⟩
        · rcases List.mem_cons.mp hm with rfl | hm
          · exact ⟨d, by simp [lookupN_append, hd], hdk⟩
          · exact h4 m hm
    · cases h

theorem checkCamelCase_ok {file : Nat} : ∀ {fs : List FieldP} {seen : List Name} {st st' : St},
    checkCamelCase file st seen fs = .ok st' → st'.errors = [] → st' = st ∧
      (fs.map fun f => toLowerWithoutUnderscores f.name).Nodup ∧
      ∀ f ∈ fs, toLowerWithoutUnderscores f.name ∉ seen
  | [], seen, st, st', h, he => by
    simp only [checkCamelCase, Except.ok.injEq] at h
    exact ⟨h.symm, by simp, by simp⟩
  | f :: fs, seen, st, st', h, he => by
    simp only [checkCamelCase] at h
    split at h
    · split at h
      · next st1 h1 =>
        have := errors_nil (checkCamelCase_quiet h).errors he
        rw [report_ok] at h1
        rw [h1.2] at this
        exact absurd this (push_ne _ _)
      · cases h
    · next hs =>
      obtain ⟨h1, h2, h3⟩ := checkCamelCase_ok h he
      have hs : toLowerWithoutUnderscores f.name ∉ seen := by simpa using hs
      refine ⟨h1, ?_, ?_⟩
      · rw [List.map_cons, List.nodup_cons]
        refine ⟨?_, h2⟩
        intro hm
        obtain ⟨g, hg, hg2⟩ := List.mem_map.mp hm
        exact h3 g hg (by rw [hg2]; simp)
      · intro g hg
        rcases List.mem_cons.mp hg with rfl | hg
        · exact hs
        · exact fun h => h3 g hg (List.mem_cons_of_mem _ h)

/-- The first value of an enum exists, and is zero in a proto3 file. -/
def FirstOk (syn : Syn) (vs : List EnumValueP) : Prop :=
  ∃ v r, vs = v :: r ∧ (syn = .proto3 → v.number = 0)

theorem checkFirst_ok {st st' : St} {file : Nat} {vs : List EnumValueP}
    (h : checkFirst st file vs = .ok st') (he : st'.errors = []) : st' = st ∧
      ∃ fd, st.pool.files[file]? = some fd ∧ FirstOk fd.syn vs := by
  unfold checkFirst at h
  split at h
  · rw [report_ok] at h
    rw [h.2] at he
    exact absurd he (push_ne _ _)
  · next v r =>
    simp only [bind_ok, getR_ok] at h
    obtain ⟨fd, hfd, h⟩ := h
    split at h
    · rw [report_ok] at h
      rw [h.2] at he
      exact absurd he (push_ne _ _)
    · next hn =>
      simp only [Except.ok.injEq] at h
      refine ⟨h.symm, fd, hfd, v, r, rfl, fun hs => ?_⟩
      apply Classical.byContradiction
      intro hv
      exact hn ⟨by rw [hs]; simp, hv⟩

/-- Effect of one callback of the first pass that reports nothing. -/
def NamesEff (p : Pool) (e : Event) (q : Pool) : Prop :=
  match e with
  | .file path i f => ∃ syn l, parseSyn f.syn = some syn ∧ lookupN p.fileNames f.name = none ∧
      q = { p with
        fileNames := p.fileNames ++ [(f.name, i)]
        files := p.files ++ [{ syn := syn, raw := f, prost := {}, deps := [], trans := [] }]
        names := p.names ++ l } ∧
      (∀ x ∈ l, x.1 ∈ packageNames f.package ∧ x.2 = ⟨i, path, .package⟩ ∧
        lookupN p.names x.1 = none) ∧
      ∀ n ∈ packageNames f.package, ∃ d, lookupN (p.names ++ l) n = some d ∧ d.kind = .package
  | .message path full file parent k m => lookupN p.names full = none ∧
      q = { p with
        names := p.names ++ [(full, ⟨file, path, .message k⟩)]
        messages := p.messages ++ [MsgD.fresh (Ident.mk' file path full m.name) parent] } ∧
      ∃ fd, p.files[file]? = some fd ∧
        (fd.syn = .proto3 → (m.fields.map fun f => toLowerWithoutUnderscores f.name).Nodup)
  | .field path full file k _ _ => lookupN p.names full = none ∧
      q = { p with names := p.names ++ [(full, ⟨file, path, .field k⟩)] }
  | .oneof path full file k _ o => lookupN p.names full = none ∧ k < p.messages.length ∧
      q = { p with
        names := p.names ++ [(full, ⟨file, path, .oneof k⟩)]
        messages := p.messages.modify k fun m =>
          { m with oneofs := m.oneofs ++ [{ id := Ident.mk' file path full o.name, fields := [] }] } }
  | .service path full file k _ => lookupN p.names full = none ∧
      q = { p with names := p.names ++ [(full, ⟨file, path, .service k⟩)] }
  | .method path full file k _ _ => lookupN p.names full = none ∧
      q = { p with names := p.names ++ [(full, ⟨file, path, .method k⟩)] }
  | .enum path full file parent k en => lookupN p.names full = none ∧
      q = { p with
        names := p.names ++ [(full, ⟨file, path, .enum k⟩)]
        enums := p.enums ++ [EnumD.fresh (Ident.mk' file path full en.name) parent en.allowAlias] } ∧
      ∃ fd, p.files[file]? = some fd ∧ FirstOk fd.syn en.values
  | .enumValue path full file k _ v => lookupN p.names full = none ∧ k < p.enums.length ∧
      q = { p with
        names := p.names ++ [(full, ⟨file, path, .enumValue k⟩)]
        enums := p.enums.modify k fun e =>
          { e with values := e.values ++
              [{ id := Ident.mk' file path full v.name, number := v.number }] } }
  | .extension path full file _ k _ => lookupN p.names full = none ∧
      q = { p with names := p.names ++ [(full, ⟨file, path, .extension k⟩)] }

theorem addName_def {st st' : St} {file : Nat} {n : Name} {path : Path} {k : DefKind}
    (h : addName st file n path k = .ok st') (he : st'.errors = []) (hk : k ≠ .package) :
    st.errors = [] ∧ lookupN st.pool.names n = none ∧ st'.pool = { st.pool with
      names := st.pool.names ++ [(n, ⟨file, path, k⟩)] } := by
  obtain ⟨h0, h1⟩ := addName_ok h he
  rcases h1 with ⟨h1, h2⟩ | ⟨h1, _⟩
  · exact ⟨h0, h1, h2⟩
  · exact absurd h1 hk

theorem names_eff {st st' : St} {e : Event} (h : namesStep st e = .ok st')
    (he : st'.errors = []) : st.errors = [] ∧ NamesEff st.pool e st'.pool := by
  cases e with
  | file path i f =>
    simp only [namesStep] at h
    split at h
    · rw [report_ok] at h
      rw [h.2] at he
      exact absurd he (push_ne _ _)
    · next syn hsyn =>
      have e1 := errors_nil (addPackages_errs h) he
      cases hl : lookupN st.pool.fileNames f.name with
      | some j =>
        simp only [hl, Option.isSome_some, if_true] at e1
        exact absurd e1 (push_ne _ _)
      | none =>
        obtain ⟨l, h2, h3, h4⟩ := addPackages_ok h he
        simp only [hl, Option.isSome_none, Bool.false_eq_true, if_false, insertN_of_none _ hl]
          at e1 h2 h3 h4
        exact ⟨e1, syn, l, hsyn, hl, h2, h3, h4⟩
  | message path full file parent k m =>
    simp only [namesStep, bind_ok, getR_ok] at h
    obtain ⟨st1, h1, fd, hfd, h2⟩ := h
    split at h2
    · next hs =>
      simp only [Except.ok.injEq] at h2
      subst h2
      obtain ⟨e0, hn, hp⟩ := addName_def h1 he (by simp)
      rw [hp] at hfd
      refine ⟨e0, hn, ?_, fd, hfd, ?_⟩
      · rw [hp]
      · rw [hs]; simp
    · obtain ⟨h3, h4, _⟩ := checkCamelCase_ok h2 he
      subst h3
      obtain ⟨e0, hn, hp⟩ := addName_def h1 he (by simp)
      rw [hp] at hfd
      exact ⟨e0, hn, by rw [hp], fd, hfd, fun _ => h4⟩
  | field path full file msg i f =>
    simp only [namesStep] at h
    exact addName_def h he (by simp)
  | oneof path full file msg i o =>
    simp only [namesStep, bind_ok, modR_ok, Except.ok.injEq] at h
    obtain ⟨st1, h1, ms, ⟨hk, hms⟩, h2⟩ := h
    subst h2
    obtain ⟨e0, hn, hp⟩ := addName_def h1 he (by simp)
    rw [hp] at hk hms
    exact ⟨e0, hn, hk, by rw [hms, hp]⟩
  | service path full file i s =>
    simp only [namesStep] at h
    exact addName_def h he (by simp)
  | method path full file svc i m =>
    simp only [namesStep] at h
    exact addName_def h he (by simp)
  | enum path full file parent k en =>
    simp only [namesStep, bind_ok, Except.ok.injEq] at h
    obtain ⟨st1, h1, st2, h2, h3⟩ := h
    subst h3
    obtain ⟨rfl, fd, hfd, hfo⟩ := checkFirst_ok h2 he
    obtain ⟨e0, hn, hp⟩ := addName_def h1 he (by simp)
    rw [hp] at hfd
    exact ⟨e0, hn, by rw [hp], fd, hfd, hfo⟩
  | enumValue path full file enum i v =>
    simp only [namesStep, bind_ok, modR_ok, Except.ok.injEq] at h
    obtain ⟨st1, h1, ms, ⟨hk, hms⟩, h2⟩ := h
    subst h2
    obtain ⟨e0, hn, hp⟩ := addName_def h1 he (by simp)
    rw [hp] at hk hms
    exact ⟨e0, hn, hk, by rw [hms, hp]⟩
  | extension path full file parent i f =>
    simp only [namesStep] at h
    exact addName_def h he (by simp)

/-- Nothing has been counted for declarations not yet visited. -/
structure Cnt.Zero (c : Cnt) : Prop where
  fields : ∀ k, c.message ≤ k → c.fields k = 0
  oneofs : ∀ k, c.message ≤ k → c.oneofs k = 0
  values : ∀ k, c.enum ≤ k → c.values k = 0
  methods : ∀ k, c.service ≤ k → c.methods k = 0

theorem Cnt.start_zero (o : Offs) : (Cnt.start o).Zero :=
  ⟨fun _ _ => rfl, fun _ _ => rfl, fun _ _ => rfl, fun _ _ => rfl⟩

theorem Cnt.Zero.step {o : Offs} {c c' : Cnt} {e : Event} (h : c.Zero)
    (hs : c.step o e = some c') : c'.Zero := by
  obtain ⟨h1, h2, h3, h4⟩ := h
  cases e <;> simp only [Cnt.step] at hs <;> split at hs <;> cases hs
  all_goals next hi =>
    constructor <;> intro k hk <;> simp only [bump, between] at * <;>
    first
      | exact h1 k (by omega)
      | exact h2 k (by omega)
      | exact h3 k (by omega)
      | exact h4 k (by omega)
      | (rw [if_neg (by omega)]; first
          | exact h1 k (by omega)
          | exact h2 k (by omega)
          | exact h3 k (by omega)
          | exact h4 k (by omega))

/-- The state of a declaration after the first pass has visited it. -/
def Ev1 (q : Pool) (c : Cnt) (e : Event) : Prop :=
  (∀ n d, e.defn = some (n, d) → lookupN q.names n = some d) ∧
  match e with
  | .file _ i f => (∃ syn, parseSyn f.syn = some syn ∧
      q.files[i]? = some { syn := syn, raw := f, prost := {}, deps := [], trans := [] }) ∧
      lookupN q.fileNames f.name = some i ∧
      ∀ n ∈ packageNames f.package, ∃ d, lookupN q.names n = some d ∧ d.kind = .package
  | .message path full file parent k m =>
      (∃ md, q.messages[k]? = some md ∧ md.oneofs.length = c.oneofs k ∧
        md = { MsgD.fresh (Ident.mk' file path full m.name) parent with oneofs := md.oneofs }) ∧
      ∃ fd, q.files[file]? = some fd ∧
        (fd.syn = .proto3 → (m.fields.map fun f => toLowerWithoutUnderscores f.name).Nodup)
  | .oneof path full file k i o => ∃ md, q.messages[k]? = some md ∧
      md.oneofs[i]? = some { id := Ident.mk' file path full o.name, fields := [] }
  | .enum path full file parent k en =>
      (∃ ed, q.enums[k]? = some ed ∧ ed.values.length = c.values k ∧
        ed = { EnumD.fresh (Ident.mk' file path full en.name) parent en.allowAlias with
          values := ed.values }) ∧
      ∃ fd, q.files[file]? = some fd ∧ FirstOk fd.syn en.values
  | .enumValue path full file k i v => ∃ ed, q.enums[k]? = some ed ∧
      ed.values[i]? = some { id := Ident.mk' file path full v.name, number := v.number }
  | _ => True

/-- Pool and counters agree. -/
structure Len1 (q : Pool) (c : Cnt) : Prop where
  files : q.files.length = c.file
  messages : q.messages.length = c.message
  enums : q.enums.length = c.enum

theorem getElem?_append_of_some {α : Type} {l : List α} {i : Nat} {a : α} (r : List α)
    (h : l[i]? = some a) : (l ++ r)[i]? = some a := by
  rw [List.getElem?_append_left]
  · exact h
  · rw [List.getElem?_eq_some_iff] at h; exact h.1

theorem lookupN_append_some {α : Type} {a : List (Name × α)} (b : List (Name × α)) {n : Name} {v : α}
    (h : lookupN a n = some v) : lookupN (a ++ b) n = some v := by
  rw [lookupN_append, h]; rfl

/-- Monotonicity of the parts other callbacks can change. -/
structure Mono1 (p : Pool) (c : Cnt) (q : Pool) (c' : Cnt) : Prop where
  names : ∀ n d, lookupN p.names n = some d → lookupN q.names n = some d
  fileNames : ∀ n d, lookupN p.fileNames n = some d → lookupN q.fileNames n = some d
  files : ∀ (i : Nat) fd, p.files[i]? = some fd → q.files[i]? = some fd
  messages : ∀ (k : Nat) md, p.messages[k]? = some md → ∃ l, q.messages[k]? =
    some { md with oneofs := md.oneofs ++ l } ∧ c'.oneofs k = c.oneofs k + l.length
  enums : ∀ (k : Nat) ed, p.enums[k]? = some ed → ∃ l, q.enums[k]? =
    some { ed with values := ed.values ++ l } ∧ c'.values k = c.values k + l.length

theorem names_mono {p q : Pool} {o : Offs} {c c' : Cnt} {e : Event} (h : NamesEff p e q)
    (hs : c.step o e = some c') : Mono1 p c q c' := by
  have m0 : ∀ (k : Nat) (md : MsgD), p.messages[k]? = some md → ∃ l, p.messages[k]? =
    some { md with oneofs := md.oneofs ++ l } ∧ c.oneofs k = c.oneofs k + l.length :=
    fun k md hm => ⟨[], by simp [hm], by simp⟩
  have e0 : ∀ (k : Nat) (ed : EnumD), p.enums[k]? = some ed → ∃ l, p.enums[k]? =
    some { ed with values := ed.values ++ l } ∧ c.values k = c.values k + l.length :=
    fun k md hm => ⟨[], by simp [hm], by simp⟩
  cases e with
  | file path i f =>
    obtain ⟨syn, l, _, _, rfl, _, _⟩ := h
    simp only [Cnt.step] at hs; split at hs <;> cases hs
    exact ⟨fun n d h => lookupN_append_some _ h, fun n d h => lookupN_append_some _ h,
      fun i fd h => getElem?_append_of_some _ h, m0, e0⟩
  | message path full file parent k m =>
    obtain ⟨_, rfl, _⟩ := h
    simp only [Cnt.step] at hs; split at hs <;> cases hs
    exact ⟨fun n d h => lookupN_append_some _ h, fun n d h => h, fun i fd h => h,
      fun k md h => ⟨[], by simp [getElem?_append_of_some _ h], by simp⟩, e0⟩
  | oneof path full file k i on =>
    obtain ⟨_, hk, rfl⟩ := h
    simp only [Cnt.step] at hs; split at hs <;> cases hs
    refine ⟨fun n d h => lookupN_append_some _ h, fun n d h => h, fun i fd h => h, ?_, e0⟩
    intro j md hj
    by_cases hjk : j = k
    · subst hjk
      refine ⟨[{ id := Ident.mk' file path full on.name, fields := [] }], ?_, by simp [bump]⟩
      simp only [getElem?_modify_eq, hj, Option.map_some]
    · refine ⟨[], ?_, by simp [bump, hjk]⟩
      simp only [getElem?_modify_ne _ _ (Ne.symm hjk), hj, List.append_nil]
  | enum path full file parent k m =>
    obtain ⟨_, rfl, _⟩ := h
    simp only [Cnt.step] at hs; split at hs <;> cases hs
    exact ⟨fun n d h => lookupN_append_some _ h, fun n d h => h, fun i fd h => h, m0,
      fun k md h => ⟨[], by simp [getElem?_append_of_some _ h], by simp⟩⟩
  | enumValue path full file k i v =>
    obtain ⟨_, hk, rfl⟩ := h
    simp only [Cnt.step] at hs; split at hs <;> cases hs
    refine ⟨fun n d h => lookupN_append_some _ h, fun n d h => h, fun i fd h => h, m0, ?_⟩
    intro j md hj
    by_cases hjk : j = k
    · subst hjk
      refine ⟨[{ id := Ident.mk' file path full v.name, number := v.number }], ?_, by simp [bump]⟩
      simp only [getElem?_modify_eq, hj, Option.map_some]
    · refine ⟨[], ?_, by simp [bump, hjk]⟩
      simp only [getElem?_modify_ne _ _ (Ne.symm hjk), hj, List.append_nil]
  | _ =>
    obtain ⟨_, rfl⟩ := h
    simp only [Cnt.step] at hs; split at hs <;> cases hs
    exact ⟨fun n d h => lookupN_append_some _ h, fun n d h => h, fun i fd h => h, m0, e0⟩

theorem Ev1.mono {p q : Pool} {c c' : Cnt} {e : Event} (h : Ev1 p c e) (m : Mono1 p c q c') :
    Ev1 q c' e := by
  obtain ⟨h0, h⟩ := h
  refine ⟨fun n d hd => m.names _ _ (h0 n d hd), ?_⟩
  cases e with
  | file path i f =>
    obtain ⟨⟨syn, h1, h2⟩, h3, h4⟩ := h
    exact ⟨⟨syn, h1, m.files _ _ h2⟩, m.fileNames _ _ h3, fun n hn => by
      obtain ⟨d, h5, h6⟩ := h4 n hn
      exact ⟨d, m.names _ _ h5, h6⟩⟩
  | message path full file parent k mp =>
    obtain ⟨⟨md, h1, h2, h3⟩, fd, h4, h5⟩ := h
    obtain ⟨l, h6, h7⟩ := m.messages _ _ h1
    refine ⟨⟨_, h6, by simp [h2, h7], ?_⟩, fd, m.files _ _ h4, h5⟩
    rw [h3]
  | oneof path full file k i on =>
    obtain ⟨md, h1, h2⟩ := h
    obtain ⟨l, h6, h7⟩ := m.messages _ _ h1
    exact ⟨_, h6, getElem?_append_of_some _ h2⟩
  | enum path full file parent k mp =>
    obtain ⟨⟨md, h1, h2, h3⟩, fd, h4, h5⟩ := h
    obtain ⟨l, h6, h7⟩ := m.enums _ _ h1
    refine ⟨⟨_, h6, by simp [h2, h7], ?_⟩, fd, m.files _ _ h4, h5⟩
    rw [h3]
  | enumValue path full file k i on =>
    obtain ⟨md, h1, h2⟩ := h
    obtain ⟨l, h6, h7⟩ := m.enums _ _ h1
    exact ⟨_, h6, getElem?_append_of_some _ h2⟩
  | _ => trivial

/-- Every member's parent has its lists as long as the counters say. -/
def Sizes1 (q : Pool) (c : Cnt) (o : Offs) : Prop :=
  (∀ (k : Nat) md, o.message ≤ k → q.messages[k]? = some md → md.oneofs.length = c.oneofs k) ∧
  (∀ (k : Nat) ed, o.enum ≤ k → q.enums[k]? = some ed → ed.values.length = c.values k)

theorem lookupN_append_new {α : Type} {a : List (Name × α)} {n : Name} (v : α)
    (h : lookupN a n = none) : lookupN (a ++ [(n, v)]) n = some v := by
  rw [lookupN_append, h]; simp [lookupN]

theorem Ev1.new {p q : Pool} {o : Offs} {c c' : Cnt} {e : Event} (h : NamesEff p e q)
    (hs : c.step o e = some c') (hz : c.Zero) (hl : Len1 p c) (hsz : Sizes1 p c o) : Ev1 q c' e := by
  cases e with
  | file path i f =>
    obtain ⟨syn, l, h1, h2, rfl, h3, h4⟩ := h
    simp only [Cnt.step] at hs; split at hs
    · next hi =>
      cases hs
      refine ⟨by simp [Event.defn], ⟨syn, h1, ?_⟩, lookupN_append_new _ h2, h4⟩
      show (p.files ++ [_])[i]? = _
      rw [hi, ← hl.files, List.getElem?_append_right (Nat.le_refl _)]; simp
    · cases hs
  | message path full file parent k m =>
    obtain ⟨h1, rfl, fd, h2, h3⟩ := h
    simp only [Cnt.step] at hs; split at hs
    · next hi =>
      cases hs
      refine ⟨?_, ⟨MsgD.fresh (Ident.mk' file path full m.name) parent, ?_, ?_, rfl⟩, fd, h2, h3⟩
      · intro n d hd
        simp only [Event.defn, Option.some.injEq, Prod.mk.injEq] at hd
        obtain ⟨rfl, rfl⟩ := hd
        exact lookupN_append_new _ h1
      · show (p.messages ++ [_])[k]? = _
        rw [hi.1, ← hl.messages]; simp
      · simp only [MsgD.fresh, List.length_nil]
        exact (hz.oneofs _ (by omega)).symm
    · cases hs
  | oneof path full file k i on =>
    obtain ⟨h1, hk, rfl⟩ := h
    simp only [Cnt.step] at hs; split at hs
    · next hi =>
      refine ⟨?_, ?_⟩
      · intro n d hd
        simp only [Event.defn, Option.some.injEq, Prod.mk.injEq] at hd
        obtain ⟨rfl, rfl⟩ := hd
        exact lookupN_append_new _ h1
      · have hm : p.messages[k]? = some p.messages[k] := by simp [hk]
        refine ⟨_, by simp only [getElem?_modify_eq, hm, Option.map_some]; exact rfl, ?_⟩
        rw [hi.1, ← hsz.1 k _ hi.2.1.1 hm]; simp
    · cases hs
  | enum path full file parent k m =>
    obtain ⟨h1, rfl, fd, h2, h3⟩ := h
    simp only [Cnt.step] at hs; split at hs
    · next hi =>
      cases hs
      refine ⟨?_, ⟨EnumD.fresh (Ident.mk' file path full m.name) parent m.allowAlias, ?_, ?_, rfl⟩, fd, h2, h3⟩
      · intro n d hd
        simp only [Event.defn, Option.some.injEq, Prod.mk.injEq] at hd
        obtain ⟨rfl, rfl⟩ := hd
        exact lookupN_append_new _ h1
      · show (p.enums ++ [_])[k]? = _
        rw [hi.1, ← hl.enums]; simp
      · simp only [EnumD.fresh, List.length_nil]
        exact (hz.values _ (by omega)).symm
    · cases hs
  | enumValue path full file k i on =>
    obtain ⟨h1, hk, rfl⟩ := h
    simp only [Cnt.step] at hs; split at hs
    · next hi =>
      refine ⟨?_, ?_⟩
      · intro n d hd
        simp only [Event.defn, Option.some.injEq, Prod.mk.injEq] at hd
        obtain ⟨rfl, rfl⟩ := hd
        exact lookupN_append_new _ h1
      · have hm : p.enums[k]? = some p.enums[k] := by simp [hk]
        refine ⟨_, by simp only [getElem?_modify_eq, hm, Option.map_some]; exact rfl, ?_⟩
        rw [hi.1, ← hsz.2 k _ hi.2.1.1 hm]; simp
    · cases hs
  | _ =>
    obtain ⟨h1, rfl⟩ := h
    refine ⟨?_, trivial⟩
    intro n d hd
    simp only [Event.defn, Option.some.injEq, Prod.mk.injEq] at hd
    obtain ⟨rfl, rfl⟩ := hd
    exact lookupN_append_new _ h1

theorem Len1.step {p q : Pool} {o : Offs} {c c' : Cnt} {e : Event} (h : NamesEff p e q)
    (hs : c.step o e = some c') (hl : Len1 p c) : Len1 q c' := by
  obtain ⟨l1, l2, l3⟩ := hl
  cases e with
  | file path i f =>
    obtain ⟨syn, l, _, _, rfl, _, _⟩ := h
    simp only [Cnt.step] at hs; split at hs <;> cases hs
    exact ⟨by simp [l1], l2, l3⟩
  | message path full file parent k m =>
    obtain ⟨_, rfl, _⟩ := h
    simp only [Cnt.step] at hs; split at hs <;> cases hs
    exact ⟨l1, by simp [l2], l3⟩
  | oneof path full file k i on =>
    obtain ⟨_, _, rfl⟩ := h
    simp only [Cnt.step] at hs; split at hs <;> cases hs
    exact ⟨l1, by simp [l2], l3⟩
  | enum path full file parent k m =>
    obtain ⟨_, rfl, _⟩ := h
    simp only [Cnt.step] at hs; split at hs <;> cases hs
    exact ⟨l1, l2, by simp [l3]⟩
  | enumValue path full file k i on =>
    obtain ⟨_, _, rfl⟩ := h
    simp only [Cnt.step] at hs; split at hs <;> cases hs
    exact ⟨l1, l2, by simp [l3]⟩
  | _ =>
    obtain ⟨_, rfl⟩ := h
    simp only [Cnt.step] at hs; split at hs <;> cases hs
    exact ⟨l1, l2, l3⟩

theorem Sizes1.step {p q : Pool} {o : Offs} {c c' : Cnt} {e : Event} (h : NamesEff p e q)
    (hs : c.step o e = some c') (hz : c.Zero) (hl : Len1 p c) (hl' : Len1 q c')
    (hsz : Sizes1 p c o) : Sizes1 q c' o := by
  have m := names_mono h hs
  have hnew := Ev1.new h hs hz hl hsz
  constructor
  · intro k md hk hm
    by_cases hkl : k < p.messages.length
    · have hp : p.messages[k]? = some p.messages[k] := by simp [hkl]
      obtain ⟨l, h1, h2⟩ := m.messages k _ hp
      rw [h1] at hm
      cases hm
      rw [h2, List.length_append, hsz.1 k _ hk hp]
    · have hq : k < q.messages.length := by
        rw [List.getElem?_eq_some_iff] at hm; exact hm.1
      rw [hl'.messages] at hq
      rw [hl.messages] at hkl
      cases e with
      | message path full file parent j mp =>
        simp only [Cnt.step] at hs; split at hs
        · next hi =>
          cases hs
          simp only at hq
          have : k = j := by omega
          subst this
          obtain ⟨_, ⟨md', h1, h2, _⟩, _⟩ := hnew
          rw [h1] at hm; cases hm
          exact h2
        · cases hs
      | _ =>
        simp only [Cnt.step] at hs; split at hs <;> cases hs
        simp only at hq
        omega
  · intro k md hk hm
    by_cases hkl : k < p.enums.length
    · have hp : p.enums[k]? = some p.enums[k] := by simp [hkl]
      obtain ⟨l, h1, h2⟩ := m.enums k _ hp
      rw [h1] at hm
      cases hm
      rw [h2, List.length_append, hsz.2 k _ hk hp]
    · have hq : k < q.enums.length := by
        rw [List.getElem?_eq_some_iff] at hm; exact hm.1
      rw [hl'.enums] at hq
      rw [hl.enums] at hkl
      cases e with
      | enum path full file parent j mp =>
        simp only [Cnt.step] at hs; split at hs
        · next hi =>
          cases hs
          simp only at hq
          have : k = j := by omega
          subst this
          obtain ⟨_, ⟨md', h1, h2, _⟩, _⟩ := hnew
          rw [h1] at hm; cases hm
          exact h2
        · cases hs
      | _ =>
        simp only [Cnt.step] at hs; split at hs <;> cases hs
        simp only at hq
        omega

/-- Where the new entries of the name tables come from. -/
structure From1 (p : Pool) (pre : List Event) (q : Pool) : Prop where
  names : ∃ l, q.names = p.names ++ l ∧ ∀ x ∈ l, lookupN p.names x.1 = none ∧
    ((∃ e ∈ pre, e.defn = some x) ∨
     ∃ path i f, .file path i f ∈ pre ∧ x.1 ∈ packageNames f.package ∧ x.2 = ⟨i, path, .package⟩)
  fileNames : ∃ l, q.fileNames = p.fileNames ++ l ∧ ∀ x ∈ l, lookupN p.fileNames x.1 = none ∧
    ∃ path f, .file path x.2 f ∈ pre ∧ f.name = x.1
  extensions : q.extensions = p.extensions
  services : q.services = p.services

theorem From1.step {p q r : Pool} {pre : List Event} {e : Event} (h : From1 p pre q)
    (he : NamesEff q e r) : From1 p (pre ++ [e]) r := by
  obtain ⟨⟨l, hl, h1⟩, ⟨fl, hfl, h2⟩, h3, h4⟩ := h
  have add : ∀ (x : Name × Def), lookupN q.names x.1 = none → e.defn = some x →
      ∃ l, q.names ++ [x] = p.names ++ l ∧ ∀ x ∈ l, lookupN p.names x.1 = none ∧
        ((∃ e' ∈ pre ++ [e], e'.defn = some x) ∨
         ∃ path i f, .file path i f ∈ pre ++ [e] ∧ x.1 ∈ packageNames f.package ∧
          x.2 = ⟨i, path, .package⟩) := by
    intro x hx hd
    refine ⟨l ++ [x], by rw [hl]; simp, ?_⟩
    intro y hy
    rcases List.mem_append.mp hy with hy | hy
    · obtain ⟨a, b⟩ := h1 y hy
      refine ⟨a, ?_⟩
      rcases b with ⟨e', b1, b2⟩ | ⟨path, i, f, b1, b2⟩
      · exact .inl ⟨e', List.mem_append_left _ b1, b2⟩
      · exact .inr ⟨path, i, f, List.mem_append_left _ b1, b2⟩
    · have hy : y = x := by simpa using hy
      subst hy
      refine ⟨?_, .inl ⟨e, by simp, hd⟩⟩
      rw [hl, lookupN_append] at hx
      cases hh : lookupN p.names y.1 with
      | none => rfl
      | some d => simp [hh] at hx
  have keep : ∃ l, q.fileNames = p.fileNames ++ l ∧ ∀ x ∈ l, lookupN p.fileNames x.1 = none ∧
      ∃ path f, .file path x.2 f ∈ pre ++ [e] ∧ f.name = x.1 :=
    ⟨fl, hfl, fun x hx => by
      obtain ⟨a, path, f, b, c⟩ := h2 x hx
      exact ⟨a, path, f, List.mem_append_left _ b, c⟩⟩
  cases e with
  | file path i f =>
    obtain ⟨syn, l', _, hn, rfl, h5, _⟩ := he
    refine ⟨⟨l ++ l', by simp [hl], ?_⟩, ⟨fl ++ [(f.name, i)], by simp [hfl], ?_⟩, h3, h4⟩
    · intro y hy
      rcases List.mem_append.mp hy with hy | hy
      · obtain ⟨a, b⟩ := h1 y hy
        refine ⟨a, ?_⟩
        rcases b with ⟨e', b1, b2⟩ | ⟨path, i, f, b1, b2⟩
        · exact .inl ⟨e', List.mem_append_left _ b1, b2⟩
        · exact .inr ⟨path, i, f, List.mem_append_left _ b1, b2⟩
      · obtain ⟨a, b, cc⟩ := h5 y hy
        refine ⟨?_, .inr ⟨path, i, f, by simp, a, b⟩⟩
        rw [hl, lookupN_append] at cc
        cases hh : lookupN p.names y.1 with
        | none => rfl
        | some d => simp [hh] at cc
    · intro y hy
      rcases List.mem_append.mp hy with hy | hy
      · obtain ⟨a, path, f, b, c⟩ := h2 y hy
        exact ⟨a, path, f, List.mem_append_left _ b, c⟩
      · have hy : y = (f.name, i) := by simpa using hy
        subst hy
        refine ⟨?_, path, f, by simp, rfl⟩
        rw [hfl, lookupN_append] at hn
        cases hh : lookupN p.fileNames f.name with
        | none => rfl
        | some d => simp [hh] at hn
  | message path full file parent k m =>
    obtain ⟨hn, rfl, _⟩ := he
    exact ⟨add _ hn rfl, keep, h3, h4⟩
  | oneof path full file k i on =>
    obtain ⟨hn, _, rfl⟩ := he
    exact ⟨add _ hn rfl, keep, h3, h4⟩
  | enum path full file parent k m =>
    obtain ⟨hn, rfl, _⟩ := he
    exact ⟨add _ hn rfl, keep, h3, h4⟩
  | enumValue path full file k i on =>
    obtain ⟨hn, _, rfl⟩ := he
    exact ⟨add _ hn rfl, keep, h3, h4⟩
  | _ =>
    obtain ⟨hn, rfl⟩ := he
    exact ⟨add _ hn rfl, keep, h3, h4⟩

/-- The first pass as a whole. -/
structure Names1 (p : Pool) (pre : List Event) (c : Cnt) (q : Pool) : Prop where
  above : c.Above p.offs
  zero : c.Zero
  len : Len1 q c
  sizes : Sizes1 q c p.offs
  src : From1 p pre q
  evs : ∀ e ∈ pre, Ev1 q c e

theorem namesStep_errs {st st' : St} {e : Event} (h : namesStep st e = .ok st') :
    st'.errors = [] → st.errors = [] := fun he => (names_eff h he).1

theorem Names1.step {p q r : Pool} {pre : List Event} {c c' : Cnt} {e : Event} (I : Names1 p pre c q)
    (eff : NamesEff q e r) (hcs : c.step p.offs e = some c') : Names1 p (pre ++ [e]) c' r := by
  have hl := I.len.step eff hcs
  refine ⟨I.above.step hcs, I.zero.step hcs, hl, I.sizes.step eff hcs I.zero I.len hl,
    I.src.step eff, ?_⟩
  intro x hx
  rcases List.mem_append.mp hx with hx | hx
  · exact (I.evs x hx).mono (names_mono eff hcs)
  · have hx : x = e := by simpa using hx
    subst hx
    exact Ev1.new eff hcs I.zero I.len I.sizes

theorem names1_start (p : Pool) : Names1 p [] (Cnt.start p.offs) p := by
  refine ⟨Cnt.start_above _, Cnt.start_zero _, ⟨rfl, rfl, rfl⟩, ⟨?_, ?_⟩,
    ⟨⟨[], by simp, by simp⟩, ⟨[], by simp, by simp⟩, rfl, rfl⟩, by simp⟩
  · intro k md hk hm
    rw [List.getElem?_eq_some_iff] at hm
    have := hm.1
    have h2 : p.offs.message = p.messages.length := rfl
    omega
  · intro k md hk hm
    rw [List.getElem?_eq_some_iff] at hm
    have := hm.1
    have h2 : p.offs.enum = p.enums.length := rfl
    omega

theorem names_pass {p : Pool} {fs : List FileP} {st : St}
    (h : runPass namesStep ⟨p, []⟩ (visit p.offs fs) = .ok st) (he : st.errors = []) :
    ∃ c, Cnt.run p.offs (Cnt.start p.offs) (visit p.offs fs) = some c ∧
      c.At (offsAfter p.offs fs) ∧ Names1 p (visit p.offs fs) c st.pool := by
  obtain ⟨c, hc, ha⟩ := run_start p.offs fs
  refine ⟨c, hc, ha, ?_⟩
  have := pass_inv (o := p.offs) (fun pre c st => st.errors = [] → Names1 p pre c st.pool)
    ?_ _ [] _ _ _ _ hc ?_ h
  · exact this he
  · intro pre c st e c' st' hcs hI hs he
    obtain ⟨e0, eff⟩ := names_eff hs he
    exact (hI e0).step eff hcs
  · intro _
    exact names1_start p

end Verif.Pool
