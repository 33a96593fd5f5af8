import Verif.Pool.Build
import Verif.Pool.Strip
/-!
What the helper functions of the resolve pass change: errors only grow, and the only part
of the pool they touch is the file descriptor being resolved, up to what `strip` forgets.
-/
set_option autoImplicit false
namespace Verif.Pool
open Verif.Wire Verif.Dyn

theorem bind_ok {α β : Type} {x : Res α} {f : α → Res β} {b : β} :
    (x >>= f) = .ok b ↔ ∃ a, x = .ok a ∧ f a = .ok b := by
  cases x with
  | error p => simp [bind, Except.bind]
  | ok a => simp [bind, Except.bind]

theorem getR_ok {α : Type} {l : List α} {i : Nat} {a : α} :
    getR l i = .ok a ↔ l[i]? = some a := by
  unfold getR
  cases h : l[i]? with
  | none => simp
  | some b => simp

theorem modR_ok {α : Type} {l l' : List α} {i : Nat} {f : α → α} :
    modR l i f = .ok l' ↔ i < l.length ∧ l' = l.modify i f := by
  unfold modR
  split
  · next h => simp [h, eq_comm]
  · next h => simp [h]

theorem unwrapR_ok {α : Type} {o : Option α} {a : α} : unwrapR o = .ok a ↔ o = some a := by
  cases o <;> simp [unwrapR]

theorem label_ok {st : St} {file : Nat} {u : Unit} :
    label st file = .ok u ↔ file < st.pool.files.length := by
  unfold label
  split
  · next h => simp [h]
  · next h => simp [h]

theorem report_ok {st st' : St} {file : Nat} {e : ErrKind} :
    st.report file e = .ok st' ↔ file < st.pool.files.length ∧ st' = st.push e := by
  simp only [St.report, bind_ok, label_ok, Except.ok.injEq]
  constructor
  · rintro ⟨_, h1, h2⟩; exact ⟨h1, h2.symm⟩
  · rintro ⟨h1, h2⟩; exact ⟨(), h1, h2.symm⟩

/-- Only errors were added. -/
structure Quiet (st st' : St) : Prop where
  pool : st'.pool = st.pool
  errors : st.errors <+: st'.errors

theorem Quiet.refl (st : St) : Quiet st st := ⟨rfl, List.prefix_refl _⟩

theorem Quiet.trans {a b c : St} (h : Quiet a b) (g : Quiet b c) : Quiet a c :=
  ⟨g.pool.trans h.pool, h.errors.trans g.errors⟩

theorem Quiet.push (st : St) (e : ErrKind) : Quiet st (st.push e) :=
  ⟨rfl, List.prefix_append _ _⟩

theorem Quiet.report {st st' : St} {file : Nat} {e : ErrKind} (h : st.report file e = .ok st') :
    Quiet st st' := by
  rw [report_ok] at h; rw [h.2]; exact Quiet.push _ _

/-- A pass that ends without errors had none before. -/
theorem errors_nil {a b : List ErrKind} (h : a <+: b) (g : b = []) : a = [] := by
  subst g; exact List.prefix_nil.mp h

theorem push_ne (st : St) (e : ErrKind) : (st.push e).errors ≠ [] := by
  simp [St.push]

/-- The same file up to what is filled in later. -/
structure Alike (a b : FileD) : Prop where
  syn : b.syn = a.syn
  prost : b.prost = a.prost
  deps : b.deps = a.deps
  trans : b.trans = a.trans
  raw : stripFile b.raw = stripFile a.raw

theorem Alike.refl (a : FileD) : Alike a a := ⟨rfl, rfl, rfl, rfl, rfl⟩

theorem Alike.comp {a b c : FileD} (h : Alike a b) (g : Alike b c) : Alike a c :=
  ⟨g.syn.trans h.syn, g.prost.trans h.prost, g.deps.trans h.deps, g.trans.trans h.trans,
   g.raw.trans h.raw⟩

/-- Only the descriptor of one file and the errors changed. -/
structure Raw (file : Nat) (st st' : St) : Prop where
  errors : st.errors <+: st'.errors
  pool : st'.pool = { st.pool with files := st'.pool.files }
  len : st'.pool.files.length = st.pool.files.length
  other : ∀ i, i ≠ file → st'.pool.files[i]? = st.pool.files[i]?
  alike : ∀ x, st.pool.files[file]? = some x → ∃ y, st'.pool.files[file]? = some y ∧ Alike x y

theorem Raw.of_quiet {file : Nat} {st st' : St} (h : Quiet st st') : Raw file st st' :=
  ⟨h.errors, by rw [h.pool], by rw [h.pool], fun i _ => by rw [h.pool],
   fun x hx => ⟨x, by rw [h.pool]; exact hx, Alike.refl x⟩⟩

theorem Raw.refl (file : Nat) (st : St) : Raw file st st := Raw.of_quiet (Quiet.refl st)

theorem Raw.trans {file : Nat} {a b c : St} (h : Raw file a b) (g : Raw file b c) :
    Raw file a c where
  errors := h.errors.trans g.errors
  pool := by rw [g.pool, h.pool]
  len := g.len.trans h.len
  other i hi := (g.other i hi).trans (h.other i hi)
  alike x hx := by
    obtain ⟨y, hy, axy⟩ := h.alike x hx
    obtain ⟨z, hz, ayz⟩ := g.alike y hy
    exact ⟨z, hz, axy.comp ayz⟩

theorem Raw.names {file : Nat} {a b : St} (h : Raw file a b) : b.pool.names = a.pool.names := by
  rw [h.pool]
theorem Raw.messages {file : Nat} {a b : St} (h : Raw file a b) :
    b.pool.messages = a.pool.messages := by rw [h.pool]
theorem Raw.enums {file : Nat} {a b : St} (h : Raw file a b) : b.pool.enums = a.pool.enums := by
  rw [h.pool]
theorem Raw.extensions {file : Nat} {a b : St} (h : Raw file a b) :
    b.pool.extensions = a.pool.extensions := by rw [h.pool]
theorem Raw.services {file : Nat} {a b : St} (h : Raw file a b) :
    b.pool.services = a.pool.services := by rw [h.pool]
theorem Raw.fileNames {file : Nat} {a b : St} (h : Raw file a b) :
    b.pool.fileNames = a.pool.fileNames := by rw [h.pool]

theorem setRaw_raw {st st' : St} {file : Nat} {g : FileP → Option FileP}
    (hg : ∀ f f', g f = some f' → stripFile f' = stripFile f)
    (h : setRaw st file g = .ok st') : Raw file st st' ∧ st'.errors = st.errors := by
  simp only [setRaw, bind_ok, getR_ok, unwrapR_ok, Except.ok.injEq] at h
  obtain ⟨fd, h1, raw, h2, h3⟩ := h
  subst h3
  refine ⟨⟨List.prefix_refl _, rfl, by simp, ?_, ?_⟩, rfl⟩
  · intro i hi
    simp only [List.getElem?_set]
    rw [if_neg (Ne.symm hi)]
  · intro x hx
    rw [h1] at hx
    cases hx
    have : file < st.pool.files.length := by
      rw [List.getElem?_eq_some_iff] at h1; exact h1.1
    exact ⟨{ fd with raw := raw }, by simp [this], ⟨rfl, rfl, rfl, rfl, hg _ _ h2⟩⟩

theorem setTypeName_strip (path : Path) (t : Target) (n : Name) (b : Bool) (f f' : FileP)
    (h : setTypeName path t n b f = some f') : stripFile f' = stripFile f := by
  cases t <;> simp only [setTypeName] at h
  · exact modField_strip _ (fun f => by simp [stripField]) _ _ _ h
  · exact modField_strip _ (fun f => by simp [stripField]) _ _ _ h
  · exact modMethod_strip _ (fun f => by simp [stripMethod]) _ _ _ h
  · exact modMethod_strip _ (fun f => by simp [stripMethod]) _ _ _ h

theorem RR.report_quiet {st st' : St} {file : Nat} {name : Name} {r : RR}
    (h : r.report st file name = .ok st') : Quiet st st' := by
  cases r <;> simp only [RR.report, bind_ok, Except.ok.injEq] at h
  · rw [← h]; exact Quiet.refl _
  · obtain ⟨_, _, _, _, h⟩ := h; rw [← h]; exact Quiet.push _ _
  · obtain ⟨_, _, h⟩ := h; exact Quiet.report h
  · exact Quiet.report h
  · exact Quiet.report h

/-- Every result but `found` is an error. -/
theorem RR.report_ne {st st' : St} {file : Nat} {name : Name} {r : RR}
    (hr : ∀ n d, r ≠ .found n d) (h : r.report st file name = .ok st') : st'.errors ≠ [] := by
  cases r <;> simp only [RR.report, bind_ok, Except.ok.injEq] at h
  · exact absurd rfl (hr _ _)
  · obtain ⟨_, _, _, _, h⟩ := h; rw [← h]; exact push_ne _ _
  · obtain ⟨_, _, h⟩ := h; rw [report_ok] at h; rw [h.2]; exact push_ne _ _
  · rw [report_ok] at h; rw [h.2]; exact push_ne _ _
  · rw [report_ok] at h; rw [h.2]; exact push_ne _ _

theorem resolveIn_raw {st st' : St} {scope name : Name} {file : Nat} {path : Path} {t : Target}
    {fl : Filter} {d : Option Def} (h : resolveIn st scope name file path t fl = .ok (st', d)) :
    Raw file st st' := by
  simp only [resolveIn, bind_ok, getR_ok] at h
  obtain ⟨fd, _, h⟩ := h
  split at h
  · simp only [bind_ok, Except.ok.injEq, Prod.mk.injEq] at h
    obtain ⟨st1, h1, h2, _⟩ := h
    subst h2
    exact (setRaw_raw (fun f f' => setTypeName_strip _ _ _ _ f f') h1).1
  · simp only [bind_ok, Except.ok.injEq, Prod.mk.injEq] at h
    obtain ⟨st1, h1, h2, _⟩ := h
    subst h2
    exact Raw.of_quiet (RR.report_quiet h1)

/-- Without errors the name was found; the definition is the one of the name table. -/
theorem resolveIn_found {st st' : St} {scope name : Name} {file : Nat} {path : Path} {t : Target}
    {fl : Filter} {d : Option Def} (h : resolveIn st scope name file path t fl = .ok (st', d))
    (he : st'.errors = []) :
    ∃ fd n d', st.pool.files[file]? = some fd ∧ d = some d' ∧
      resolveName fd.trans st.pool.names scope name fl = .found n d' := by
  simp only [resolveIn, bind_ok, getR_ok] at h
  obtain ⟨fd, hfd, h⟩ := h
  cases hr : resolveName fd.trans st.pool.names scope name fl with
  | found n d' =>
    simp only [hr, bind_ok, Except.ok.injEq, Prod.mk.injEq] at h
    obtain ⟨st1, _, _, h3⟩ := h
    exact ⟨fd, n, d', hfd, h3.symm, hr⟩
  | _ =>
    simp only [hr, bind_ok, Except.ok.injEq, Prod.mk.injEq] at h
    obtain ⟨st1, h1, h2, _⟩ := h
    subst h2
    exact absurd he (RR.report_ne (by simp) h1)

theorem findMessage_raw {st st' : St} {scope name : Name} {file : Nat} {path : Path} {t : Target}
    {r : Option Nat} (h : findMessage st scope name file path t = .ok (st', r)) :
    Raw file st st' := by
  simp only [findMessage, bind_ok] at h
  obtain ⟨⟨st1, d⟩, h1, h⟩ := h
  have := resolveIn_raw h1
  simp only at h
  split at h
  · simp only [Except.ok.injEq, Prod.mk.injEq] at h; rw [← h.1]; exact this
  · split at h
    · simp only [Except.ok.injEq, Prod.mk.injEq] at h; rw [← h.1]; exact this
    · cases h

theorem findMessage_found {st st' : St} {scope name : Name} {file : Nat} {path : Path} {t : Target}
    {r : Option Nat} (h : findMessage st scope name file path t = .ok (st', r))
    (he : st'.errors = []) :
    ∃ fd n d i, st.pool.files[file]? = some fd ∧ r = some i ∧ d.kind = .message i ∧
      resolveName fd.trans st.pool.names scope name .message = .found n d := by
  simp only [findMessage, bind_ok] at h
  obtain ⟨⟨st1, d⟩, h1, h⟩ := h
  simp only at h
  have hst : st' = st1 := by
    split at h
    · simp only [Except.ok.injEq, Prod.mk.injEq] at h; exact h.1.symm
    · split at h
      · simp only [Except.ok.injEq, Prod.mk.injEq] at h; exact h.1.symm
      · cases h
  subst hst
  obtain ⟨fd, n, d', hfd, hd, hr⟩ := resolveIn_found h1 he
  subst hd
  simp only at h
  split at h
  · next i hi =>
    simp only [Except.ok.injEq, Prod.mk.injEq] at h
    exact ⟨fd, n, d', i, hfd, h.2.symm, hi, hr⟩
  · cases h

theorem resolveType_raw {st st' : St} {f : FieldP} {scope : Name} {file : Nat} {path : Path}
    {r : Option (Kind × Bool)} (h : resolveType st f scope file path = .ok (st', r)) :
    Raw file st st' := by
  unfold resolveType at h
  split at h
  · split at h
    · simp only [Except.ok.injEq, Prod.mk.injEq] at h; rw [← h.1]; exact Raw.refl _ _
    · simp only [bind_ok, Except.ok.injEq, Prod.mk.injEq] at h
      obtain ⟨st1, h1, h2, _⟩ := h
      subst h2
      exact Raw.of_quiet (Quiet.report h1)
  · simp only [bind_ok] at h
    obtain ⟨⟨st1, d⟩, h1, h⟩ := h
    have := resolveIn_raw h1
    simp only at h
    split at h
    · simp only [Except.ok.injEq, Prod.mk.injEq] at h; rw [← h.1]; exact this
    · split at h
      · simp only [Except.ok.injEq, Prod.mk.injEq] at h; rw [← h.1]; exact this
      · simp only [Except.ok.injEq, Prod.mk.injEq] at h; rw [← h.1]; exact this
      · cases h

/-- The kind a field type denotes (resolve.rs:569-625) when it denotes one. -/
inductive TypeOk (trans : List Nat) (names : List (Name × Def)) (scope : Name) (f : FieldP) :
    Kind → Bool → Prop where
  | scalar (k : Kind) : f.typeName = [] → scalarKind f.ty = some k → TypeOk trans names scope f k false
  | message (n : Name) (d : Def) (i : Nat) : f.typeName ≠ [] →
      resolveName trans names scope f.typeName .fieldType = .found n d → d.kind = .message i →
      TypeOk trans names scope f (.message i) (decide (f.ty = .group))
  | enum (n : Name) (d : Def) (i : Nat) : f.typeName ≠ [] →
      resolveName trans names scope f.typeName .fieldType = .found n d → d.kind = .enum i →
      TypeOk trans names scope f (.enum i) false

theorem resolveType_found {st st' : St} {f : FieldP} {scope : Name} {file : Nat} {path : Path}
    {r : Option (Kind × Bool)} (h : resolveType st f scope file path = .ok (st', r))
    (he : st'.errors = []) :
    ∃ k g, r = some (k, g) ∧
      ∀ fd, st.pool.files[file]? = some fd → TypeOk fd.trans st.pool.names scope f k g := by
  unfold resolveType at h
  split at h
  · next ht =>
    split at h
    · next k hk =>
      simp only [Except.ok.injEq, Prod.mk.injEq] at h
      exact ⟨k, false, h.2.symm, fun fd _ => .scalar k ht hk⟩
    · simp only [bind_ok, Except.ok.injEq, Prod.mk.injEq] at h
      obtain ⟨st1, h1, h2, _⟩ := h
      subst h2
      rw [report_ok] at h1
      rw [h1.2] at he
      exact absurd he (push_ne _ _)
  · next ht =>
    simp only [bind_ok] at h
    obtain ⟨⟨st1, d⟩, h1, h⟩ := h
    simp only at h
    have hst : st' = st1 := by
      split at h
      · simp only [Except.ok.injEq, Prod.mk.injEq] at h; exact h.1.symm
      · split at h
        · simp only [Except.ok.injEq, Prod.mk.injEq] at h; exact h.1.symm
        · simp only [Except.ok.injEq, Prod.mk.injEq] at h; exact h.1.symm
        · cases h
    subst hst
    obtain ⟨fd, n, d', hfd, hd, hr⟩ := resolveIn_found h1 he
    subst hd
    simp only at h
    split at h
    · next i hi =>
      simp only [Except.ok.injEq, Prod.mk.injEq] at h
      exact ⟨_, _, h.2.symm, fun fd' hfd' => by
        rw [hfd] at hfd'; cases hfd'; exact .message n d' i ht hr hi⟩
    · next i hi =>
      simp only [Except.ok.injEq, Prod.mk.injEq] at h
      exact ⟨_, _, h.2.symm, fun fd' hfd' => by
        rw [hfd] at hfd'; cases hfd'; exact .enum n d' i ht hr hi⟩
    · cases h

/-- The JSON name of a field (resolve.rs:555-567). -/
def jsonOf (f : FieldP) : Name :=
  match f.jsonName with
  | some n => n
  | none => toJsonName false f.name

theorem resolveJsonName_raw {st st' : St} {f : FieldP} {file : Nat} {path : Path}
    {j : Name} (h : resolveJsonName st f file path = .ok (st', j)) :
    Raw file st st' ∧ st'.errors = st.errors ∧ j = jsonOf f := by
  unfold resolveJsonName at h
  unfold jsonOf
  split at h
  · next n hn =>
    simp only [Except.ok.injEq, Prod.mk.injEq] at h
    rw [← h.1, hn, h.2]
    exact ⟨Raw.refl _ _, rfl, rfl⟩
  · next hn =>
    simp only [bind_ok, Except.ok.injEq, Prod.mk.injEq] at h
    obtain ⟨st1, h1, h2, h3⟩ := h
    subst h2
    have := setRaw_raw (fun f' f'' hf =>
      modField_strip _ (fun f => by simp [stripField]) _ _ _ hf) h1
    rw [hn]
    exact ⟨this.1, this.2, h3.symm⟩

/-- What a declared default denotes (resolve.rs:627-699). -/
def defaultOf (env : Env) (enums : List EnumD) (k : Kind) (s : Name) : Res (Option Value) :=
  match k with
  | .message _ => .ok none
  | .enum e =>
    match enums[e]? with
    | none => .error .index
    | some ed => .ok ((ed.values.find? (fun v => v.id.name == s)).map
        fun v => .enum (BitVec.ofInt 32 v.number))
  | k => parseSimple env.fp env.checks k s

theorem parseDefault_quiet {env : Env} {st st' : St} {k : Kind} {s : Option Name} {file : Nat}
    {v : Option Value} (h : parseDefault env st k s file = .ok (st', v)) : Quiet st st' := by
  unfold parseDefault at h
  split at h
  · simp only [Except.ok.injEq, Prod.mk.injEq] at h; rw [← h.1]; exact Quiet.refl _
  · split at h
    · simp only [bind_ok, Except.ok.injEq, Prod.mk.injEq] at h
      obtain ⟨_, h1, h2, _⟩ := h
      subst h2; exact Quiet.report h1
    · simp only [bind_ok] at h
      obtain ⟨_, _, h⟩ := h
      split at h
      · simp only [Except.ok.injEq, Prod.mk.injEq] at h; rw [← h.1]; exact Quiet.refl _
      · simp only [bind_ok, Except.ok.injEq, Prod.mk.injEq] at h
        obtain ⟨_, h1, h2, _⟩ := h
        subst h2; exact Quiet.report h1
    · simp only [bind_ok] at h
      obtain ⟨o, _, h⟩ := h
      cases o with
      | some v =>
        simp only [Except.ok.injEq, Prod.mk.injEq] at h; rw [← h.1]; exact Quiet.refl _
      | none =>
        simp only [bind_ok, Except.ok.injEq, Prod.mk.injEq] at h
        obtain ⟨_, h1, h2, _⟩ := h
        subst h2; exact Quiet.report h1

/-- Without errors a declared default denotes the stored value. -/
def DefaultOk (env : Env) (enums : List EnumD) (k : Kind) : Option Name → Option Value → Prop
  | none, v => v = none
  | some s, v => ∃ w, v = some w ∧ defaultOf env enums k s = .ok (some w)

theorem parseDefault_ok {env : Env} {st st' : St} {k : Kind} {s : Option Name} {file : Nat}
    {v : Option Value} (h : parseDefault env st k s file = .ok (st', v)) (he : st'.errors = []) :
    DefaultOk env st.pool.enums k s v := by
  unfold parseDefault at h
  split at h
  · simp only [Except.ok.injEq, Prod.mk.injEq] at h; exact h.2.symm
  · next str =>
    have rep : ∀ {st1 : St} {e : ErrKind}, st.report file e = .ok st1 → st1 = st' → False := by
      intro st1 e h1 h2
      rw [report_ok] at h1
      subst h2
      rw [h1.2] at he
      exact push_ne _ _ he
    split at h
    · simp only [bind_ok, Except.ok.injEq, Prod.mk.injEq] at h
      obtain ⟨_, h1, h2, _⟩ := h
      exact (rep h1 h2).elim
    · next e =>
      simp only [bind_ok, getR_ok] at h
      obtain ⟨ed, hed, h⟩ := h
      split at h
      · next w hw =>
        simp only [Except.ok.injEq, Prod.mk.injEq] at h
        exact ⟨_, h.2.symm, by simp only [defaultOf, hed, hw, Option.map_some]⟩
      · simp only [bind_ok, Except.ok.injEq, Prod.mk.injEq] at h
        obtain ⟨_, h1, h2, _⟩ := h
        exact (rep h1 h2).elim
    · next hk1 hk2 =>
      simp only [bind_ok] at h
      obtain ⟨o, ho, h⟩ := h
      cases o with
      | some w =>
        simp only [Except.ok.injEq, Prod.mk.injEq] at h
        refine ⟨w, h.2.symm, ?_⟩
        unfold defaultOf
        split
        · exact absurd rfl (hk1 _)
        · exact absurd rfl (hk2 _)
        · exact ho
      | none =>
        simp only [bind_ok, Except.ok.injEq, Prod.mk.injEq] at h
        obtain ⟨_, h1, h2, _⟩ := h
        exact (rep h1 h2).elim

theorem parseDefaultOpt_quiet {env : Env} {st st' : St} {k : Option (Kind × Bool)}
    {s : Option Name} {file : Nat} {v : Option Value}
    (h : parseDefaultOpt env st k s file = .ok (st', v)) : Quiet st st' := by
  unfold parseDefaultOpt at h
  split at h
  · simp only [Except.ok.injEq, Prod.mk.injEq] at h; rw [← h.1]; exact Quiet.refl _
  · exact parseDefault_quiet h

theorem reservedLoop_quiet {mfile file : Nat} {n : Int} {rs : List (Int × Int)} :
    ∀ {st st' : St}, reservedLoop mfile file n st rs = .ok st' → Quiet st st' := by
  induction rs with
  | nil => intro st st' h; simp only [reservedLoop, Except.ok.injEq] at h; rw [← h]; exact Quiet.refl _
  | cons r rs ih =>
    intro st st' h
    simp only [reservedLoop] at h
    split at h
    · simp only [bind_ok] at h
      obtain ⟨_, _, st1, h1, h⟩ := h
      exact (Quiet.report h1).trans (ih h)
    · exact ih h

theorem reservedLoop_ok {mfile file : Nat} {n : Int} {rs : List (Int × Int)} :
    ∀ {st st' : St}, reservedLoop mfile file n st rs = .ok st' → st'.errors = [] →
      ∀ r ∈ rs, ¬ (r.1 ≤ n ∧ n < r.2) := by
  induction rs with
  | nil => intro st st' _ _ r hr; simp at hr
  | cons r rs ih =>
    intro st st' h he
    simp only [reservedLoop] at h
    split at h
    · simp only [bind_ok] at h
      obtain ⟨_, _, st1, h1, h⟩ := h
      have := errors_nil (reservedLoop_quiet h).errors he
      rw [report_ok] at h1
      rw [h1.2] at this
      exact absurd this (push_ne _ _)
    · next hr =>
      intro x hx
      rcases List.mem_cons.mp hx with rfl | hx
      · simpa [inRange] using hr
      · exact ih h he x hx

/-- The number is usable in the message (resolve.rs:432-520). -/
structure NumberOk (mp : MsgP) (f : FieldP) : Prop where
  valid : numberOk f.number = true
  reserved : ∀ r ∈ mp.reserved, ¬ (r.1 ≤ f.number ∧ f.number < r.2)
  ext : f.extendee.isSome = mp.extRanges.any (inRange f.number)

theorem checkNumber_quiet {st st' : St} {msg file : Nat} {f : FieldP}
    (h : checkNumber st msg f file = .ok st') : Quiet st st' := by
  simp only [checkNumber, bind_ok, getR_ok, unwrapR_ok] at h
  obtain ⟨st1, h1, m, hm, fd, hfd, mp, hmp, st2, h2, h3⟩ := h
  have q1 : Quiet st st1 := by
    unfold checkValid at h1
    split at h1
    · simp only [Except.ok.injEq] at h1; rw [← h1]; exact Quiet.refl _
    · exact Quiet.report h1
  refine q1.trans ((reservedLoop_quiet h2).trans ?_)
  split at h3
  · simp only [Except.ok.injEq] at h3; rw [← h3]; exact Quiet.refl _
  · simp only [Except.ok.injEq] at h3; rw [← h3]; exact Quiet.refl _
  · simp only [bind_ok] at h3
    obtain ⟨_, _, h3⟩ := h3
    exact Quiet.report h3
  · exact Quiet.report h3

theorem checkNumber_ok {st st' : St} {msg file : Nat} {f : FieldP}
    (h : checkNumber st msg f file = .ok st') (he : st'.errors = []) :
    ∃ m fd mp, st.pool.messages[msg]? = some m ∧ st.pool.files[m.id.file]? = some fd ∧
      findMsg fd.raw m.id.path = some mp ∧ NumberOk mp f := by
  simp only [checkNumber, bind_ok, getR_ok, unwrapR_ok] at h
  obtain ⟨st1, h1, m, hm, fd, hfd, mp, hmp, st2, h2, h3⟩ := h
  have q3 : Quiet st2 st' := by
    split at h3
    · simp only [Except.ok.injEq] at h3; rw [← h3]; exact Quiet.refl _
    · simp only [Except.ok.injEq] at h3; rw [← h3]; exact Quiet.refl _
    · simp only [bind_ok] at h3
      obtain ⟨_, _, h3⟩ := h3
      exact Quiet.report h3
    · exact Quiet.report h3
  have e2 := errors_nil q3.errors he
  have e1 := errors_nil (reservedLoop_quiet h2).errors e2
  have q1 : st1 = st ∧ numberOk f.number = true := by
    unfold checkValid at h1
    split at h1
    · next hn => simp only [Except.ok.injEq] at h1; exact ⟨h1.symm, hn⟩
    · rw [report_ok] at h1
      rw [h1.2] at e1
      exact absurd e1 (push_ne _ _)
  obtain ⟨rfl, hn⟩ := q1
  refine ⟨m, fd, mp, hm, hfd, hmp, ⟨hn, reservedLoop_ok h2 e2, ?_⟩⟩
  split at h3
  · next a b => rw [a, b]; rfl
  · next a b => rw [a, b]; rfl
  · simp only [bind_ok] at h3
    obtain ⟨_, _, h3⟩ := h3
    rw [report_ok] at h3
    rw [h3.2] at he
    exact absurd he (push_ne _ _)
  · rw [report_ok] at h3
    rw [h3.2] at he
    exact absurd he (push_ne _ _)

theorem enumReservedLoop_quiet {mfile file : Nat} {n : Int} {rs : List (Int × Int)} :
    ∀ {st st' : St}, enumReservedLoop mfile file n st rs = .ok st' → Quiet st st' := by
  induction rs with
  | nil => intro st st' h; simp only [enumReservedLoop, Except.ok.injEq] at h; rw [← h]; exact Quiet.refl _
  | cons r rs ih =>
    intro st st' h
    simp only [enumReservedLoop] at h
    split at h
    · simp only [bind_ok] at h
      obtain ⟨_, _, st1, h1, h⟩ := h
      exact (Quiet.report h1).trans (ih h)
    · exact ih h

theorem enumReservedLoop_ok {mfile file : Nat} {n : Int} {rs : List (Int × Int)} :
    ∀ {st st' : St}, enumReservedLoop mfile file n st rs = .ok st' → st'.errors = [] →
      ∀ r ∈ rs, ¬ (r.1 ≤ n ∧ n ≤ r.2) := by
  induction rs with
  | nil => intro st st' _ _ r hr; simp at hr
  | cons r rs ih =>
    intro st st' h he
    simp only [enumReservedLoop] at h
    split at h
    · simp only [bind_ok] at h
      obtain ⟨_, _, st1, h1, h⟩ := h
      have := errors_nil (enumReservedLoop_quiet h).errors he
      rw [report_ok] at h1
      rw [h1.2] at this
      exact absurd this (push_ne _ _)
    · next hr =>
      intro x hx
      rcases List.mem_cons.mp hx with rfl | hx
      · exact hr
      · exact ih h he x hx

theorem checkEnumNumber_quiet {st st' : St} {enum file : Nat} {v : EnumValueP}
    (h : checkEnumNumber st enum v file = .ok st') : Quiet st st' := by
  simp only [checkEnumNumber, bind_ok, getR_ok, unwrapR_ok] at h
  obtain ⟨e, _, fd, _, ep, _, h⟩ := h
  exact enumReservedLoop_quiet h

theorem checkEnumNumber_ok {st st' : St} {enum file : Nat} {v : EnumValueP}
    (h : checkEnumNumber st enum v file = .ok st') (he : st'.errors = []) :
    ∃ e fd ep, st.pool.enums[enum]? = some e ∧ st.pool.files[e.id.file]? = some fd ∧
      findEnum fd.raw e.id.path = some ep ∧
      ∀ r ∈ ep.reserved, ¬ (r.1 ≤ v.number ∧ v.number ≤ r.2) := by
  simp only [checkEnumNumber, bind_ok, getR_ok, unwrapR_ok] at h
  obtain ⟨e, h1, fd, h2, ep, h3, h⟩ := h
  exact ⟨e, fd, ep, h1, h2, h3, enumReservedLoop_ok h he⟩

theorem reportDup_quiet {st st' : St} {m : MsgD} {file : Nat} {ex : Option Nat} {e : ErrKind}
    (h : reportDup st m file ex e = .ok st') : Quiet st st' := by
  unfold reportDup at h
  split at h
  · simp only [Except.ok.injEq] at h; rw [← h]; exact Quiet.refl _
  · simp only [bind_ok] at h
    obtain ⟨_, _, h⟩ := h
    exact Quiet.report h

theorem reportDup_ok {st st' : St} {m : MsgD} {file : Nat} {ex : Option Nat} {e : ErrKind}
    (h : reportDup st m file ex e = .ok st') (he : st'.errors = []) : ex = none ∧ st' = st := by
  unfold reportDup at h
  split at h
  · simp only [Except.ok.injEq] at h; exact ⟨rfl, h.symm⟩
  · simp only [bind_ok] at h
    obtain ⟨_, _, h⟩ := h
    rw [report_ok] at h
    rw [h.2] at he
    exact absurd he (push_ne _ _)

theorem reportAlias_quiet {st st' : St} {e : EnumD} {file : Nat} {hit : Bool × Nat}
    (h : reportAlias st e file hit = .ok st') : Quiet st st' := by
  unfold reportAlias at h
  split at h
  · simp only [bind_ok] at h
    obtain ⟨_, _, _, _, h⟩ := h
    exact Quiet.report h
  · simp only [Except.ok.injEq] at h; rw [← h]; exact Quiet.refl _

theorem reportAlias_ok {st st' : St} {e : EnumD} {file : Nat} {hit : Bool × Nat}
    (h : reportAlias st e file hit = .ok st') (he : st'.errors = []) :
    (hit.1 = true → e.allowAlias = true) ∧ st' = st := by
  unfold reportAlias at h
  split at h
  · simp only [bind_ok] at h
    obtain ⟨_, _, _, _, h⟩ := h
    rw [report_ok] at h
    rw [h.2] at he
    exact absurd he (push_ne _ _)
  · next hn =>
    simp only [Except.ok.injEq] at h
    refine ⟨fun h1 => ?_, h.symm⟩
    cases ha : e.allowAlias with
    | true => rfl
    | false => exact absurd ⟨h1, by simp [ha]⟩ hn

theorem reportValueName_quiet {st st' : St} {e : EnumD} {file : Nat} {full : Name}
    {ex : Option Nat} (h : reportValueName st e file full ex = .ok st') : Quiet st st' := by
  unfold reportValueName at h
  split at h
  · simp only [Except.ok.injEq] at h; rw [← h]; exact Quiet.refl _
  · simp only [bind_ok] at h
    obtain ⟨_, _, h⟩ := h
    exact Quiet.report h

theorem reportValueName_ok {st st' : St} {e : EnumD} {file : Nat} {full : Name}
    {ex : Option Nat} (h : reportValueName st e file full ex = .ok st') (he : st'.errors = []) :
    ex = none ∧ st' = st := by
  unfold reportValueName at h
  split at h
  · simp only [Except.ok.injEq] at h; exact ⟨rfl, h.symm⟩
  · simp only [bind_ok] at h
    obtain ⟨_, _, h⟩ := h
    rw [report_ok] at h
    rw [h.2] at he
    exact absurd he (push_ne _ _)

end Verif.Pool
