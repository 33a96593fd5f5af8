import Verif.Pool.Effects
import Verif.Pool.Count
/-!
Building only appends: during all passes the entries the pool had before stay where they
are and as they are; only the extension lists of old messages may grow.
-/
set_option autoImplicit false
namespace Verif.Pool
open Verif.Wire Verif.Dyn

/-- A message without its list of extensions. -/
def MsgD.forget (m : MsgD) : MsgD := { m with extensions := [] }

/-- The definition belongs to a declaration beyond the offsets. -/
def Def.Fresh (o : Offs) (d : Def) : Prop :=
  o.file ≤ d.file ∧ match d.kind with
  | .package => True
  | .message i | .field i | .oneof i => o.message ≤ i
  | .service i | .method i => o.service ≤ i
  | .enum i | .enumValue i => o.enum ≤ i
  | .extension i => o.extension ≤ i

/-- `q` extends `p`. -/
structure Frame (p q : Pool) : Prop where
  files : p.files <+: q.files
  messages : p.messages.map MsgD.forget <+: q.messages.map MsgD.forget
  exts : ∀ (k : Nat) (m m' : MsgD), p.messages[k]? = some m → q.messages[k]? = some m' →
    ∃ l, m'.extensions = m.extensions ++ l ∧ ∀ e ∈ l, p.extensions.length ≤ e
  enums : p.enums <+: q.enums
  extensions : p.extensions <+: q.extensions
  services : p.services <+: q.services
  names : ∃ l, q.names = p.names ++ l ∧
    ∀ x ∈ l, lookupN p.names x.1 = none ∧ Def.Fresh p.offs x.2
  fileNames : ∃ l, q.fileNames = p.fileNames ++ l ∧
    ∀ x ∈ l, lookupN p.fileNames x.1 = none ∧ p.files.length ≤ x.2

theorem Frame.refl (p : Pool) : Frame p p where
  files := List.prefix_refl _
  messages := List.prefix_refl _
  exts k m m' h h' := ⟨[], by rw [h] at h'; cases h'; simp, by simp⟩
  enums := List.prefix_refl _
  extensions := List.prefix_refl _
  services := List.prefix_refl _
  names := ⟨[], by simp, by simp⟩
  fileNames := ⟨[], by simp, by simp⟩

/-! List facts. -/

theorem prefix_getElem? {α : Type} {a b : List α} (h : a <+: b) {i : Nat} (hi : i < a.length) :
    b[i]? = a[i]? := by
  obtain ⟨c, rfl⟩ := h
  rw [List.getElem?_append_left hi]

theorem prefix_of_getElem? {α : Type} {a b : List α}
    (h : ∀ i, i < a.length → b[i]? = a[i]?) : a <+: b := by
  have : a = b.take a.length := by
    apply List.ext_getElem?
    intro i
    rw [List.getElem?_take]
    split
    · next hi => exact (h i hi).symm
    · next hi => simp; omega
  rw [this]
  exact List.take_prefix _ _

theorem prefix_append_of {α : Type} {a b : List α} (h : a <+: b) (c : List α) : a <+: b ++ c :=
  h.trans (List.prefix_append _ _)

theorem prefix_modify {α : Type} {a b : List α} (h : a <+: b) {i : Nat} (hi : a.length ≤ i)
    (f : α → α) : a <+: b.modify i f := by
  apply prefix_of_getElem?
  intro j hj
  rw [List.getElem?_modify, prefix_getElem? h hj]
  have : i ≠ j := by omega
  cases a[j]? <;> simp [this]

theorem prefix_set {α : Type} {a b : List α} (h : a <+: b) {i : Nat} (hi : a.length ≤ i)
    (x : α) : a <+: b.set i x := by
  apply prefix_of_getElem?
  intro j hj
  rw [List.getElem?_set, if_neg (by omega), prefix_getElem? h hj]

theorem modify_comm_map {α β : Type} (s : α → β) (f : α → α) (g : β → β)
    (h : ∀ a, s (f a) = g (s a)) (l : List α) (i : Nat) :
    (l.modify i f).map s = (l.map s).modify i g := by
  apply List.ext_getElem?
  intro j
  simp only [List.getElem?_map, List.getElem?_modify]
  cases l[j]? with
  | none => rfl
  | some a =>
    simp only [Option.map_some]
    split <;> simp [h]

theorem getElem?_modify_ne {α : Type} (l : List α) (f : α → α) {i j : Nat} (h : i ≠ j) :
    (l.modify i f)[j]? = l[j]? := by
  rw [List.getElem?_modify]
  cases l[j]? <;> simp [h]

theorem getElem?_modify_eq {α : Type} (l : List α) (f : α → α) (i : Nat) :
    (l.modify i f)[i]? = l[i]?.map f := by
  rw [List.getElem?_modify]
  simp

theorem lookupN_none {α : Type} {l : List (Name × α)} {n : Name} :
    lookupN l n = none ↔ ∀ x ∈ l, x.1 ≠ n := by
  induction l with
  | nil => simp [lookupN]
  | cons x r ih =>
    obtain ⟨k, v⟩ := x
    simp only [lookupN]
    split
    · next h => simp [h]
    · next h => simp [ih, h]

theorem lookupN_append {α : Type} (a b : List (Name × α)) (n : Name) :
    lookupN (a ++ b) n = (lookupN a n).or (lookupN b n) := by
  induction a with
  | nil => simp [lookupN]
  | cons x r ih =>
    obtain ⟨k, v⟩ := x
    simp only [List.cons_append, lookupN]
    split
    · simp
    · exact ih

theorem lookupN_mem {α : Type} {l : List (Name × α)} {n : Name} {a : α}
    (h : lookupN l n = some a) : (n, a) ∈ l := by
  induction l with
  | nil => simp [lookupN] at h
  | cons x r ih =>
    obtain ⟨k, v⟩ := x
    simp only [lookupN] at h
    split at h
    · next hk => cases h; subst hk; simp
    · exact List.mem_cons_of_mem _ (ih h)

theorem insertN_of_none {α : Type} {l : List (Name × α)} {n : Name} (a : α)
    (h : lookupN l n = none) : insertN n a l = l ++ [(n, a)] := by
  induction l with
  | nil => rfl
  | cons x r ih =>
    obtain ⟨k, v⟩ := x
    simp only [lookupN] at h
    split at h
    · cases h
    · next hk => simp only [insertN, if_neg hk, List.cons_append, ih h]

theorem lookupN_insertN {α : Type} (l : List (Name × α)) (n m : Name) (a : α) :
    lookupN (insertN n a l) m = if m = n then some a else lookupN l m := by
  induction l with
  | nil => simp only [insertN, lookupN]; split <;> split <;> simp_all
  | cons x r ih =>
    obtain ⟨k, v⟩ := x
    simp only [insertN]
    split
    · next hk =>
      subst hk
      simp only [lookupN]
      split
      · next h => rw [if_pos h.symm]
      · next h => rw [if_neg (Ne.symm h)]
    · next hk =>
      simp only [lookupN, ih]
      split
      · next h => subst h; rw [if_neg hk]
      · rfl

theorem insertN_append_right {α : Type} (a b : List (Name × α)) (n : Name) (v : α)
    (h : lookupN a n = none) : insertN n v (a ++ b) = a ++ insertN n v b := by
  induction a with
  | nil => rfl
  | cons x r ih =>
    obtain ⟨k, w⟩ := x
    simp only [lookupN] at h
    split at h
    · cases h
    · next hk => simp only [List.cons_append, insertN, if_neg hk, ih h]

theorem mem_insertN {α : Type} {l : List (Name × α)} {n : Name} {a : α} {x : Name × α}
    (h : x ∈ insertN n a l) : x = (n, a) ∨ x ∈ l := by
  induction l with
  | nil => simp [insertN] at h; exact .inl h
  | cons y r ih =>
    obtain ⟨k, v⟩ := y
    simp only [insertN] at h
    split at h
    · next hk =>
      subst hk
      rcases List.mem_cons.mp h with h | h
      · exact .inl h
      · exact .inr (List.mem_cons_of_mem _ h)
    · rcases List.mem_cons.mp h with h | h
      · exact .inr (by rw [h]; simp)
      · rcases ih h with h | h
        · exact .inl h
        · exact .inr (List.mem_cons_of_mem _ h)

/-! Updates of the pool that keep a frame. -/

theorem Frame.set_files {p q : Pool} (h : Frame p q) (fs : List FileD) (hf : p.files <+: fs) :
    Frame p { q with files := fs } := { h with files := hf }

theorem Frame.raw {p : Pool} {a b : St} {file : Nat} (h : Frame p a.pool) (g : Raw file a b)
    (hf : p.files.length ≤ file) : Frame p b.pool := by
  rw [g.pool]
  refine h.set_files _ (prefix_of_getElem? fun i hi => ?_)
  rw [g.other i (by omega), prefix_getElem? h.files hi]

theorem Frame.quiet {p : Pool} {a b : St} (h : Frame p a.pool) (g : Quiet a b) :
    Frame p b.pool := by rw [g.pool]; exact h

theorem Frame.addName {p : Pool} {st st' : St} {file : Nat} {name : Name} {path : Path}
    {kind : DefKind} (h : Frame p st.pool) (hd : Def.Fresh p.offs ⟨file, path, kind⟩)
    (hs : addName st file name path kind = .ok st') : Frame p st'.pool := by
  unfold Pool.addName at hs
  split at hs
  · next hn =>
    cases hs
    obtain ⟨l, hl, hx⟩ := h.names
    refine { h with names := ⟨l ++ [(name, ⟨file, path, kind⟩)], by simp [hl], ?_⟩ }
    intro x hx'
    rcases List.mem_append.mp hx' with hx' | hx'
    · exact hx x hx'
    · simp only [List.mem_singleton] at hx'
      subst hx'
      rw [hl, lookupN_append] at hn
      refine ⟨?_, hd⟩
      cases hp : lookupN p.names name with
      | none => rfl
      | some _ => simp [hp] at hn
  · split at hs
    · cases hs; exact h
    · simp only [bind_ok] at hs
      obtain ⟨_, _, hs⟩ := hs
      exact h.quiet (Quiet.report hs)

theorem Frame.addPackages {p : Pool} {file : Nat} {path : Path} (hf : p.files.length ≤ file) :
    ∀ {ns : List Name} {st st' : St}, Frame p st.pool →
      addPackages file path st ns = .ok st' → Frame p st'.pool
  | [], st, st', h, hs => by simp only [Pool.addPackages, Except.ok.injEq] at hs; rw [← hs]; exact h
  | n :: ns, st, st', h, hs => by
    simp only [Pool.addPackages] at hs
    split at hs
    · next st1 h1 =>
      exact Frame.addPackages hf (h.addName (kind := .package) ⟨hf, trivial⟩ h1) hs
    · cases hs

theorem Frame.push_message {p q : Pool} (h : Frame p q) (m : MsgD) :
    Frame p { q with messages := q.messages ++ [m] } where
  files := h.files
  messages := by rw [List.map_append]; exact prefix_append_of h.messages _
  exts k a b ha hb := by
    have hk : k < q.messages.length := by
      have h1 := h.messages.length_le
      simp only [List.length_map] at h1
      rw [List.getElem?_eq_some_iff] at ha
      obtain ⟨ha, _⟩ := ha
      omega
    simp only [List.getElem?_append_left hk] at hb
    exact h.exts k a b ha hb
  enums := h.enums
  extensions := h.extensions
  services := h.services
  names := h.names
  fileNames := h.fileNames

/-- Changing a new message. -/
theorem Frame.mod_message {p q : Pool} (h : Frame p q) (k : Nat) (f : MsgD → MsgD)
    (hk : p.messages.length ≤ k) : Frame p { q with messages := q.messages.modify k f } where
  files := h.files
  messages := by
    apply prefix_of_getElem?
    intro i hi
    rw [← prefix_getElem? h.messages hi]
    simp only [List.length_map] at hi
    simp only [List.getElem?_map, getElem?_modify_ne _ f (show k ≠ i by omega)]
  exts i a b ha hb := by
    have : i < p.messages.length := by rw [List.getElem?_eq_some_iff] at ha; exact ha.1
    simp only [getElem?_modify_ne _ f (show k ≠ i by omega)] at hb
    exact h.exts i a b ha hb
  enums := h.enums
  extensions := h.extensions
  services := h.services
  names := h.names
  fileNames := h.fileNames

theorem Frame.set_message {p q : Pool} (h : Frame p q) (k : Nat) (m : MsgD)
    (hk : p.messages.length ≤ k) : Frame p { q with messages := q.messages.set k m } := by
  have : q.messages.set k m = q.messages.modify k (fun _ => m) := by
    apply List.ext_getElem?
    intro j
    rw [List.getElem?_set, List.getElem?_modify]
    by_cases hj : k = j
    · subst hj
      simp only [if_true]
      by_cases hl : k < q.messages.length
      · simp [hl]
      · simp [hl]
    · simp only [if_neg hj]
      cases q.messages[j]? <;> rfl
  rw [this]
  exact h.mod_message k _ hk

/-- Registering a new extension with any message. -/
theorem Frame.add_ext {p q : Pool} (h : Frame p q) (k e : Nat) (he : p.extensions.length ≤ e) :
    Frame p { q with messages := q.messages.modify k fun m =>
      { m with extensions := m.extensions ++ [e] } } where
  files := h.files
  messages := by
    have : ∀ l : List MsgD, (l.modify k fun m => { m with extensions := m.extensions ++ [e] }).map
        MsgD.forget = l.map MsgD.forget := by
      intro l; exact map_modify_of MsgD.forget (fun m => { m with extensions := m.extensions ++ [e] }) (fun m => rfl) l k
    rw [this]; exact h.messages
  exts i a b ha hb := by
    by_cases hi : k = i
    · subst hi
      simp only [getElem?_modify_eq] at hb
      cases hq : q.messages[k]? with
      | none => simp [hq] at hb
      | some m =>
        simp only [hq, Option.map_some, Option.some.injEq] at hb
        subst hb
        obtain ⟨l, h1, h2⟩ := h.exts k a m ha hq
        refine ⟨l ++ [e], by simp [h1], ?_⟩
        intro x hx
        rcases List.mem_append.mp hx with hx | hx
        · exact h2 x hx
        · simp only [List.mem_singleton] at hx; omega
    · simp only [getElem?_modify_ne _ _ hi] at hb
      exact h.exts i a b ha hb
  enums := h.enums
  extensions := h.extensions
  services := h.services
  names := h.names
  fileNames := h.fileNames

/-! The passes. -/

theorem checkCamelCase_quiet {file : Nat} : ∀ {fs : List FieldP} {seen : List Name} {st st' : St},
    checkCamelCase file st seen fs = .ok st' → Quiet st st'
  | [], seen, st, st', h => by
    simp only [checkCamelCase, Except.ok.injEq] at h; rw [← h]; exact Quiet.refl _
  | f :: fs, seen, st, st', h => by
    simp only [checkCamelCase] at h
    split at h
    · split at h
      · next st1 h1 => exact (Quiet.report h1).trans (checkCamelCase_quiet h)
      · cases h
    · exact checkCamelCase_quiet h

theorem checkFirst_quiet {st st' : St} {file : Nat} {vs : List EnumValueP}
    (h : checkFirst st file vs = .ok st') : Quiet st st' := by
  unfold checkFirst at h
  split at h
  · exact Quiet.report h
  · simp only [bind_ok] at h
    obtain ⟨fd, _, h⟩ := h
    split at h
    · exact Quiet.report h
    · simp only [Except.ok.injEq] at h; rw [← h]; exact Quiet.refl _

/-- The counters and the base of a run are at or beyond the old pool. -/
theorem names_frame {p : Pool} {c c' : Cnt} {st st' : St} {e : Event}
    (hb : p.offs.file ≤ c.file ∧ p.offs.message ≤ c.message ∧ p.offs.enum ≤ c.enum ∧
      p.offs.service ≤ c.service ∧ p.offs.extension ≤ c.extension)
    (hfresh : ∀ path i f, e = .file path i f → lookupN p.fileNames f.name = none)
    (hc : c.step p.offs e = some c') (h : Frame p st.pool) (hs : namesStep st e = .ok st') :
    Frame p st'.pool := by
  obtain ⟨b1, b2, b3, b4, b5⟩ := hb
  cases e with
  | file path i f =>
    simp only [Cnt.step] at hc
    split at hc
    · next hi =>
      have hi' : p.files.length ≤ i := by rw [hi]; exact b1
      have hn := hfresh path i f rfl
      simp only [namesStep] at hs
      split at hs
      · exact h.quiet (Quiet.report hs)
      · next syn hsyn =>
        refine Frame.addPackages hi' ?_ hs
        have key : ∀ q : Pool, Frame p q → Frame p { q with
            fileNames := insertN f.name i q.fileNames
            files := q.files ++ [{ syn := syn, raw := f, prost := {}, deps := [], trans := [] }] } := by
          intro q hq
          obtain ⟨l, h1, h2⟩ := hq.fileNames
          refine { hq with files := prefix_append_of hq.files _, fileNames := ⟨insertN f.name i l, ?_, ?_⟩ }
          · simp only [h1]; rw [insertN_append_right _ _ _ _ hn]
          · intro x hx
            rcases mem_insertN hx with rfl | hx
            · exact ⟨hn, hi'⟩
            · exact h2 x hx
        split
        · exact key _ h
        · exact key _ h
    · cases hc
  | message path full file parent i m =>
    simp only [Cnt.step] at hc
    split at hc
    · next hi =>
      simp only [namesStep, bind_ok] at hs
      obtain ⟨st1, h1, fd, _, hs⟩ := hs
      have f1 := h.addName (kind := .message i) ⟨hi.2.1.1, by show p.offs.message ≤ i; omega⟩ h1
      have f2 := f1.push_message (MsgD.fresh (Ident.mk' file path full m.name) parent)
      split at hs
      · simp only [Except.ok.injEq] at hs; rw [← hs]; exact f2
      · exact Frame.quiet (a := ⟨_, st1.errors⟩) f2 (checkCamelCase_quiet hs)
    · cases hc
  | field path full file msg i f =>
    simp only [Cnt.step] at hc
    split at hc
    · next hi => exact h.addName (kind := .field msg) ⟨hi.2.2.1, hi.2.1.1⟩ hs
    · cases hc
  | oneof path full file msg i o =>
    simp only [Cnt.step] at hc
    split at hc
    · next hi =>
      simp only [namesStep, bind_ok, modR_ok, Except.ok.injEq] at hs
      obtain ⟨st1, h1, ms, ⟨_, h2⟩, h3⟩ := hs
      have f1 := h.addName (kind := .oneof msg) ⟨hi.2.2.1, hi.2.1.1⟩ h1
      rw [← h3, h2]
      exact f1.mod_message msg _ hi.2.1.1
    · cases hc
  | service path full file i s =>
    simp only [Cnt.step] at hc
    split at hc
    · next hi =>
      exact h.addName (kind := .service i) ⟨hi.2.1, by show p.offs.service ≤ i; omega⟩ hs
    · cases hc
  | method path full file svc i m =>
    simp only [Cnt.step] at hc
    split at hc
    · next hi => exact h.addName (kind := .method svc) ⟨hi.2.2.1, hi.2.1.1⟩ hs
    · cases hc
  | enum path full file parent i en =>
    simp only [Cnt.step] at hc
    split at hc
    · next hi =>
      simp only [namesStep, bind_ok, Except.ok.injEq] at hs
      obtain ⟨st1, h1, st2, h2, h3⟩ := hs
      have f1 := h.addName (kind := .enum i) ⟨hi.2.1.1, by show p.offs.enum ≤ i; omega⟩ h1
      have f2 := f1.quiet (checkFirst_quiet h2)
      rw [← h3]
      exact { f2 with enums := prefix_append_of f2.enums _ }
    · cases hc
  | enumValue path full file enum i v =>
    simp only [Cnt.step] at hc
    split at hc
    · next hi =>
      simp only [namesStep, bind_ok, modR_ok, Except.ok.injEq] at hs
      obtain ⟨st1, h1, ms, ⟨_, h2⟩, h3⟩ := hs
      have f1 := h.addName (kind := .enumValue enum) ⟨hi.2.2.1, hi.2.1.1⟩ h1
      rw [← h3, h2]
      exact { f1 with enums := prefix_modify f1.enums hi.2.1.1 _ }
    · cases hc
  | extension path full file parent i f =>
    simp only [Cnt.step] at hc
    split at hc
    · next hi =>
      exact h.addName (kind := .extension i) ⟨hi.2.1.1, by show p.offs.extension ≤ i; omega⟩ hs
    · cases hc

theorem depLoop_frame {env : Env} {p : Pool} {index : Nat} (hi : p.files.length ≤ index) :
    ∀ {ds : List Name} {st st' : St} {tr tr' : List Nat}, Frame p st.pool →
      depLoop env index ds st tr = .ok (st', tr') → Frame p st'.pool
  | [], st, st', tr, tr', h, hs => by
    simp only [depLoop, Except.ok.injEq, Prod.mk.injEq] at hs; rw [← hs.1]; exact h
  | d :: ds, st, st', tr, tr', h, hs => by
    simp only [depLoop] at hs
    split at hs
    · simp only [bind_ok, modR_ok] at hs
      obtain ⟨fs, ⟨_, h1⟩, tr1, _, hs⟩ := hs
      refine depLoop_frame hi (st := ⟨{ st.pool with files := fs }, st.errors⟩) ?_ hs
      exact h.set_files _ (by rw [h1]; exact prefix_modify h.files hi _)
    · simp only [bind_ok] at hs
      obtain ⟨st1, h1, hs⟩ := hs
      exact depLoop_frame hi (h.quiet (Quiet.report h1)) hs

theorem checkImports_quiet (n : Nat) : ∀ (l : List Int) (st : St), Quiet st (checkImports n st l)
  | [], st => Quiet.refl _
  | i :: r, st => by
    simp only [checkImports]
    split
    · exact checkImports_quiet n r st
    · exact (Quiet.push st _).trans (checkImports_quiet n r _)

theorem oneofStep_quiet (st : St) (m : MsgD) (idx : Option Int) (index : Nat) :
    Quiet st (oneofStep st m idx index).1 := by
  unfold oneofStep
  split
  · exact Quiet.refl _
  · split
    · exact Quiet.push _ _
    · exact Quiet.refl _

theorem resolve_frame {env : Env} {p : Pool} {c c' : Cnt} {st st' : St} {e : Event}
    (hb : p.offs.file ≤ c.file ∧ p.offs.message ≤ c.message ∧ p.offs.enum ≤ c.enum ∧
      p.offs.service ≤ c.service ∧ p.offs.extension ≤ c.extension)
    (hc : c.step p.offs e = some c') (h : Frame p st.pool) (hs : resolveStep env st e = .ok st') :
    Frame p st'.pool := by
  obtain ⟨b1, b2, b3, b4, b5⟩ := hb
  cases e with
  | file path i f =>
    simp only [Cnt.step] at hc
    split at hc
    · next hi =>
      have hi' : p.files.length ≤ i := by rw [hi]; exact b1
      simp only [resolveStep, resolveFile, bind_ok, modR_ok, Except.ok.injEq] at hs
      obtain ⟨⟨st1, tr⟩, h1, fs, ⟨_, h2⟩, h3⟩ := hs
      have f1 := depLoop_frame hi' h h1
      have f2 : Frame p { st1.pool with files := fs } :=
        f1.set_files _ (by rw [h2]; exact prefix_modify f1.files hi' _)
      rw [← h3]
      exact Frame.quiet (a := ⟨{ st1.pool with files := fs }, st1.errors⟩) f2
        ((checkImports_quiet _ _ _).trans (checkImports_quiet _ _ _))
    · cases hc
  | message path full file parent i m =>
    simp only [resolveStep, Except.ok.injEq] at hs; rw [← hs]; exact h
  | oneof path full file msg i o =>
    simp only [resolveStep, Except.ok.injEq] at hs; rw [← hs]; exact h
  | enum path full file parent i en =>
    simp only [resolveStep, Except.ok.injEq] at hs; rw [← hs]; exact h
  | field path full file msg i f =>
    simp only [Cnt.step] at hc
    split at hc
    · next hi =>
      simp only [resolveStep, resolveField, bind_ok, getR_ok] at hs
      obtain ⟨fd, hfd, st1, h1, ⟨st2, kind⟩, h2, ⟨st3, json⟩, h3, ⟨st4, dflt⟩, h4, m, hm,
        st5, h5, st6, h6, st7, h7, h8⟩ := hs
      simp only [Except.ok.injEq] at h8
      have hf := hi.2.2.1
      have f4 := (((h.quiet (checkNumber_quiet h1)).raw (resolveType_raw h2) hf).raw
        (resolveJsonName_raw h3).1 hf).quiet (parseDefaultOpt_quiet h4)
      have f7 := (((f4.quiet (oneofStep_quiet st4 m f.oneofIndex i)).quiet
        (reportDup_quiet h5)).quiet (reportDup_quiet h6)).quiet (reportDup_quiet h7)
      rw [← h8]
      exact f7.set_message msg _ hi.2.1.1
    · cases hc
  | service path full file i s =>
    simp only [resolveStep, Except.ok.injEq] at hs
    rw [← hs]
    exact { h with services := prefix_append_of h.services _ }
  | method path full file svc i m =>
    simp only [Cnt.step] at hc
    split at hc
    · next hi =>
      simp only [resolveStep, resolveMethod, bind_ok, modR_ok, Except.ok.injEq] at hs
      obtain ⟨⟨st1, a⟩, h1, ⟨st2, b⟩, h2, ss, ⟨_, h3⟩, h4⟩ := hs
      have hf := hi.2.2.1
      have f2 := (h.raw (findMessage_raw h1) hf).raw (findMessage_raw h2) hf
      rw [← h4, h3]
      exact { f2 with services := prefix_modify f2.services hi.2.1.1 _ }
    · cases hc
  | enumValue path full file enum i v =>
    simp only [Cnt.step] at hc
    split at hc
    · next hi =>
      simp only [resolveStep, resolveEnumValue, bind_ok, getR_ok, Except.ok.injEq] at hs
      obtain ⟨st1, h1, e, he, st2, h2, st3, h3, h4⟩ := hs
      have f3 := ((h.quiet (checkEnumNumber_quiet h1)).quiet (reportAlias_quiet h2)).quiet
        (reportValueName_quiet h3)
      rw [← h4]
      exact { f3 with enums := prefix_set f3.enums hi.2.1.1 _ }
    · cases hc
  | extension path full file parent i f =>
    simp only [Cnt.step] at hc
    split at hc
    · next hi =>
      simp only [resolveStep, resolveExtension, bind_ok, getR_ok, Except.ok.injEq] at hs
      obtain ⟨⟨st1, ext⟩, h1, st2, h2, fd, hfd, ⟨st3, kind⟩, h3, ⟨st4, json⟩, h4, ⟨st5, dflt⟩, h5,
        h6⟩ := hs
      have hf := hi.2.1.1
      have f1 := h.raw (findMessage_raw h1) hf
      have f2 : Frame p st2.pool := by
        unfold extendeeStep at h2
        split at h2
        · simp only [Except.ok.injEq] at h2; rw [← h2]; exact f1
        · next k hk =>
          simp only [bind_ok, modR_ok] at h2
          obtain ⟨ms, ⟨_, h7⟩, h8⟩ := h2
          refine Frame.quiet (a := ⟨{ st1.pool with messages := ms }, st1.errors⟩) ?_
            (checkNumber_quiet h8)
          rw [h7]
          exact f1.add_ext k i (by show p.offs.extension ≤ i; omega)
      have f5 := ((f2.raw (resolveType_raw h3) hf).raw (resolveJsonName_raw h4).1 hf).quiet
        (parseDefaultOpt_quiet h5)
      rw [← h6]
      exact { f5 with extensions := prefix_append_of f5.extensions _ }
    · cases hc

theorem applyOpt_raw {env : Env} {p : Pool} {st st' : St} {e : Event}
    (hs : applyOpt env p st e = .ok st') :
    st' = st ∨ ∃ file, (∀ (o : Offs) (c c' : Cnt), c.step o e = some c' → between o.file file c.file) ∧
      Raw file st st' ∧ st'.errors = st.errors := by
  have strip1 : ∀ (g : MsgP → MsgP) (path : Path), (∀ m, stripMsg (g m) = stripMsg m) →
      ∀ f f', modMsg g f path = some f' → stripFile f' = stripFile f :=
    fun g path hg f f' h => modMsg_strip g hg path f f' h
  cases e with
  | message path full file parent i m =>
    simp only [applyOpt] at hs
    split at hs
    · simp only [Except.ok.injEq] at hs; exact .inl hs.symm
    · refine .inr ⟨file, ?_, setRaw_raw (fun f f' hf => ?_) hs⟩
      · intro o c c' hc
        simp only [Cnt.step] at hc
        split at hc
        · next hi => exact hi.2.1
        · cases hc
      · exact modMsg_strip _ (fun m => by simp only [stripMsg_eq]) _ _ _ hf
  | field path full file msg i f =>
    simp only [applyOpt] at hs
    split at hs
    · simp only [Except.ok.injEq] at hs; exact .inl hs.symm
    · refine .inr ⟨file, ?_, setRaw_raw (fun f f' hf => ?_) hs⟩
      · intro o c c' hc
        simp only [Cnt.step] at hc
        split at hc
        · next hi => exact hi.2.2
        · cases hc
      · exact modField_strip _ (fun m => by simp [stripField]) _ _ _ hf
  | extension path full file parent i f =>
    simp only [applyOpt] at hs
    split at hs
    · simp only [Except.ok.injEq] at hs; exact .inl hs.symm
    · refine .inr ⟨file, ?_, setRaw_raw (fun f f' hf => ?_) hs⟩
      · intro o c c' hc
        simp only [Cnt.step] at hc
        split at hc
        · next hi => exact hi.2.1
        · cases hc
      · exact modField_strip _ (fun m => by simp [stripField]) _ _ _ hf
  | _ => simp only [applyOpt, Except.ok.injEq] at hs; exact .inl hs.symm

theorem apply_frame {env : Env} {p q : Pool} {c c' : Cnt} {st st' : St} {e : Event}
    (hc : c.step p.offs e = some c') (h : Frame p st.pool) (hs : applyOpt env q st e = .ok st') :
    Frame p st'.pool := by
  rcases applyOpt_raw hs with rfl | ⟨file, h1, h2, _⟩
  · exact h
  · exact h.raw h2 (h1 _ _ _ hc).1

/-- Invariants of a pass, with the counters and the callbacks made so far. -/
theorem pass_inv {step : St → Event → Res St} {o : Offs} (I : List Event → Cnt → St → Prop)
    (hstep : ∀ pre c st e c' st', c.step o e = some c' → I pre c st → step st e = .ok st' →
      I (pre ++ [e]) c' st') :
    ∀ (es : List Event) (pre : List Event) (c c' : Cnt) (st st' : St), Cnt.run o c es = some c' →
      I pre c st → runPass step st es = .ok st' → I (pre ++ es) c' st'
  | [], pre, c, c', st, st', hc, h, hs => by
    simp only [Cnt.run, Option.some.injEq] at hc
    simp only [runPass, Except.ok.injEq] at hs
    subst hc; subst hs; simpa using h
  | e :: es, pre, c, c', st, st', hc, h, hs => by
    simp only [Cnt.run] at hc
    simp only [runPass] at hs
    cases hcs : c.step o e with
    | none => simp [hcs] at hc
    | some c1 =>
      simp only [hcs, Option.bind_some] at hc
      split at hs
      · next st1 h1 =>
        have := pass_inv I hstep es (pre ++ [e]) c1 c' st1 st' hc (hstep _ _ _ _ _ _ hcs h h1) hs
        simpa using this
      · cases hs

/-- The same with the events of the whole list known to satisfy a predicate. -/
theorem pass_inv' {step : St → Event → Res St} {o : Offs} (P : Event → Prop)
    (I : List Event → Cnt → St → Prop)
    (hstep : ∀ pre c st e c' st', P e → c.step o e = some c' → I pre c st → step st e = .ok st' →
      I (pre ++ [e]) c' st') :
    ∀ (es : List Event) (pre : List Event) (c c' : Cnt) (st st' : St), (∀ e ∈ es, P e) →
      Cnt.run o c es = some c' →
      I pre c st → runPass step st es = .ok st' → I (pre ++ es) c' st'
  | [], pre, c, c', st, st', _, hc, h, hs => by
    simp only [Cnt.run, Option.some.injEq] at hc
    simp only [runPass, Except.ok.injEq] at hs
    subst hc; subst hs; simpa using h
  | e :: es, pre, c, c', st, st', hP, hc, h, hs => by
    simp only [Cnt.run] at hc
    simp only [runPass] at hs
    cases hcs : c.step o e with
    | none => simp [hcs] at hc
    | some c1 =>
      simp only [hcs, Option.bind_some] at hc
      split at hs
      · next st1 h1 =>
        have := pass_inv' P I hstep es (pre ++ [e]) c1 c' st1 st'
          (fun x hx => hP x (List.mem_cons_of_mem _ hx)) hc
          (hstep _ _ _ _ _ _ (hP e (by simp)) hcs h h1) hs
        simpa using this
      · cases hs

end Verif.Pool
