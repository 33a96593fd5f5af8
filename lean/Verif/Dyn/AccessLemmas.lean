import Verif.Dyn.History
/-! Helper lemmas for the accessor properties (C13 to C16, C46). -/
set_option autoImplicit false
namespace Verif.Dyn
open Verif.Wire

/-! ### What the validity check accepts -/

theorem validMap_iff {S : Schema} {kd vd : FieldDesc} (hv : vd.card ≠ .repeated) :
    ∀ kvs : List (MapKey × Value), validMap S kd vd kvs = some true ↔
      ∀ p ∈ kvs, p.1.isValid kd.kind = true ∧ p.2.isValid vd.kind = true := by
  have one : ∀ v, validFor S vd v = some true ↔ v.isValid vd.kind = true := by
    intro v
    cases v with
    | list vs => simp [validFor, isList_of_ne hv, Value.isValid]
    | map kvs =>
      simp only [validFor, isMap_of_ne hv, Bool.false_eq_true, if_false, Value.isValid]
      split <;> simp
    | _ => simp [validFor]
  intro kvs
  induction kvs with
  | nil => simp [validMap]
  | cons p r ih =>
    obtain ⟨k, v⟩ := p
    simp only [validMap, List.forall_mem_cons]
    by_cases hk : k.isValid kd.kind = true
    · simp only [hk, if_true, true_and]
      have := one v
      cases hvf : validFor S vd v with
      | none =>
        simp only [hvf, reduceCtorEq, false_iff] at this
        simp [this]
      | some b =>
        cases b with
        | true =>
          simp only [hvf, true_iff] at this
          simp only [this, true_and]
          exact ih
        | false =>
          simp only [hvf, Option.some.injEq, Bool.false_eq_true, false_iff] at this
          simp [this]
    · simp [hk]

/-! ### Drains leave the other classes alone -/

theorem takeBy_iterBy {S : Schema} {look look' : Nat → Option FieldDesc}
    (hdis : ∀ n f, look n = some f → look' n = none) :
    ∀ {fs : FieldSet} {l : List (FieldDesc × Value)} {fs' : FieldSet},
      takeBy S look fs = some (l, fs') → iterBy S look' fs' = iterBy S look' fs := by
  intro fs
  induction fs with
  | nil => intro l fs' h; simp only [takeBy, Option.some.injEq, Prod.mk.injEq] at h; obtain ⟨_, rfl⟩ := h; rfl
  | cons p r ih =>
    obtain ⟨n, s⟩ := p
    intro l fs' h
    cases s with
    | taken =>
      simp only [takeBy, Option.map_eq_some_iff] at h
      obtain ⟨⟨l', r'⟩, hr, he⟩ := h
      simp only [Prod.mk.injEq] at he
      obtain ⟨rfl, rfl⟩ := he
      simp only [iterBy, ih hr]
    | unknown u =>
      simp only [takeBy, Option.map_eq_some_iff] at h
      obtain ⟨⟨l', r'⟩, hr, he⟩ := h
      simp only [Prod.mk.injEq] at he
      obtain ⟨rfl, rfl⟩ := he
      simp only [iterBy, ih hr]
    | val v =>
      simp only [takeBy] at h
      cases hr : takeBy S look r with
      | none => cases hl : look n <;> simp [hl, hr] at h
      | some q =>
        obtain ⟨l', r'⟩ := q
        cases hl : look n with
        | none =>
          simp only [hl, hr, Option.some.injEq, Prod.mk.injEq] at h
          obtain ⟨rfl, rfl⟩ := h
          simp only [iterBy, ih hr]
        | some f =>
          simp only [hl, hr] at h
          cases hh : hasVal S f v with
          | none => simp [hh] at h
          | some b =>
            cases b with
            | false =>
              simp only [hh, Option.some.injEq, Prod.mk.injEq] at h
              obtain ⟨rfl, rfl⟩ := h
              simp only [iterBy, ih hr]
            | true =>
              simp only [hh, Option.some.injEq, Prod.mk.injEq] at h
              obtain ⟨rfl, rfl⟩ := h
              simp only [iterBy, hdis n f hl, ih hr]

theorem takeUnknown_iterBy {S : Schema} {look : Nat → Option FieldDesc} :
    ∀ fs : FieldSet, iterBy S look (takeUnknown fs).2 = iterBy S look fs
  | [] => rfl
  | (n, .taken) :: r => by simp only [takeUnknown, iterBy, takeUnknown_iterBy r]
  | (n, .unknown u) :: r => by simp only [takeUnknown, iterBy, takeUnknown_iterBy r]
  | (n, .val v) :: r => by simp only [takeUnknown, iterBy, takeUnknown_iterBy r]

/-! ### A default-valued entry writes nothing -/

theorem encSlots_cons_nil {S : Schema} {d n : Nat} {v : Value}
    (h1 : ifPresent S (S.field? d n) v [] (fun f => encVal S f v) = some [])
    (h2 : ifPresent S (S.ext? d n) v [] (fun f => encVal S f v) = some []) (r : FieldSet) :
    encSlots S d ((n, .val v) :: r) = encSlots S d r := by
  simp only [encSlots, h1, h2, List.nil_append]
  cases encSlots S d r with
  | none => rfl
  | some p => rfl

theorem encSlots_cons_congr {S : Schema} {d : Nat} {e : Nat × Slot} {r r' : FieldSet}
    (h : encSlots S d r = encSlots S d r') : encSlots S d (e :: r) = encSlots S d (e :: r') := by
  obtain ⟨n, s⟩ := e
  cases s <;> simp only [encSlots, h]

theorem erase_eq_self {α : Type} {n : Nat} : ∀ {fs : SMap α} {lo : Nat}, SMap.sortedFrom lo fs = true →
    n ≤ lo → SMap.erase n fs = fs := by
  intro fs
  induction fs with
  | nil => intro _ _ _; rfl
  | cons p r ih =>
    obtain ⟨k, s⟩ := p
    intro lo hs hn
    simp only [SMap.sortedFrom, Bool.and_eq_true, decide_eq_true_eq] at hs
    simp only [SMap.erase]
    rw [if_neg (by omega), ih hs.2 (by omega)]

theorem encSlots_insert_default {S : Schema} {d n : Nat} {v : Value}
    (h1 : ifPresent S (S.field? d n) v [] (fun f => encVal S f v) = some [])
    (h2 : ifPresent S (S.ext? d n) v [] (fun f => encVal S f v) = some []) :
    ∀ {fs : FieldSet} {lo : Nat}, SMap.sortedFrom lo fs = true →
      encSlots S d (SMap.insert n (.val v) fs) = encSlots S d (SMap.erase n fs) := by
  intro fs
  induction fs with
  | nil => intro lo _; exact encSlots_cons_nil h1 h2 []
  | cons p r ih =>
    obtain ⟨k, s⟩ := p
    intro lo hs
    simp only [SMap.sortedFrom, Bool.and_eq_true, decide_eq_true_eq] at hs
    simp only [SMap.insert, SMap.erase]
    by_cases hlt : n < k
    · rw [if_pos hlt, if_neg (by omega), erase_eq_self hs.2 (by omega)]
      exact encSlots_cons_nil h1 h2 _
    · rw [if_neg hlt]
      by_cases he : n = k
      · rw [if_pos he, if_pos he.symm]
        exact encSlots_cons_nil h1 h2 _
      · rw [if_neg he, if_neg (Ne.symm he)]
        exact encSlots_cons_congr (ih hs.2)

/-! ### After draining -/

/-- `A` may hold, where `B` holds nothing, a value equal to the default of a field without
presence. -/
def Residue (md : MsgDesc) (dflt : FieldDesc → Value) (A B : AMap) : Prop :=
  ∀ f, f ∈ md.fields ∨ f ∈ md.extensions → A f.number = B f.number ∨
    (B f.number = none ∧ f.presence = false ∧ ∃ v, A f.number = some v ∧ v.beq (dflt f) = true)

/-- Equal outputs, except that a read may return a value that only compares equal. -/
inductive OutEq : Out → Out → Prop
  | refl (o : Out) : OutEq o o
  | val {v w : Value} (h : v.beq w = true) : OutEq (.val v) (.val w)
  | opt {v w : Value} (h : v.beq w = true) : OutEq (.opt (some v)) (.opt (some w))

/-- Not a call that runs the caller's code on the stored value. -/
def Op.noMut : Op → Bool
  | .mutate _ _ | .mutateExt _ _ => false
  | _ => true

theorem Residue.put {md : MsgDesc} {dflt : FieldDesc → Value} {A B : AMap} (h : Residue md dflt A B)
    (f : FieldDesc) (v : Value) : Residue md dflt (A.put md f v) (B.put md f v) := by
  intro g hg
  simp only [AMap.put]
  split
  · exact .inl rfl
  · split
    · exact .inl rfl
    · exact h g hg

theorem Residue.remove {md : MsgDesc} {dflt : FieldDesc → Value} {A B : AMap} (h : Residue md dflt A B)
    (f : FieldDesc) : Residue md dflt (A.remove f) (B.remove f) := by
  intro g hg
  simp only [AMap.remove]
  split
  · exact .inl rfl
  · exact h g hg

theorem Residue.present {md : MsgDesc} {dflt : FieldDesc → Value} {A B : AMap} (h : Residue md dflt A B)
    {f : FieldDesc} (hf : f ∈ md.fields ∨ f ∈ md.extensions) :
    A.present f (dflt f) = B.present f (dflt f) ∧
      (if A.present f (dflt f) then A f.number else none) =
        (if B.present f (dflt f) then B f.number else none) := by
  rcases h f hf with h1 | ⟨h1, h2, v, h3, h4⟩
  · have e1 : A.present f (dflt f) = B.present f (dflt f) := by simp only [AMap.present, h1]
    rw [e1, h1]; exact ⟨rfl, rfl⟩
  · simp [AMap.present, h1, h3, h2, h4]

theorem Residue.read {md : MsgDesc} {dflt : FieldDesc → Value} {A B : AMap} (h : Residue md dflt A B)
    {f : FieldDesc} (hf : f ∈ md.fields ∨ f ∈ md.extensions) :
    A.read f (dflt f) = B.read f (dflt f) ∨ (A.read f (dflt f)).beq (B.read f (dflt f)) = true := by
  rcases h f hf with h1 | ⟨h1, h2, v, h3, h4⟩
  · simp only [AMap.read, h1, true_or]
  · simp [AMap.read, h1, h3, h4]

theorem Residue.step {md : MsgDesc} {dflt : FieldDesc → Value} {valid : FieldDesc → Value → Bool}
    {A B : AMap} (h : Residue md dflt A B) (o : Op) (ho : o.ok md) (hn : o.noMut = true) :
    Residue md dflt (o.spec dflt valid md A).1 (o.spec dflt valid md B).1 ∧
      OutEq (o.spec dflt valid md A).2 (o.spec dflt valid md B).2 := by
  have mem : ∀ {p : FieldDesc → Bool} {f}, md.fields.find? p = some f → f ∈ md.fields :=
    fun h => List.mem_of_find?_eq_some h
  have set : ∀ f v, Residue md dflt
      (if valid f v then (A.put md f v, Out.res (.ok ())) else (A, .res (.error (.invalidType f v)))).1
      (if valid f v then (B.put md f v, Out.res (.ok ())) else (B, .res (.error (.invalidType f v)))).1 ∧
      OutEq
      (if valid f v then (A.put md f v, Out.res (.ok ())) else (A, .res (.error (.invalidType f v)))).2
      (if valid f v then (B.put md f v, Out.res (.ok ())) else (B, .res (.error (.invalidType f v)))).2 := by
    intro f v
    split
    · exact ⟨h.put f v, .refl _⟩
    · exact ⟨h, .refl _⟩
  cases o with
  | has f => exact ⟨h, by simp only [Op.spec, (h.present ho).1]; exact .refl _⟩
  | get f =>
    refine ⟨h, ?_⟩
    rcases h.read ho with h1 | h1
    · simp only [Op.spec, h1]; exact .refl _
    · exact .val h1
  | set f v => exact set f v
  | setExt f v => exact ⟨h.put f v, .refl _⟩
  | clear f => exact ⟨h.remove f, .refl _⟩
  | take f => exact ⟨h.remove f, by simp only [Op.spec, (h.present ho).2]; exact .refl _⟩
  | mutate f g => cases hn
  | mutateExt f g => cases hn
  | hasN n =>
    simp only [Op.spec]
    split
    · rename_i f hf
      exact ⟨h, by simp only [(h.present (.inl (mem hf))).1]; exact .refl _⟩
    · exact ⟨h, .refl _⟩
  | getN n =>
    simp only [Op.spec]
    split
    · rename_i f hf
      refine ⟨h, ?_⟩
      rcases h.read (.inl (mem hf)) with h1 | h1
      · simp only [h1]; exact .refl _
      · exact .opt h1
    · exact ⟨h, .refl _⟩
  | setN n v =>
    simp only [Op.spec]
    split
    · exact set _ v
    · exact ⟨h, .refl _⟩
  | clearN n =>
    simp only [Op.spec]
    split
    · exact ⟨h.remove _, .refl _⟩
    · exact ⟨h, .refl _⟩
  | takeN n =>
    simp only [Op.spec]
    split
    · rename_i f hf
      exact ⟨h.remove _, by simp only [(h.present (.inl (mem hf))).2]; exact .refl _⟩
    · exact ⟨h, .refl _⟩
  | setName n v =>
    simp only [Op.spec]
    split
    · exact set _ v
    · exact ⟨h, .refl _⟩

theorem Residue.run {md : MsgDesc} {dflt : FieldDesc → Value} {valid : FieldDesc → Value → Bool} :
    ∀ (os : List Op) {A B : AMap}, Residue md dflt A B → (∀ o ∈ os, o.ok md ∧ o.noMut = true) →
    (Op.specRun dflt valid md A os).2.length = (Op.specRun dflt valid md B os).2.length ∧
    (∀ (i : Nat) (x y : Out), (Op.specRun dflt valid md A os).2[i]? = some x →
      (Op.specRun dflt valid md B os).2[i]? = some y → OutEq x y) := by
  intro os
  induction os with
  | nil => intro A B _ _; exact ⟨rfl, by intro i x y h; simp [Op.specRun] at h⟩
  | cons o r ih =>
    intro A B h ho
    obtain ⟨h1, h2⟩ := h.step (valid := valid) o (ho o (by simp)).1 (ho o (by simp)).2
    obtain ⟨h3, h4⟩ := ih h1 (fun o' h' => ho o' (by simp [h']))
    refine ⟨by simp only [Op.specRun, List.length_cons, h3], ?_⟩
    intro i x y hx hy
    cases i with
    | zero =>
      simp only [Op.specRun, List.getElem?_cons_zero, Option.some.injEq] at hx hy
      rw [← hx, ← hy]; exact h2
    | succ i =>
      simp only [Op.specRun, List.getElem?_cons_succ] at hx hy
      exact h4 i x y hx hy

end Verif.Dyn
