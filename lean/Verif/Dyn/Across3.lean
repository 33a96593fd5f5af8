import Verif.Dyn.Across2
import Verif.Text.Format
/-!
Two schemas that show the same types under other numbers: what the iterators yield, and the names.
-/
set_option autoImplicit false
namespace Verif.Dyn
open Verif.Wire

/-- The item with types renumbered. -/
def renItem (ρ σ : Nat → Nat) : Item → Item
  | .field f v => .field (renField ρ σ f) (renVal ρ v)
  | .ext f v => .ext (renField ρ σ f) (renVal ρ v)
  | .unknown u => .unknown u

/-- Field and value of the item are in `R`. -/
def ItemIn (S T : Schema) (σ : Nat → Nat) (R : Nat → Prop) : Item → Prop
  | .field f v => InAcross S T σ R f ∧ Within R v
  | .ext f v => InAcross S T σ R f ∧ Within R v
  | .unknown _ => True

/-- The two schemas also name messages and extensions alike, and no name leads to a message outside `R`. -/
structure AcrossNamed (S T : Schema) (ρ σ : Nat → Nat) (R : Nat → Prop) : Prop extends Across S T ρ σ R where
  name : ∀ d md td, R d → S.msg? d = some md → T.msg? (ρ d) = some td → td.name = md.name
  byName : ∀ n, Text.Schema.msgByName T n = (Text.Schema.msgByName S n).map ρ
  named : ∀ n d, Text.Schema.msgByName S n = some d → R d
  extName : ∀ d md td, R d → S.msg? d = some md → T.msg? (ρ d) = some td → ∀ n,
    td.extensions.find? (fun f => f.name == n) = (md.extensions.find? (fun f => f.name == n)).map (renField ρ σ)
  extJson : ∀ d md td, R d → S.msg? d = some md → T.msg? (ρ d) = some td → ∀ n,
    td.extensions.find? (fun f => f.jsonName == n) =
      (md.extensions.find? (fun f => f.jsonName == n)).map (renField ρ σ)

section
variable {S T : Schema} {ρ σ : Nat → Nat} {R : Nat → Prop}

theorem getValue_within : ∀ {fs : FieldSet} {n : Nat} {v : Value}, WithinSlots R fs →
    FieldSet.getValue fs n = some v → Within R v
  | [], _, _, _, h => by cases h
  | (k, s) :: r, n, v, hw, h => by
    have hr : WithinSlots R r := by
      cases s <;> simp only [WithinSlots] at hw <;> first | exact hw.2 | exact hw
    simp only [FieldSet.getValue, SMap.get?] at h
    split at h
    · next v' h' =>
      split at h'
      · cases h; cases h'
        simp only [WithinSlots] at hw
        exact hw.1
      · refine getValue_within (n := n) hr ?_
        simp only [FieldSet.getValue, h', h]
    · cases h

theorem Across.has (h : Across S T ρ σ R) {f : FieldDesc} (hf : InAcross S T σ R f) {fs : FieldSet}
    (hw : WithinSlots R fs) : FieldSet.has T (renSlots ρ fs) (renField ρ σ f) = FieldSet.has S fs f := by
  unfold FieldSet.has
  rw [show (renField ρ σ f).number = f.number from rfl, getValue_ren]
  cases hg : FieldSet.getValue fs f.number with
  | none => rfl
  | some v => exact h.hasVal hf (getValue_within hw hg)

theorem Across.get (h : Across S T ρ σ R) {f : FieldDesc} (hf : InAcross S T σ R f) (fs : FieldSet) :
    FieldSet.get T (renSlots ρ fs) (renField ρ σ f) = (FieldSet.get S fs f).map (renVal ρ) := by
  unfold FieldSet.get
  rw [show (renField ρ σ f).number = f.number from rfl, getValue_ren]
  cases hg : FieldSet.getValue fs f.number with
  | none => exact h.fieldDefault hf
  | some v => rfl

theorem get_within {f : FieldDesc} (hf : InAcross S T σ R f) {fs : FieldSet} (hw : WithinSlots R fs) {v : Value}
    (hv : FieldSet.get S fs f = some v) : Within R v := by
  unfold FieldSet.get at hv
  cases hg : FieldSet.getValue fs f.number with
  | none => rw [hg] at hv; exact fieldDefault_across hf hv
  | some w => rw [hg] at hv; cases hv; exact getValue_within hw hg

theorem Across.iterFieldPart (h : Across S T ρ σ R) (incl : Bool) {fs : FieldSet} (hw : WithinSlots R fs) :
    ∀ l : List (Nat × FieldDesc), (∀ p ∈ l, InAcross S T σ R p.2) →
      iterFieldPart T incl (renSlots ρ fs) (l.map fun p => (p.1, renField ρ σ p.2)) =
        (iterFieldPart S incl fs l).map (List.map (renItem ρ σ)) ∧
      ∀ its, iterFieldPart S incl fs l = some its → ∀ i ∈ its, ItemIn S T σ R i
  | [], _ => ⟨rfl, fun its hi i hm => by cases hi; cases hm⟩
  | (n, f) :: r, hl => by
    have hf : InAcross S T σ R f := hl (n, f) (by simp)
    obtain ⟨h1, h2⟩ := Across.iterFieldPart h incl hw r fun p hp => hl p (List.mem_cons_of_mem _ hp)
    simp only [List.map_cons, Dyn.iterFieldPart, h1, h.has hf hw, h.get hf]
    cases FieldSet.has S fs f with
    | none => exact ⟨rfl, fun its hi => by cases hi⟩
    | some b =>
      cases hr : Dyn.iterFieldPart S incl fs r with
      | none => exact ⟨rfl, fun its hi => by cases hi⟩
      | some its =>
        simp only [Option.map_some, show (renField ρ σ f).presence = f.presence from rfl]
        generalize (if incl = true then !f.presence || b else b) = c
        cases c with
        | false => exact ⟨rfl, fun its' hi => by cases hi; exact h2 its hr⟩
        | true =>
          cases hg : FieldSet.get S fs f with
          | none => exact ⟨rfl, fun its' hi => by cases hi⟩
          | some v =>
            refine ⟨rfl, fun its' hi => ?_⟩
            cases hi
            intro i hi
            rcases List.mem_cons.1 hi with rfl | hi
            · exact ⟨hf, get_within hf hw hg⟩
            · exact h2 its hr i hi

theorem getExtension_in (h : Across S T ρ σ R) {d : Nat} {md : MsgDesc} (hd : R d) (hm : S.msg? d = some md)
    {n : Nat} {f : FieldDesc} (hf : md.getExtension n = some f) : InAcross S T σ R f :=
  h.inner d md hd hm f (.inr (List.mem_of_find?_eq_some hf))

theorem Across.iterExtPart (h : Across S T ρ σ R) {d : Nat} {md td : MsgDesc} (hd : R d) (hm : S.msg? d = some md)
    (hx : ∀ n, td.getExtension n = (md.getExtension n).map (renField ρ σ)) :
    ∀ fs : FieldSet, WithinSlots R fs →
      iterExtPart T td (renSlots ρ fs) = (iterExtPart S md fs).map (List.map (renItem ρ σ)) ∧
      ∀ its, iterExtPart S md fs = some its → ∀ i ∈ its, ItemIn S T σ R i
  | [], _ => ⟨by simp only [renSlots, Dyn.iterExtPart]; rfl, fun its hi i hm => by
      simp only [Dyn.iterExtPart] at hi; cases hi; cases hm⟩
  | (n, .val v) :: r, hw => by
    simp only [WithinSlots] at hw
    obtain ⟨h1, h2⟩ := Across.iterExtPart h hd hm hx r hw.2
    simp only [renSlots, Dyn.iterExtPart, hx, h1]
    cases hg : md.getExtension n with
    | none => exact ⟨rfl, h2⟩
    | some f =>
      have hf := getExtension_in h hd hm hg
      simp only [Option.map_some, h.hasVal hf hw.1]
      cases Dyn.hasVal S f v with
      | none => exact ⟨rfl, fun its hi => by cases hi⟩
      | some b =>
        cases hr : Dyn.iterExtPart S md r with
        | none => cases b <;> exact ⟨rfl, fun its hi => by cases hi⟩
        | some its =>
          cases b with
          | false => exact ⟨rfl, fun its' hi => by cases hi; exact h2 its hr⟩
          | true =>
            refine ⟨rfl, fun its' hi => ?_⟩
            cases hi
            intro i hi
            rcases List.mem_cons.1 hi with rfl | hi
            · exact ⟨hf, hw.1⟩
            · exact h2 its hr i hi
  | (n, .unknown u) :: r, hw => by
    simp only [WithinSlots] at hw
    obtain ⟨h1, h2⟩ := Across.iterExtPart h hd hm hx r hw
    simp only [renSlots, Dyn.iterExtPart, h1]
    cases hr : Dyn.iterExtPart S md r with
    | none => exact ⟨rfl, fun its hi => by cases hi⟩
    | some its =>
      refine ⟨rfl, fun its' hi => ?_⟩
      cases hi
      intro i hi
      rcases List.mem_cons.1 hi with rfl | hi
      · trivial
      · exact h2 its hr i hi
  | (n, .taken) :: r, hw => by
    simp only [WithinSlots] at hw
    simp only [renSlots, Dyn.iterExtPart]
    exact Across.iterExtPart h hd hm hx r hw

theorem insert_renFields (n : Nat) (f : FieldDesc) : ∀ l : List (Nat × FieldDesc),
    SMap.insert n (renField ρ σ f) (l.map fun p => (p.1, renField ρ σ p.2)) =
      (SMap.insert n f l).map fun p => (p.1, renField ρ σ p.2)
  | [] => rfl
  | (k, g) :: r => by
    simp only [List.map_cons, SMap.insert]
    split
    · rfl
    · split
      · rfl
      · simp only [List.map_cons, insert_renFields n f r]

theorem fieldsByNumber_ren {md td : MsgDesc} (h : td.fields = md.fields.map (renField ρ σ)) :
    td.fieldsByNumber = md.fieldsByNumber.map fun p => (p.1, renField ρ σ p.2) := by
  unfold MsgDesc.fieldsByNumber
  rw [h]
  have : ∀ (l : List FieldDesc) (acc : List (Nat × FieldDesc)),
      (l.map (renField ρ σ)).foldl (fun acc f => SMap.insert f.number f acc)
        (acc.map fun p => (p.1, renField ρ σ p.2)) =
      (l.foldl (fun acc f => SMap.insert f.number f acc) acc).map fun p => (p.1, renField ρ σ p.2) := by
    intro l
    induction l with
    | nil => intro acc; rfl
    | cons f r ih =>
      intro acc
      simp only [List.map_cons, List.foldl_cons]
      rw [← ih]
      congr 1
      exact insert_renFields f.number f acc
  exact this md.fields []

theorem insert_mem_fields {n : Nat} {f : FieldDesc} : ∀ {l : List (Nat × FieldDesc)} {p : Nat × FieldDesc},
    p ∈ SMap.insert n f l → p.2 = f ∨ p ∈ l
  | [], p, h => by simp only [SMap.insert, List.mem_singleton] at h; subst h; exact .inl rfl
  | (k, g) :: r, p, h => by
    simp only [SMap.insert] at h
    split at h
    · rcases List.mem_cons.1 h with rfl | h
      · exact .inl rfl
      · exact .inr h
    · split at h
      · rcases List.mem_cons.1 h with rfl | h
        · exact .inl rfl
        · exact .inr (List.mem_cons_of_mem _ h)
      · rcases List.mem_cons.1 h with rfl | h
        · exact .inr (by simp)
        · rcases insert_mem_fields h with h | h
          · exact .inl h
          · exact .inr (List.mem_cons_of_mem _ h)

theorem fieldsByNumber_mem {md : MsgDesc} {p : Nat × FieldDesc} (h : p ∈ md.fieldsByNumber) : p.2 ∈ md.fields := by
  have : ∀ (l : List FieldDesc) (acc : List (Nat × FieldDesc)),
      p ∈ l.foldl (fun acc f => SMap.insert f.number f acc) acc → p.2 ∈ l ∨ p ∈ acc := by
    intro l
    induction l with
    | nil => intro acc h; exact .inr h
    | cons f r ih =>
      intro acc h
      rcases ih _ h with h | h
      · exact .inl (List.mem_cons_of_mem _ h)
      · rcases insert_mem_fields h with h | h
        · exact .inl (h ▸ List.mem_cons_self)
        · exact .inr h
  rcases this md.fields [] h with h | h
  · exact h
  · cases h

/-- The items of a message, in the order given by the numbers or by the descriptors. -/
theorem Across.items (h : Across S T ρ σ R) {d : Nat} {md td : MsgDesc} (hd : R d) (hm : S.msg? d = some md)
    (ht : td.fields = md.fields.map (renField ρ σ))
    (hx : ∀ n, td.getExtension n = (md.getExtension n).map (renField ρ σ)) {fs : FieldSet}
    (hw : WithinSlots R fs) (o : Text.FOpts) :
    Text.items o T td (renSlots ρ fs) = (Text.items o S md fs).map (List.map (renItem ρ σ)) ∧
      ∀ its, Text.items o S md fs = some its → ∀ i ∈ its, ItemIn S T σ R i := by
  obtain ⟨a1, a2⟩ := h.iterExtPart hd hm hx fs hw
  have hin : ∀ p ∈ (if o.indexOrder then md.fields.map (fun f => (f.number, f)) else md.fieldsByNumber),
      InAcross S T σ R p.2 := by
    intro p hp
    refine h.inner d md hd hm p.2 (.inl ?_)
    split at hp
    · obtain ⟨f, hf, rfl⟩ := List.mem_map.1 hp
      exact hf
    · exact fieldsByNumber_mem hp
  obtain ⟨b1, b2⟩ := h.iterFieldPart (!o.skipDefault) hw _ hin
  have e : (if o.indexOrder then td.fields.map (fun f => (f.number, f)) else td.fieldsByNumber) =
      (if o.indexOrder then md.fields.map (fun f => (f.number, f)) else md.fieldsByNumber).map
        fun p => (p.1, renField ρ σ p.2) := by
    split
    · rw [ht, List.map_map, List.map_map]; rfl
    · exact fieldsByNumber_ren ht
  unfold Text.items
  rw [e, b1, a1]
  cases hb : Dyn.iterFieldPart S (!o.skipDefault) fs
      (if o.indexOrder then md.fields.map (fun f => (f.number, f)) else md.fieldsByNumber) with
  | none => exact ⟨rfl, fun its hi => by cases hi⟩
  | some a =>
    cases ha : Dyn.iterExtPart S md fs with
    | none => exact ⟨rfl, fun its hi => by cases hi⟩
    | some b =>
      refine ⟨by simp only [Option.map_some, List.map_append], fun its hi => ?_⟩
      cases hi
      intro i hi
      rcases List.mem_append.1 hi with hi | hi
      · exact b2 a hb i hi
      · exact a2 b ha i hi

end
end Verif.Dyn
