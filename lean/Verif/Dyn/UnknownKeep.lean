import Verif.Dyn.Merge
import Verif.Dyn.Observe
/-! Helper lemmas for C03: decoding a sequence of unknown fields. -/
set_option autoImplicit false
namespace Verif.Dyn
open Verif.Wire

/-- The unknown fields stored under one number. -/
def unknownAt (fs : FieldSet) (n : Nat) : USet :=
  match SMap.get? fs n with
  | some (.unknown u) => u
  | _ => []

theorem addUnknowns_one {S : Schema} (hS : S.wf = true) {md : MsgDesc} {m : DynMsg} (hC : Conf S m md)
    {n : Nat} (hf : md.getField n = none) (he : md.getExtension n = none) (hn : ValidNumber n)
    {x : UVal} (hx : x.Wf) :
    Conf S ⟨m.desc, addUnknowns m.fields n [(n, x)]⟩ md ∧
      ∀ k, SMap.get? (addUnknowns m.fields n [(n, x)]) k =
        if k = n then some (.unknown (unknownAt m.fields n ++ [(n, x)])) else SMap.get? m.fields k := by
  have hone := unknownOk_single hn hx
  unfold addUnknowns unknownAt
  rcases hC.unknown_or hf he with h | h | ⟨us, h, hus⟩ <;> simp only [h]
  · exact ⟨hC.insert_unknown hS hn.1 hf he hone, fun k => by rw [SMap.get?_insert]; rfl⟩
  · exact ⟨hC.insert_unknown hS hn.1 hf he hone, fun k => by rw [SMap.get?_insert]; rfl⟩
  · exact ⟨hC.insert_unknown hS hn.1 hf he (unknownOk_append hus hone),
      fun k => by rw [SMap.get?_insert]⟩

/-- Decoding a list of unknown fields appends each to the list of its number and
touches nothing else. -/
theorem unknowns_steps {S : Schema} (hS : S.wf = true) {md : MsgDesc} (d : Nat) :
    ∀ (us : USet) (m : DynMsg), Conf S m md → Wire.USet.Wf us → USet.depth us ≤ d →
      (∀ p ∈ us, md.getField p.1 = none ∧ md.getExtension p.1 = none) →
      ∃ m', FSteps (msgMerge S d) m (encUSet us) m' ∧ Conf S m' md ∧ m'.desc = m.desc ∧
        (∀ k, unknownAt m'.fields k = unknownAt m.fields k ++ us.filter (fun p => p.1 == k)) ∧
        (∀ k, k ∉ us.map (·.1) → SMap.get? m'.fields k = SMap.get? m.fields k) ∧
        (∀ k ∈ us.map (·.1), ∃ u, SMap.get? m'.fields k = some (.unknown u)) := by
  intro us
  induction us with
  | nil =>
    intro m hC _ _ _
    exact ⟨m, FSteps.nil _, hC, rfl, by simp, by simp, by simp⟩
  | cons p r ih =>
    obtain ⟨n, x⟩ := p
    intro m hC hw hd hk
    have hk1 := hk (n, x) List.mem_cons_self
    simp only [Wire.USet.Wf] at hw
    simp only [USet.depth] at hd
    obtain ⟨hC1, hg1⟩ := addUnknowns_one hS hC hk1.1 hk1.2 hw.1 hw.2.1
    obtain ⟨m', hs, hC', hd', hu, ho, hin⟩ := ih _ hC1 hw.2.2 (by omega)
      (fun p hp => hk p (List.mem_cons_of_mem _ hp))
    have hone := unknown_steps hS hk1.1 hk1.2 d [(n, x)] (by simp) (by simp)
      (by simp only [Wire.USet.Wf]; exact ⟨hw.1, hw.2.1, trivial⟩)
      (by simp only [USet.depth]; omega) m hC
    have henc : encUSet ((n, x) :: r) = encUSet [(n, x)] ++ encUSet r := by
      simp only [encUSet, List.append_nil]
    refine ⟨m', ?_, hC', hd', ?_, ?_, ?_⟩
    · rw [henc]; exact hone.trans hs
    · intro k
      rw [hu k]
      unfold unknownAt
      simp only [hg1 k]
      by_cases hkn : k = n
      · subst hkn
        simp only [if_true, List.filter_cons, beq_self_eq_true, List.append_assoc]
        unfold unknownAt
        simp
      · simp only [if_neg hkn]
        have : (n == k) = false := by simpa using fun h => hkn h.symm
        simp only [List.filter_cons, this]
        rfl
    · intro k hk'
      simp only [List.map_cons, List.mem_cons, not_or] at hk'
      rw [ho k hk'.2, hg1 k, if_neg hk'.1]
    · intro k hk'
      by_cases hkr : k ∈ r.map (·.1)
      · exact hin k hkr
      · simp only [List.map_cons, List.mem_cons] at hk'
        have hkn : k = n := hk'.resolve_right hkr
        rw [ho k hkr, hg1 k, if_pos hkn]
        exact ⟨_, rfl⟩

/-- The unknown fields reported with a given number. -/
theorem iterUnknown_filter : ∀ (fs : FieldSet) (lo : Nat), SMap.sortedFrom lo fs = true →
    (∀ n u, (n, Slot.unknown u) ∈ fs → ∀ p ∈ u, p.1 = n) → ∀ k,
    (iterUnknown fs).filter (fun p => p.1 == k) = unknownAt fs k := by
  intro fs
  induction fs with
  | nil => intro lo _ _ k; rfl
  | cons p r ih =>
    obtain ⟨n, s⟩ := p
    intro lo hs hn k
    simp only [SMap.sortedFrom, Bool.and_eq_true, decide_eq_true_eq] at hs
    have ih' := ih n hs.2 (fun m u h => hn m u (List.mem_cons_of_mem _ h)) k
    cases s with
    | taken =>
      simp only [iterUnknown, ih', unknownAt, SMap.get?]
      by_cases h : n = k
      · subst h
        rw [if_pos rfl, SMap.get?_eq_none_of_le hs.2 (Nat.le_refl _)]
      · rw [if_neg h]
    | val v =>
      simp only [iterUnknown, ih', unknownAt, SMap.get?]
      by_cases h : n = k
      · subst h
        rw [if_pos rfl, SMap.get?_eq_none_of_le hs.2 (Nat.le_refl _)]
      · rw [if_neg h]
    | unknown u =>
      have hu := hn n u List.mem_cons_self
      simp only [iterUnknown, List.filter_append, ih', unknownAt, SMap.get?]
      by_cases h : n = k
      · subst h
        rw [if_pos rfl, SMap.get?_eq_none_of_le hs.2 (Nat.le_refl _)]
        simp only [List.append_nil]
        rw [List.filter_eq_self]
        intro p hp; simp [hu p hp]
      · rw [if_neg h]
        have : u.filter (fun p => p.1 == k) = [] := by
          rw [List.filter_eq_nil_iff]
          intro p hp; simp [hu p hp, h]
        rw [this]; rfl

/-- The numbers of the reported unknown fields ascend. -/
theorem iterUnknown_sorted : ∀ (fs : FieldSet) (lo : Nat), SMap.sortedFrom lo fs = true →
    (∀ n u, (n, Slot.unknown u) ∈ fs → ∀ p ∈ u, p.1 = n) →
    (iterUnknown fs).Pairwise (fun p q => p.1 ≤ q.1) ∧ ∀ p ∈ iterUnknown fs, lo < p.1 := by
  intro fs
  induction fs with
  | nil => intro lo _ _; exact ⟨List.Pairwise.nil, by simp [iterUnknown]⟩
  | cons p r ih =>
    obtain ⟨n, s⟩ := p
    intro lo hs hn
    simp only [SMap.sortedFrom, Bool.and_eq_true, decide_eq_true_eq] at hs
    have ih' := ih n hs.2 (fun m u h => hn m u (List.mem_cons_of_mem _ h))
    have hlt : ∀ p ∈ iterUnknown r, lo < p.1 := fun p hp => Nat.lt_trans hs.1 (ih'.2 p hp)
    cases s with
    | taken => exact ⟨ih'.1, hlt⟩
    | val v => exact ⟨ih'.1, hlt⟩
    | unknown u =>
      have hu := hn n u List.mem_cons_self
      simp only [iterUnknown]
      refine ⟨List.pairwise_append.2 ⟨?_, ih'.1, ?_⟩, ?_⟩
      · rw [List.pairwise_iff_forall_sublist]
        intro a b hab
        have ha := hu a (hab.subset (by simp))
        have hb := hu b (hab.subset (by simp))
        omega
      · intro a ha b hb
        have := hu a ha
        have := ih'.2 b hb
        omega
      · intro a ha
        rcases List.mem_append.1 ha with h | h
        · rw [hu a h]; exact hs.1
        · exact hlt a h

theorem Conf.unknown_numbers {S : Schema} {m : DynMsg} {md : MsgDesc} (h : Conf S m md) :
    ∀ n u, (n, Slot.unknown u) ∈ m.fields → ∀ p ∈ u, p.1 = n := by
  intro n u hm p hp
  have := h.slots _ hm
  simp only [confSlot, Bool.and_eq_true, unknownOk, List.all_eq_true, beq_iff_eq] at this
  exact this.2.1.2 p hp

/-- The unknown entries of the second half of the full iteration. -/
def Item.unknowns : List Item → USet
  | [] => []
  | .unknown u :: r => u ++ Item.unknowns r
  | _ :: r => Item.unknowns r

theorem iterExtPart_unknowns {S : Schema} {md : MsgDesc} : ∀ {fs : FieldSet} {l : List Item},
    iterExtPart S md fs = some l → Item.unknowns l = iterUnknown fs := by
  intro fs
  induction fs with
  | nil => intro l h; simp only [iterExtPart, Option.some.injEq] at h; subst h; rfl
  | cons p r ih =>
    obtain ⟨n, s⟩ := p
    intro l h
    cases s with
    | taken => simp only [iterExtPart] at h; exact ih h
    | unknown u =>
      simp only [iterExtPart] at h
      obtain ⟨l', hl, rfl⟩ := Option.map_eq_some_iff.1 h
      simp only [Item.unknowns, iterUnknown, ih hl]
    | val v =>
      simp only [iterExtPart] at h
      simp only [iterUnknown]
      cases hg : md.getExtension n with
      | none => rw [hg] at h; exact ih h
      | some f =>
        rw [hg] at h
        simp only at h
        split at h
        · cases h; simp only [Item.unknowns]; exact ih ‹_›
        · cases h; exact ih ‹_›
        · cases h

theorem iterFieldPart_unknowns {S : Schema} {incl : Bool} {fs : FieldSet} :
    ∀ {t : List (Nat × FieldDesc)} {l : List Item},
    iterFieldPart S incl fs t = some l → Item.unknowns l = [] := by
  intro t
  induction t with
  | nil => intro l h; simp only [iterFieldPart, Option.some.injEq] at h; subst h; rfl
  | cons p r ih =>
    obtain ⟨n, f⟩ := p
    intro l h
    simp only [iterFieldPart] at h
    split at h
    · rename_i hh items h1 h2
      by_cases hc : (if incl = true then !f.presence || hh else hh) = true
      · rw [if_pos hc] at h
        split at h
        · cases h; simp only [Item.unknowns]; exact ih h2
        · cases h
      · rw [if_neg hc] at h
        cases h; exact ih h2
    · cases h

theorem Item.unknowns_append : ∀ a b : List Item,
    Item.unknowns (a ++ b) = Item.unknowns a ++ Item.unknowns b
  | [], b => rfl
  | .field f v :: r, b => by simp only [List.cons_append, Item.unknowns, Item.unknowns_append r b]
  | .ext f v :: r, b => by simp only [List.cons_append, Item.unknowns, Item.unknowns_append r b]
  | .unknown u :: r, b => by
    simp only [List.cons_append, Item.unknowns, Item.unknowns_append r b, List.append_assoc]

/-- The full iteration behind `encode` reports every unknown field once. -/
theorem iter_unknowns {S : Schema} {md : MsgDesc} {incl : Bool} {fs : FieldSet} {l : List Item}
    (h : iter S md incl fs = some l) : Item.unknowns l = iterUnknown fs := by
  unfold iter at h
  split at h
  · rename_i a b h1 h2
    cases h
    rw [Item.unknowns_append, iterFieldPart_unknowns h1, iterExtPart_unknowns h2]; rfl
  · cases h

end Verif.Dyn
