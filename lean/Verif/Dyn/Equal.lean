import Verif.Dyn.Jumble
import Verif.Dyn.Alike
/-!
Equality of messages (`==`) as the derived `PartialEq` computes it.
-/
set_option autoImplicit false
namespace Verif.Dyn
open Verif.Wire

mutual
/-- No map anywhere in the value has two entries with one key: what a `HashMap` guarantees. -/
def Value.keyed : Value → Bool
  | .msg _ fs => keyedSlots fs
  | .list vs => keyedVals vs
  | .map kvs => KMap.distinct kvs && keyedMap kvs
  | _ => true
def keyedVals : List Value → Bool
  | [] => true
  | v :: r => v.keyed && keyedVals r
def keyedMap : List (MapKey × Value) → Bool
  | [] => true
  | (_, v) :: r => v.keyed && keyedMap r
def keyedSlots : List (Nat × Slot) → Bool
  | [] => true
  | (_, .val v) :: r => v.keyed && keyedSlots r
  | (_, .taken) :: r => keyedSlots r
  | (_, .unknown _) :: r => keyedSlots r
end

mutual
/-- No NaN anywhere in the value. -/
def Value.nanFree : Value → Bool
  | .f32 x => !isNan32 x
  | .f64 x => !isNan64 x
  | .msg _ fs => nanFreeSlots fs
  | .list vs => nanFreeVals vs
  | .map kvs => nanFreeMap kvs
  | _ => true
def nanFreeVals : List Value → Bool
  | [] => true
  | v :: r => v.nanFree && nanFreeVals r
def nanFreeMap : List (MapKey × Value) → Bool
  | [] => true
  | (_, v) :: r => v.nanFree && nanFreeMap r
def nanFreeSlots : List (Nat × Slot) → Bool
  | [] => true
  | (_, .val v) :: r => v.nanFree && nanFreeSlots r
  | (_, .taken) :: r => nanFreeSlots r
  | (_, .unknown _) :: r => nanFreeSlots r
end

/-! ### Floats -/

theorem f32Eq_self (a : BitVec 32) : f32Eq a a = !isNan32 a := by
  simp only [f32Eq, isNan32, beq_self_eq_true, Bool.true_or, Bool.and_true, Bool.and_self]
theorem f64Eq_self (a : BitVec 64) : f64Eq a a = !isNan64 a := by
  simp only [f64Eq, isNan64, beq_self_eq_true, Bool.true_or, Bool.and_true, Bool.and_self]

theorem f32Eq_symm {a b : BitVec 32} (h : f32Eq a b = true) : f32Eq b a = true := by
  simp only [f32Eq, Bool.and_eq_true, Bool.or_eq_true, beq_iff_eq] at h ⊢
  exact ⟨⟨h.1.2, h.1.1⟩, h.2.imp Eq.symm And.symm⟩
theorem f64Eq_symm {a b : BitVec 64} (h : f64Eq a b = true) : f64Eq b a = true := by
  simp only [f64Eq, Bool.and_eq_true, Bool.or_eq_true, beq_iff_eq] at h ⊢
  exact ⟨⟨h.1.2, h.1.1⟩, h.2.imp Eq.symm And.symm⟩

theorem f32Eq_trans {a b c : BitVec 32} (h : f32Eq a b = true) (h' : f32Eq b c = true) : f32Eq a c = true := by
  simp only [f32Eq, Bool.and_eq_true, Bool.or_eq_true, beq_iff_eq] at h h' ⊢
  refine ⟨⟨h.1.1, h'.1.2⟩, ?_⟩
  rcases h.2 with rfl | h2
  · exact h'.2
  · rcases h'.2 with rfl | h3
    · exact .inr h2
    · exact .inr ⟨h2.1, h3.2⟩
theorem f64Eq_trans {a b c : BitVec 64} (h : f64Eq a b = true) (h' : f64Eq b c = true) : f64Eq a c = true := by
  simp only [f64Eq, Bool.and_eq_true, Bool.or_eq_true, beq_iff_eq] at h h' ⊢
  refine ⟨⟨h.1.1, h'.1.2⟩, ?_⟩
  rcases h.2 with rfl | h2
  · exact h'.2
  · rcases h'.2 with rfl | h3
    · exact .inr h2
    · exact .inr ⟨h2.1, h3.2⟩

/-! ### Unknown fields -/

mutual
theorem UVal.beq_iff : (a b : UVal) → (UVal.beq a b = true ↔ a = b)
  | .varint a, b => by cases b <;> simp [UVal.beq]
  | .sixtyFour a, b => by cases b <;> simp [UVal.beq]
  | .len a, b => by cases b <;> simp [UVal.beq]
  | .thirtyTwo a, b => by cases b <;> simp [UVal.beq]
  | .group a, b => by cases b <;> simp [UVal.beq, USet.beq_iff a]
theorem USet.beq_iff : (a b : List (Nat × UVal)) → (USet.beq a b = true ↔ a = b)
  | [], b => by cases b <;> simp [USet.beq]
  | (n, u) :: r, b => by
    cases b with
    | nil => simp [USet.beq]
    | cons q s =>
      obtain ⟨m, w⟩ := q
      simp [USet.beq, UVal.beq_iff u, USet.beq_iff r, and_assoc]
end

/-! ### Maps -/

theorem beqMap_iff {a s : List (MapKey × Value)} : beqMap a s = true ↔
    ∀ p ∈ a, ∃ w, KMap.get? s p.1 = some w ∧ p.2.beq w = true := by
  induction a with
  | nil => simp [beqMap]
  | cons p r ih =>
    obtain ⟨k, v⟩ := p
    simp only [beqMap, Bool.and_eq_true, ih, List.forall_mem_cons]
    refine and_congr ?_ Iff.rfl
    cases KMap.get? s k <;> simp

/-- A list without repetitions that is contained in one of the same length contains it. -/
theorem subset_of_nodup {α : Type} [DecidableEq α] : ∀ (a b : List α), a.Nodup → a ⊆ b → b.length ≤ a.length → b ⊆ a
  | [], b, _, _, hl => by
    cases b with
    | nil => exact fun _ h => h
    | cons => simp at hl
  | x :: r, b, hn, hs, hl => by
    rw [List.nodup_cons] at hn
    have hx : x ∈ b := hs List.mem_cons_self
    have hlen := List.length_erase_of_mem hx
    have hpos := List.length_pos_of_mem hx
    simp only [List.length_cons] at hl
    have := subset_of_nodup r (b.erase x) hn.2 (fun y hy => by
      have hne : y ≠ x := by rintro rfl; exact hn.1 hy
      exact (List.mem_erase_of_ne hne).2 (hs (List.mem_cons_of_mem _ hy))) (by omega)
    intro y hy
    by_cases hyx : y = x
    · rw [hyx]; exact List.mem_cons_self
    · exact List.mem_cons_of_mem _ (this ((List.mem_erase_of_ne hyx).2 hy))

/-- In equal maps each entry of the second has its counterpart in the first. -/
theorem beqMap_back {a b : List (MapKey × Value)} (ha : KMap.distinct a = true) (hb : KMap.distinct b = true)
    (hl : a.length = b.length) (h : beqMap a b = true) {k : MapKey} {w : Value} (hk : (k, w) ∈ b) :
    ∃ v, (k, v) ∈ a ∧ v.beq w = true := by
  rw [beqMap_iff] at h
  have hsub : a.map (·.1) ⊆ b.map (·.1) := by
    intro j hj
    obtain ⟨p, hp, rfl⟩ := List.mem_map.1 hj
    obtain ⟨x, hx, -⟩ := h p hp
    exact (get?_isSome b p.1).1 (by rw [hx]; rfl)
  have hsup := subset_of_nodup _ _ ((distinct_nodup a).1 ha) hsub (by simp only [List.length_map]; omega)
  obtain ⟨p, hp, he⟩ := List.mem_map.1 (hsup (List.mem_map.2 ⟨_, hk, rfl⟩))
  obtain ⟨j, v⟩ := p
  simp only at he
  subst he
  obtain ⟨x, hx, hv⟩ := h _ hp
  rw [get?_mem hb] at hx
  have : some x = some w := by
    rw [← (get?_mem hb _ _).2 hx, ← (get?_mem hb _ _).2 hk]
  cases this
  exact ⟨v, hp, hv⟩

theorem keyed_mem : ∀ {a : List (MapKey × Value)}, keyedMap a = true → ∀ p ∈ a, p.2.keyed = true
  | [], _, p, hp => absurd hp List.not_mem_nil
  | (k, v) :: r, h, p, hp => by
    simp only [keyedMap, Bool.and_eq_true] at h
    rcases List.mem_cons.1 hp with rfl | hp
    · exact h.1
    · exact keyed_mem h.2 p hp

theorem mem_of_get? : ∀ {a : List (MapKey × Value)} {k : MapKey} {v : Value}, KMap.get? a k = some v → (k, v) ∈ a
  | [], _, _, h => by cases h
  | (j, w) :: r, k, v, h => by
    simp only [KMap.get?] at h
    split at h
    · rename_i e; cases h; subst e; exact List.mem_cons_self
    · exact List.mem_cons_of_mem _ (mem_of_get? h)

/-! ### Symmetry, transitivity, reflexivity -/

mutual
theorem beq_symm : (v w : Value) → v.keyed = true → w.keyed = true → v.beq w = true → w.beq v = true
  | .msg d fs, w, hv, hw, h => by
    cases w with
    | msg e gs =>
      simp only [Value.beq, Value.keyed, Bool.and_eq_true, beq_iff_eq] at h hv hw ⊢
      exact ⟨h.1.symm, beqSlots_symm fs gs hv hw h.2⟩
    | _ => simp only [Value.beq] at h; cases h
  | .list vs, w, hv, hw, h => by
    cases w with
    | list ws =>
      simp only [Value.beq, Value.keyed] at h hv hw ⊢
      exact beqVals_symm vs ws hv hw h
    | _ => simp only [Value.beq] at h; cases h
  | .map kvs, w, hv, hw, h => by
    cases w with
    | map kws =>
      simp only [Value.beq, Value.keyed, Bool.and_eq_true, beq_iff_eq] at h hv hw ⊢
      refine ⟨h.1.symm, beqMap_iff.2 (fun p hp => ?_)⟩
      obtain ⟨v, hm, he⟩ := beqMap_back hv.1 hw.1 h.1 h.2 (k := p.1) (w := p.2) hp
      exact ⟨v, (get?_mem hv.1 _ _).2 hm, beqMap_symm kvs hv.2 _ hm p.2 (keyed_mem hw.2 p hp) he⟩
    | _ => simp only [Value.beq] at h; cases h
  | .bool _, w, _, _, h => by cases w <;> simp only [Value.beq, beq_iff_eq] at h ⊢ <;> first | exact h.symm | cases h
  | .i32 _, w, _, _, h => by cases w <;> simp only [Value.beq, beq_iff_eq] at h ⊢ <;> first | exact h.symm | cases h
  | .i64 _, w, _, _, h => by cases w <;> simp only [Value.beq, beq_iff_eq] at h ⊢ <;> first | exact h.symm | cases h
  | .u32 _, w, _, _, h => by cases w <;> simp only [Value.beq, beq_iff_eq] at h ⊢ <;> first | exact h.symm | cases h
  | .u64 _, w, _, _, h => by cases w <;> simp only [Value.beq, beq_iff_eq] at h ⊢ <;> first | exact h.symm | cases h
  | .f32 _, w, _, _, h => by cases w <;> simp only [Value.beq] at h ⊢ <;> first | exact f32Eq_symm h | cases h
  | .f64 _, w, _, _, h => by cases w <;> simp only [Value.beq] at h ⊢ <;> first | exact f64Eq_symm h | cases h
  | .str _, w, _, _, h => by cases w <;> simp only [Value.beq, beq_iff_eq] at h ⊢ <;> first | exact h.symm | cases h
  | .bytes _, w, _, _, h => by cases w <;> simp only [Value.beq, beq_iff_eq] at h ⊢ <;> first | exact h.symm | cases h
  | .enum _, w, _, _, h => by cases w <;> simp only [Value.beq, beq_iff_eq] at h ⊢ <;> first | exact h.symm | cases h
theorem beqVals_symm : (a b : List Value) → keyedVals a = true → keyedVals b = true → beqVals a b = true →
    beqVals b a = true
  | [], b, _, _, h => by
    cases b with
    | nil => exact h
    | cons => simp only [beqVals] at h; cases h
  | v :: r, b, ha, hb, h => by
    cases b with
    | nil => simp only [beqVals] at h; cases h
    | cons w s =>
      simp only [beqVals, keyedVals, Bool.and_eq_true] at h ha hb ⊢
      exact ⟨beq_symm v w ha.1 hb.1 h.1, beqVals_symm r s ha.2 hb.2 h.2⟩
theorem beqMap_symm : (a : List (MapKey × Value)) → keyedMap a = true → ∀ p ∈ a, ∀ w : Value, w.keyed = true →
    p.2.beq w = true → w.beq p.2 = true
  | [], _, p, hp => absurd hp List.not_mem_nil
  | (k, v) :: r, ha, p, hp => by
    simp only [keyedMap, Bool.and_eq_true] at ha
    intro w hw h
    rcases List.mem_cons.1 hp with e | hp
    · subst e; exact beq_symm v w ha.1 hw h
    · exact beqMap_symm r ha.2 p hp w hw h
theorem beqSlots_symm : (a b : List (Nat × Slot)) → keyedSlots a = true → keyedSlots b = true → beqSlots a b = true →
    beqSlots b a = true
  | [], b, _, _, h => by
    cases b with
    | nil => exact h
    | cons => simp only [beqSlots] at h; cases h
  | (n, .taken) :: r, b, ha, hb, h => by
    match b, hb, h with
    | (m, .taken) :: s, hb, h =>
      simp only [beqSlots, keyedSlots, Bool.and_eq_true, beq_iff_eq] at h ha hb ⊢
      exact ⟨h.1.symm, beqSlots_symm r s ha hb h.2⟩
    | [], _, h | (_, .val _) :: _, _, h | (_, .unknown _) :: _, _, h => simp only [beqSlots] at h; cases h
  | (n, .unknown u) :: r, b, ha, hb, h => by
    match b, hb, h with
    | (m, .unknown w) :: s, hb, h =>
      simp only [beqSlots, keyedSlots, Bool.and_eq_true, beq_iff_eq, USet.beq_iff] at h ha hb ⊢
      exact ⟨⟨h.1.1.symm, h.1.2.symm⟩, beqSlots_symm r s ha hb h.2⟩
    | [], _, h | (_, .val _) :: _, _, h | (_, .taken) :: _, _, h => simp only [beqSlots] at h; cases h
  | (n, .val v) :: r, b, ha, hb, h => by
    match b, hb, h with
    | (m, .val w) :: s, hb, h =>
      simp only [beqSlots, keyedSlots, Bool.and_eq_true, beq_iff_eq] at h ha hb ⊢
      exact ⟨⟨h.1.1.symm, beq_symm v w ha.1 hb.1 h.1.2⟩, beqSlots_symm r s ha.2 hb.2 h.2⟩
    | [], _, h | (_, .unknown _) :: _, _, h | (_, .taken) :: _, _, h => simp only [beqSlots] at h; cases h
end

mutual
theorem beq_trans : (v w x : Value) → v.beq w = true → w.beq x = true → v.beq x = true
  | .msg d fs, w, x, h, h' => by
    cases w with
    | msg e gs =>
      cases x with
      | msg _ _ =>
        simp only [Value.beq, Bool.and_eq_true, beq_iff_eq] at h h' ⊢
        exact ⟨h.1.trans h'.1, beqSlots_trans fs gs _ h.2 h'.2⟩
      | _ => simp only [Value.beq] at h'; cases h'
    | _ => simp only [Value.beq] at h; cases h
  | .list vs, w, x, h, h' => by
    cases w with
    | list ws =>
      cases x with
      | list _ =>
        simp only [Value.beq] at h h' ⊢
        exact beqVals_trans vs ws _ h h'
      | _ => simp only [Value.beq] at h'; cases h'
    | _ => simp only [Value.beq] at h; cases h
  | .map kvs, w, x, h, h' => by
    cases w with
    | map kws =>
      cases x with
      | map kxs =>
        simp only [Value.beq, Bool.and_eq_true, beq_iff_eq] at h h' ⊢
        refine ⟨h.1.trans h'.1, beqMap_iff.2 (fun p hp => ?_)⟩
        obtain ⟨w, hw, e⟩ := beqMap_iff.1 h.2 p hp
        obtain ⟨x, hx, e'⟩ := beqMap_iff.1 h'.2 _ (mem_of_get? hw)
        exact ⟨x, hx, beqMap_trans kvs p hp w x e e'⟩
      | _ => simp only [Value.beq] at h'; cases h'
    | _ => simp only [Value.beq] at h; cases h
  | .bool _, w, x, h, h' => by
    cases w <;> simp only [Value.beq, beq_iff_eq] at h <;> first | (subst h; exact h') | cases h
  | .i32 _, w, x, h, h' => by
    cases w <;> simp only [Value.beq, beq_iff_eq] at h <;> first | (subst h; exact h') | cases h
  | .i64 _, w, x, h, h' => by
    cases w <;> simp only [Value.beq, beq_iff_eq] at h <;> first | (subst h; exact h') | cases h
  | .u32 _, w, x, h, h' => by
    cases w <;> simp only [Value.beq, beq_iff_eq] at h <;> first | (subst h; exact h') | cases h
  | .u64 _, w, x, h, h' => by
    cases w <;> simp only [Value.beq, beq_iff_eq] at h <;> first | (subst h; exact h') | cases h
  | .str _, w, x, h, h' => by
    cases w <;> simp only [Value.beq, beq_iff_eq] at h <;> first | (subst h; exact h') | cases h
  | .bytes _, w, x, h, h' => by
    cases w <;> simp only [Value.beq, beq_iff_eq] at h <;> first | (subst h; exact h') | cases h
  | .enum _, w, x, h, h' => by
    cases w <;> simp only [Value.beq, beq_iff_eq] at h <;> first | (subst h; exact h') | cases h
  | .f32 _, w, x, h, h' => by
    cases w <;> simp only [Value.beq] at h <;> try (cases h; done)
    cases x <;> simp only [Value.beq] at h' ⊢ <;> try (cases h'; done)
    exact f32Eq_trans h h'
  | .f64 _, w, x, h, h' => by
    cases w <;> simp only [Value.beq] at h <;> try (cases h; done)
    cases x <;> simp only [Value.beq] at h' ⊢ <;> try (cases h'; done)
    exact f64Eq_trans h h'
theorem beqVals_trans : (a b c : List Value) → beqVals a b = true → beqVals b c = true → beqVals a c = true
  | [], b, c, h, h' => by
    cases b with
    | nil => exact h'
    | cons => simp only [beqVals] at h; cases h
  | v :: r, b, c, h, h' => by
    cases b with
    | nil => simp only [beqVals] at h; cases h
    | cons w s =>
      cases c with
      | nil => simp only [beqVals] at h'; cases h'
      | cons x t =>
        simp only [beqVals, Bool.and_eq_true] at h h' ⊢
        exact ⟨beq_trans v w x h.1 h'.1, beqVals_trans r s t h.2 h'.2⟩
theorem beqMap_trans : (a : List (MapKey × Value)) → ∀ p ∈ a, ∀ w x : Value, p.2.beq w = true → w.beq x = true →
    p.2.beq x = true
  | [], p, hp => absurd hp List.not_mem_nil
  | (k, v) :: r, p, hp => by
    intro w x h h'
    rcases List.mem_cons.1 hp with e | hp
    · subst e; exact beq_trans v w x h h'
    · exact beqMap_trans r p hp w x h h'
theorem beqSlots_trans : (a b c : List (Nat × Slot)) → beqSlots a b = true → beqSlots b c = true →
    beqSlots a c = true
  | [], b, c, h, h' => by
    cases b with
    | nil => exact h'
    | cons => simp only [beqSlots] at h; cases h
  | (n, .taken) :: r, b, c, h, h' => by
    match b, h, h' with
    | (m, .taken) :: s, h, h' =>
      match c, h' with
      | (k, .taken) :: t, h' =>
        simp only [beqSlots, Bool.and_eq_true, beq_iff_eq] at h h' ⊢
        exact ⟨h.1.trans h'.1, beqSlots_trans r s t h.2 h'.2⟩
      | [], h | (_, .val _) :: _, h | (_, .unknown _) :: _, h => simp only [beqSlots] at h; cases h
    | [], h, _ | (_, .val _) :: _, h, _ | (_, .unknown _) :: _, h, _ => simp only [beqSlots] at h; cases h
  | (n, .unknown u) :: r, b, c, h, h' => by
    match b, h, h' with
    | (m, .unknown w) :: s, h, h' =>
      match c, h' with
      | (k, .unknown x) :: t, h' =>
        simp only [beqSlots, Bool.and_eq_true, beq_iff_eq, USet.beq_iff] at h h' ⊢
        exact ⟨⟨h.1.1.trans h'.1.1, h.1.2.trans h'.1.2⟩, beqSlots_trans r s t h.2 h'.2⟩
      | [], h | (_, .val _) :: _, h | (_, .taken) :: _, h => simp only [beqSlots] at h; cases h
    | [], h, _ | (_, .val _) :: _, h, _ | (_, .taken) :: _, h, _ => simp only [beqSlots] at h; cases h
  | (n, .val v) :: r, b, c, h, h' => by
    match b, h, h' with
    | (m, .val w) :: s, h, h' =>
      match c, h' with
      | (k, .val x) :: t, h' =>
        simp only [beqSlots, Bool.and_eq_true, beq_iff_eq] at h h' ⊢
        exact ⟨⟨h.1.1.trans h'.1.1, beq_trans v w x h.1.2 h'.1.2⟩, beqSlots_trans r s t h.2 h'.2⟩
      | [], h | (_, .unknown _) :: _, h | (_, .taken) :: _, h => simp only [beqSlots] at h; cases h
    | [], h, _ | (_, .unknown _) :: _, h, _ | (_, .taken) :: _, h, _ => simp only [beqSlots] at h; cases h
end

theorem beqMap_self {a : List (MapKey × Value)} (ha : KMap.distinct a = true) :
    beqMap a a = true ↔ ∀ p ∈ a, p.2.beq p.2 = true := by
  rw [beqMap_iff]
  refine forall_congr' (fun p => forall_congr' (fun hp => ?_))
  rw [(get?_mem ha p.1 p.2).2 hp]
  simp

mutual
/-- A value equals itself if and only if there is no NaN in it. -/
theorem beq_self : (v : Value) → v.keyed = true → v.beq v = v.nanFree
  | .msg d fs, h => by
    simp only [Value.keyed] at h
    simp only [Value.beq, Value.nanFree, beq_self_eq_true, Bool.true_and, beqSlots_self fs h]
  | .list vs, h => by
    simp only [Value.keyed] at h
    simp only [Value.beq, Value.nanFree, beqVals_self vs h]
  | .map kvs, h => by
    simp only [Value.keyed, Bool.and_eq_true] at h
    simp only [Value.beq, Value.nanFree, beq_self_eq_true, Bool.true_and]
    rw [Bool.eq_iff_iff, beqMap_self h.1]
    exact beqEntries_self kvs h.2
  | .f32 x, _ => by simp only [Value.beq, Value.nanFree, f32Eq_self]
  | .f64 x, _ => by simp only [Value.beq, Value.nanFree, f64Eq_self]
  | .bool _, _ | .i32 _, _ | .i64 _, _ | .u32 _, _ | .u64 _, _ | .str _, _ | .bytes _, _ | .enum _, _ => by
    simp only [Value.beq, Value.nanFree, beq_self_eq_true]
theorem beqVals_self : (a : List Value) → keyedVals a = true → beqVals a a = nanFreeVals a
  | [], _ => by simp only [beqVals, nanFreeVals]
  | v :: r, h => by
    simp only [keyedVals, Bool.and_eq_true] at h
    simp only [beqVals, nanFreeVals, beq_self v h.1, beqVals_self r h.2]
theorem beqEntries_self : (a : List (MapKey × Value)) → keyedMap a = true →
    ((∀ p ∈ a, p.2.beq p.2 = true) ↔ nanFreeMap a = true)
  | [], _ => by simp [nanFreeMap]
  | (k, v) :: r, h => by
    simp only [keyedMap, Bool.and_eq_true] at h
    simp only [nanFreeMap, Bool.and_eq_true, List.forall_mem_cons, beqEntries_self r h.2, beq_self v h.1]
theorem beqSlots_self : (a : List (Nat × Slot)) → keyedSlots a = true → beqSlots a a = nanFreeSlots a
  | [], _ => by simp only [beqSlots, nanFreeSlots]
  | (n, .val v) :: r, h => by
    simp only [keyedSlots, Bool.and_eq_true] at h
    simp only [beqSlots, nanFreeSlots, beq_self v h.1, beqSlots_self r h.2, beq_self_eq_true, Bool.true_and]
  | (n, .taken) :: r, h => by
    simp only [keyedSlots] at h
    simp only [beqSlots, nanFreeSlots, beqSlots_self r h, beq_self_eq_true, Bool.true_and]
  | (n, .unknown u) :: r, h => by
    simp only [keyedSlots] at h
    simp only [beqSlots, nanFreeSlots, beqSlots_self r h, beq_self_eq_true, Bool.true_and, (USet.beq_iff u u).2]
end

/-! ### Presence and content -/

theorem beq_left {v w : Value} (hv : v.keyed = true) (hw : w.keyed = true) (h : v.beq w = true) (x : Value) :
    v.beq x = w.beq x := by
  rw [Bool.eq_iff_iff]
  exact ⟨fun e => beq_trans w v x (beq_symm v w hv hw h) e, fun e => beq_trans v w x h e⟩

theorem beq_isDefault {v w : Value} (hv : v.keyed = true) (hw : w.keyed = true) (h : v.beq w = true) (S : Schema)
    (f : FieldDesc) : isDefault S f v = isDefault S f w := by
  unfold isDefault
  cases fieldDefault S f with
  | none => rfl
  | some x => simp only [Option.map_some, beq_left hv hw h x]

theorem beq_hasVal {v w : Value} (hv : v.keyed = true) (hw : w.keyed = true) (h : v.beq w = true) (S : Schema)
    (f : FieldDesc) : hasVal S f v = hasVal S f w := by
  unfold hasVal
  rw [beq_isDefault hv hw h]

theorem beq_unless {v w : Value} (hv : v.keyed = true) (hw : w.keyed = true) (h : v.beq w = true) (S : Schema)
    (f : FieldDesc) {α : Type} (z : α) (k : Option α) : unlessDefault S f v z k = unlessDefault S f w z k := by
  unfold unlessDefault
  rw [beq_isDefault hv hw h]

theorem beq_ifPresent {v w : Value} (hv : v.keyed = true) (hw : w.keyed = true) (h : v.beq w = true) (S : Schema)
    (f : Option FieldDesc) {α : Type} (z : α) (k : FieldDesc → Option α) :
    ifPresent S f v z k = ifPresent S f w z k := by
  unfold ifPresent
  cases f with
  | none => rfl
  | some f => simp only [beq_hasVal hv hw h]

/-- Equal messages agree slot by slot. -/
inductive EqSlots : List (Nat × Slot) → List (Nat × Slot) → Prop
  | nil : EqSlots [] []
  | taken {n : Nat} {a b : List (Nat × Slot)} (t : EqSlots a b) : EqSlots ((n, .taken) :: a) ((n, .taken) :: b)
  | unknown {n : Nat} {u : USet} {a b : List (Nat × Slot)} (t : EqSlots a b) :
      EqSlots ((n, .unknown u) :: a) ((n, .unknown u) :: b)
  | val {n : Nat} {v w : Value} {a b : List (Nat × Slot)} (h : v.beq w = true) (hv : v.keyed = true) (hw : w.keyed = true)
      (t : EqSlots a b) : EqSlots ((n, .val v) :: a) ((n, .val w) :: b)

theorem eqSlots : ∀ (a b : List (Nat × Slot)), keyedSlots a = true → keyedSlots b = true → beqSlots a b = true →
    EqSlots a b
  | [], [], _, _, _ => .nil
  | (n, .taken) :: r, (m, .taken) :: s, ha, hb, h => by
    simp only [beqSlots, keyedSlots, Bool.and_eq_true, beq_iff_eq] at h ha hb
    obtain ⟨rfl, h⟩ := h
    exact .taken (eqSlots r s ha hb h)
  | (n, .unknown u) :: r, (m, .unknown w) :: s, ha, hb, h => by
    simp only [beqSlots, keyedSlots, Bool.and_eq_true, beq_iff_eq, USet.beq_iff] at h ha hb
    obtain ⟨⟨rfl, rfl⟩, h⟩ := h
    exact .unknown (eqSlots r s ha hb h)
  | (n, .val v) :: r, (m, .val w) :: s, ha, hb, h => by
    simp only [beqSlots, keyedSlots, Bool.and_eq_true, beq_iff_eq] at h ha hb
    obtain ⟨⟨rfl, h1⟩, h⟩ := h
    exact .val h1 ha.1 hb.1 (eqSlots r s ha.2 hb.2 h)
  | [], _ :: _, _, _, h => by simp only [beqSlots] at h; cases h
  | (_, .taken) :: _, [], _, _, h => by simp only [beqSlots] at h; cases h
  | (_, .taken) :: _, (_, .val _) :: _, _, _, h => by simp only [beqSlots] at h; cases h
  | (_, .taken) :: _, (_, .unknown _) :: _, _, _, h => by simp only [beqSlots] at h; cases h
  | (_, .unknown _) :: _, [], _, _, h => by simp only [beqSlots] at h; cases h
  | (_, .unknown _) :: _, (_, .val _) :: _, _, _, h => by simp only [beqSlots] at h; cases h
  | (_, .unknown _) :: _, (_, .taken) :: _, _, _, h => by simp only [beqSlots] at h; cases h
  | (_, .val _) :: _, [], _, _, h => by simp only [beqSlots] at h; cases h
  | (_, .val _) :: _, (_, .unknown _) :: _, _, _, h => by simp only [beqSlots] at h; cases h
  | (_, .val _) :: _, (_, .taken) :: _, _, _, h => by simp only [beqSlots] at h; cases h

theorem EqSlots.getValue : ∀ {a b : List (Nat × Slot)}, EqSlots a b → ∀ n,
    (FieldSet.getValue a n = none ∧ FieldSet.getValue b n = none) ∨
    ∃ v w, FieldSet.getValue a n = some v ∧ FieldSet.getValue b n = some w ∧ v.beq w = true ∧ v.keyed = true ∧
      w.keyed = true
  | _, _, .nil, n => .inl ⟨rfl, rfl⟩
  | _, _, .taken (n := k) t, n => by
    simp only [FieldSet.getValue, SMap.get?]
    by_cases e : k = n
    · simp only [e, if_true]; exact .inl ⟨trivial, trivial⟩
    · simp only [e, if_false]; exact t.getValue n
  | _, _, .unknown (n := k) t, n => by
    simp only [FieldSet.getValue, SMap.get?]
    by_cases e : k = n
    · simp only [e, if_true]; exact .inl ⟨trivial, trivial⟩
    · simp only [e, if_false]; exact t.getValue n
  | _, _, .val (n := k) h hv hw t, n => by
    simp only [FieldSet.getValue, SMap.get?]
    by_cases e : k = n
    · simp only [e, if_true]; exact .inr ⟨_, _, rfl, rfl, h, hv, hw⟩
    · simp only [e, if_false]; exact t.getValue n

theorem EqSlots.iterUnknown : ∀ {a b : List (Nat × Slot)}, EqSlots a b → iterUnknown a = iterUnknown b
  | _, _, .nil => rfl
  | _, _, .taken t => by simp only [Dyn.iterUnknown, t.iterUnknown]
  | _, _, .unknown t => by simp only [Dyn.iterUnknown, t.iterUnknown]
  | _, _, .val _ _ _ t => by simp only [Dyn.iterUnknown, t.iterUnknown]

/-! ### Conforming values -/

mutual
theorem keyed_conf {S : Schema} : (v : Value) → (f : FieldDesc) → confVal S f v = true → v.keyed = true
  | .msg d fs, f, h => by
    have := (confMsg_of_confVal h).2.2
    simp only [confMsg, Bool.and_eq_true] at this
    simp only [Value.keyed]
    exact keyed_confSlots fs d this.2
  | .list vs, f, h => by
    simp only [confVal, Bool.and_eq_true] at h
    simp only [Value.keyed]
    exact keyed_confVals vs f.elem h.2
  | .map kvs, f, h => by
    simp only [confVal, Bool.and_eq_true] at h
    simp only [Value.keyed, Bool.and_eq_true]
    have h2 := h.2
    split at h2
    · split at h2
      · simp only [Bool.and_eq_true] at h2
        exact ⟨h2.1, keyed_confMap kvs _ _ h2.2⟩
      · cases h2
    · cases h2
  | .bool _, _, _ | .i32 _, _, _ | .i64 _, _, _ | .u32 _, _, _ | .u64 _, _, _ | .f32 _, _, _ | .f64 _, _, _
  | .str _, _, _ | .bytes _, _, _ | .enum _, _, _ => rfl
theorem keyed_confVals {S : Schema} : (a : List Value) → (f : FieldDesc) → confVals S f a = true → keyedVals a = true
  | [], _, _ => rfl
  | v :: r, f, h => by
    simp only [confVals, Bool.and_eq_true] at h
    simp only [keyedVals, Bool.and_eq_true]
    exact ⟨keyed_conf v f h.1, keyed_confVals r f h.2⟩
theorem keyed_confMap {S : Schema} : (a : List (MapKey × Value)) → (kd vd : FieldDesc) → confMap S kd vd a = true →
    keyedMap a = true
  | [], _, _, _ => rfl
  | (k, v) :: r, kd, vd, h => by
    simp only [confMap, Bool.and_eq_true] at h
    simp only [keyedMap, Bool.and_eq_true]
    exact ⟨keyed_conf v vd h.1.2, keyed_confMap r kd vd h.2⟩
theorem keyed_confSlots {S : Schema} : (a : List (Nat × Slot)) → (d : Nat) → confSlots S d a = true →
    keyedSlots a = true
  | [], _, _ => rfl
  | (n, .taken) :: r, d, h => by
    simp only [confSlots] at h
    simp only [keyedSlots]
    exact keyed_confSlots r d h
  | (n, .unknown u) :: r, d, h => by
    simp only [confSlots, Bool.and_eq_true] at h
    simp only [keyedSlots]
    exact keyed_confSlots r d h.2
  | (n, .val v) :: r, d, h => by
    simp only [confSlots, Bool.and_eq_true] at h
    simp only [keyedSlots, Bool.and_eq_true]
    refine ⟨?_, keyed_confSlots r d h.2⟩
    have h1 := h.1
    split at h1
    · exact keyed_conf v _ h1
    · split at h1
      · exact keyed_conf v _ h1
      · cases h1
end

/-! ### Lengths -/

/-- Entry by entry. -/
inductive EqMap : List (MapKey × Value) → List (MapKey × Value) → Prop
  | nil : EqMap [] []
  | cons {k : MapKey} {v w : Value} {a b : List (MapKey × Value)} (h : v.beq w = true) (hw : w.keyed = true) (t : EqMap a b) :
      EqMap ((k, v) :: a) ((k, w) :: b)

theorem EqMap.keys : ∀ {a b}, EqMap a b → a.map (·.1) = b.map (·.1)
  | _, _, .nil => rfl
  | _, _, .cons _ _ t => by simp only [List.map_cons, t.keys]

theorem eqMap_exists {b : List (MapKey × Value)} (hb : keyedMap b = true) : ∀ (a : List (MapKey × Value)),
    beqMap a b = true → ∃ b', EqMap a b' ∧ b' ⊆ b
  | [], _ => ⟨[], .nil, fun _ h => absurd h List.not_mem_nil⟩
  | (k, v) :: r, h => by
    have h' := beqMap_iff.1 h
    rw [List.forall_mem_cons] at h'
    obtain ⟨w, hw, he⟩ := h'.1
    obtain ⟨b', h1, h2⟩ := eqMap_exists hb r (beqMap_iff.2 h'.2)
    have hm := mem_of_get? hw
    exact ⟨(k, w) :: b', .cons he (keyed_mem hb _ hm) h1, List.cons_subset.2 ⟨hm, h2⟩⟩

theorem nodup_of_map {α β : Type} {g : α → β} {l : List α} (h : (l.map g).Nodup) : l.Nodup := by
  induction l with
  | nil => exact List.nodup_nil
  | cons x r ih =>
    rw [List.map_cons, List.nodup_cons] at h
    rw [List.nodup_cons]
    exact ⟨fun hx => h.1 (List.mem_map.2 ⟨x, hx, rfl⟩), ih h.2⟩

theorem beqMap_align {a b : List (MapKey × Value)} (ha : KMap.distinct a = true) (hb : KMap.distinct b = true)
    (hkb : keyedMap b = true) (hl : a.length = b.length) (h : beqMap a b = true) : ∃ b', EqMap a b' ∧ b'.Perm b := by
  obtain ⟨b', h1, h2⟩ := eqMap_exists hkb a h
  have hk := h1.keys
  have hlen : b'.length = a.length := by
    have := congrArg List.length hk
    simpa using this.symm
  have hn' : b'.Nodup := nodup_of_map (by rw [← hk]; exact (distinct_nodup a).1 ha)
  have hn : b.Nodup := nodup_of_map ((distinct_nodup b).1 hb)
  refine ⟨b', h1, ?_⟩
  have := Classical.typeDecidableEq (MapKey × Value)
  have hsup := subset_of_nodup b' b hn' h2 (by omega)
  exact (List.perm_ext_iff_of_nodup hn' hn).2 (fun p => ⟨fun h => h2 h, fun h => hsup h⟩)

theorem beq_scalarLen {v w : Value} (h : v.beq w = true) (k : Kind) : scalarLen k v = scalarLen k w := by
  cases v <;> cases w <;> simp only [Value.beq, beq_iff_eq] at h <;>
    first | (subst h; rfl) | (cases h; done) | (cases k <;> rfl)

theorem beq_packedLen {v w : Value} (h : v.beq w = true) (k : Kind) : packedLen k v = packedLen k w := by
  cases v <;> cases w <;> simp only [Value.beq, beq_iff_eq] at h <;>
    first | (subst h; rfl) | (cases h; done) | (cases k <;> rfl)

theorem beqVals_packedLen : ∀ {a b : List Value}, beqVals a b = true → ∀ k, packedLenAll k a = packedLenAll k b
  | [], [], _, _ => rfl
  | v :: r, w :: s, h, k => by
    simp only [beqVals, Bool.and_eq_true] at h
    simp only [packedLenAll, beq_packedLen h.1, beqVals_packedLen h.2]
  | [], _ :: _, h, _ => by simp only [beqVals] at h; cases h
  | _ :: _, [], h, _ => by simp only [beqVals] at h; cases h

mutual
/-- Equal values are written with the same number of bytes. -/
theorem beq_len {S : Schema} : (v w : Value) → v.keyed = true → w.keyed = true → v.beq w = true → ∀ f,
    lenVal S f v = lenVal S f w
  | .msg d fs, w, hv, hw, h, f => by
    have hu := @beq_unless _ _ hv hw h S f
    cases w with
    | msg e gs =>
      simp only [Value.beq, Value.keyed, Bool.and_eq_true, beq_iff_eq] at h hv hw
      obtain ⟨rfl, h⟩ := h
      simp only [lenVal, hu, beqSlots_len fs gs hv hw h]
    | _ => simp only [Value.beq] at h; cases h
  | .list vs, w, hv, hw, h, f => by
    have hu := @beq_unless _ _ hv hw h S f
    cases w with
    | list ws =>
      simp only [Value.beq, Value.keyed] at h hv hw
      simp only [lenVal, hu, beqVals_len vs ws hv hw h, lenPackedList, beqVals_packedLen h]
    | _ => simp only [Value.beq] at h; cases h
  | .map kvs, w, hv, hw, h, f => by
    have hu := @beq_unless _ _ hv hw h S f
    cases w with
    | map kws =>
      simp only [Value.beq, Value.keyed, Bool.and_eq_true, beq_iff_eq] at h hv hw
      obtain ⟨kxs, h1, h2⟩ := beqMap_align hv.1 hw.1 hw.2 h.1 h.2
      simp only [lenVal, hu, ← lenMap_perm h2, beqMap_len kvs kxs hv.2 h1]
    | _ => simp only [Value.beq] at h; cases h
  | .bool x, w, hv, hw, h, f => by
    have hu := @beq_unless _ _ hv hw h S f
    have hs := beq_scalarLen h
    cases w <;> first | (simp only [Value.beq] at h; cases h; done) | simp only [lenVal, hu, hs]
  | .i32 x, w, hv, hw, h, f => by
    have hu := @beq_unless _ _ hv hw h S f
    have hs := beq_scalarLen h
    cases w <;> first | (simp only [Value.beq] at h; cases h; done) | simp only [lenVal, hu, hs]
  | .i64 x, w, hv, hw, h, f => by
    have hu := @beq_unless _ _ hv hw h S f
    have hs := beq_scalarLen h
    cases w <;> first | (simp only [Value.beq] at h; cases h; done) | simp only [lenVal, hu, hs]
  | .u32 x, w, hv, hw, h, f => by
    have hu := @beq_unless _ _ hv hw h S f
    have hs := beq_scalarLen h
    cases w <;> first | (simp only [Value.beq] at h; cases h; done) | simp only [lenVal, hu, hs]
  | .u64 x, w, hv, hw, h, f => by
    have hu := @beq_unless _ _ hv hw h S f
    have hs := beq_scalarLen h
    cases w <;> first | (simp only [Value.beq] at h; cases h; done) | simp only [lenVal, hu, hs]
  | .f32 x, w, hv, hw, h, f => by
    have hu := @beq_unless _ _ hv hw h S f
    have hs := beq_scalarLen h
    cases w <;> first | (simp only [Value.beq] at h; cases h; done) | simp only [lenVal, hu, hs]
  | .f64 x, w, hv, hw, h, f => by
    have hu := @beq_unless _ _ hv hw h S f
    have hs := beq_scalarLen h
    cases w <;> first | (simp only [Value.beq] at h; cases h; done) | simp only [lenVal, hu, hs]
  | .str x, w, hv, hw, h, f => by
    have hu := @beq_unless _ _ hv hw h S f
    have hs := beq_scalarLen h
    cases w <;> first | (simp only [Value.beq] at h; cases h; done) | simp only [lenVal, hu, hs]
  | .bytes x, w, hv, hw, h, f => by
    have hu := @beq_unless _ _ hv hw h S f
    have hs := beq_scalarLen h
    cases w <;> first | (simp only [Value.beq] at h; cases h; done) | simp only [lenVal, hu, hs]
  | .enum x, w, hv, hw, h, f => by
    have hu := @beq_unless _ _ hv hw h S f
    have hs := beq_scalarLen h
    cases w <;> first | (simp only [Value.beq] at h; cases h; done) | simp only [lenVal, hu, hs]
theorem beqVals_len {S : Schema} : (a b : List Value) → keyedVals a = true → keyedVals b = true →
    beqVals a b = true → ∀ f, lenVals S f a = lenVals S f b
  | [], b, _, _, h, f => by
    cases b with
    | nil => rfl
    | cons => simp only [beqVals] at h; cases h
  | v :: r, b, ha, hb, h, f => by
    cases b with
    | nil => simp only [beqVals] at h; cases h
    | cons w s =>
      simp only [beqVals, keyedVals, Bool.and_eq_true] at h ha hb
      simp only [lenVals, beq_len v w ha.1 hb.1 h.1, beqVals_len r s ha.2 hb.2 h.2]
theorem beqMap_len {S : Schema} : (a b : List (MapKey × Value)) → keyedMap a = true → EqMap a b → ∀ n kd vd,
    lenMapEntries S n kd vd a = lenMapEntries S n kd vd b
  | [], _, _, .nil, _, _, _ => rfl
  | (k, v) :: r, _, ha, .cons h hw t, _, _, _ => by
    simp only [keyedMap, Bool.and_eq_true] at ha
    simp only [lenMapEntries, beq_len v _ ha.1 hw h, beqMap_len r _ ha.2 t]
theorem beqSlots_len {S : Schema} : (a b : List (Nat × Slot)) → keyedSlots a = true → keyedSlots b = true →
    beqSlots a b = true → ∀ d, lenSlots S d a = lenSlots S d b
  | [], b, _, _, h, d => by
    cases b with
    | nil => rfl
    | cons => simp only [beqSlots] at h; cases h
  | (n, .taken) :: r, b, ha, hb, h, d => by
    match b, hb, h with
    | (m, .taken) :: s, hb, h =>
      simp only [beqSlots, keyedSlots, Bool.and_eq_true, beq_iff_eq] at h ha hb
      simp only [lenSlots, beqSlots_len r s ha hb h.2]
    | [], _, h | (_, .val _) :: _, _, h | (_, .unknown _) :: _, _, h => simp only [beqSlots] at h; cases h
  | (n, .unknown u) :: r, b, ha, hb, h, d => by
    match b, hb, h with
    | (m, .unknown w) :: s, hb, h =>
      simp only [beqSlots, keyedSlots, Bool.and_eq_true, beq_iff_eq, USet.beq_iff] at h ha hb
      obtain ⟨⟨rfl, rfl⟩, h⟩ := h
      simp only [lenSlots, beqSlots_len r s ha hb h]
    | [], _, h | (_, .val _) :: _, _, h | (_, .taken) :: _, _, h => simp only [beqSlots] at h; cases h
  | (n, .val v) :: r, b, ha, hb, h, d => by
    match b, hb, h with
    | (m, .val w) :: s, hb, h =>
      simp only [beqSlots, keyedSlots, Bool.and_eq_true, beq_iff_eq] at h ha hb
      obtain ⟨⟨rfl, h1⟩, h⟩ := h
      simp only [lenSlots, beq_ifPresent ha.1 hb.1 h1, beq_len v w ha.1 hb.1 h1, beqSlots_len r s ha.2 hb.2 h]
    | [], _, h | (_, .unknown _) :: _, _, h | (_, .taken) :: _, _, h => simp only [beqSlots] at h; cases h
end

/-! ### What is read back -/

/-- What the decoder makes of a map value. -/
def canonEntry (S : Schema) (vd : FieldDesc) (v : Value) : Value :=
  if hasVal S vd v = some true then canonVal S vd v
  else match fieldDefault S vd with
    | some w => w
    | none => v

theorem canonMap_entry {S : Schema} {vd : FieldDesc} : ∀ kvs : List (MapKey × Value),
    canonMap S vd kvs = kvs.map (fun p => (p.1, canonEntry S vd p.2))
  | [] => by simp only [canonMap, List.map_nil]
  | (k, v) :: r => by
    simp only [canonMap, List.map_cons, canonMap_entry r, canonEntry]
    cases fieldDefault S vd <;> rfl

theorem get?_map {g : Value → Value} (k : MapKey) : ∀ a : List (MapKey × Value),
    KMap.get? (a.map (fun p => (p.1, g p.2))) k = (KMap.get? a k).map g
  | [] => rfl
  | (j, v) :: r => by
    simp only [List.map_cons, KMap.get?, get?_map k r]
    split <;> rfl

/-- A default that some value equals is equal to itself. -/
theorem default_self {S : Schema} (hS : S.wf = true) {vd : FieldDesc} (hw : FieldWf S vd) {v x : Value}
    (hv : v.keyed = true) (hx : fieldDefault S vd = some x) (h : v.beq x = true) : x.beq x = true := by
  obtain ⟨x', hx', hc⟩ := fieldDefault_conf hS hw
  rw [hx] at hx'; cases hx'
  have hk := keyed_conf _ _ hc
  exact beq_trans x v x (beq_symm v x hv hk h) h

mutual
/-- Equal values are equal after being written and read. -/
theorem beq_canon {S : Schema} (hS : S.wf = true) : (v w : Value) → v.keyed = true → w.keyed = true →
    v.beq w = true → ∀ f, (canonVal S f v).beq (canonVal S f w) = true
  | .msg d fs, w, hv, hw, h, f => by
    cases w with
    | msg e gs =>
      simp only [Value.beq, Value.keyed, Bool.and_eq_true, beq_iff_eq] at h hv hw
      obtain ⟨rfl, h⟩ := h
      simp only [canonVal, Value.beq, beq_self_eq_true, Bool.true_and]
      exact beqSlots_canon hS fs gs hv hw h d
    | _ => simp only [Value.beq] at h; cases h
  | .list vs, w, hv, hw, h, f => by
    cases w with
    | list ws =>
      simp only [Value.beq, Value.keyed] at h hv hw
      simp only [canonVal, Value.beq]
      exact beqVals_canon hS vs ws hv hw h f.elem
    | _ => simp only [Value.beq] at h; cases h
  | .map kvs, w, hv, hw, h, f => by
    have h0 := h
    cases w with
    | map kws =>
      simp only [Value.beq, Value.keyed, Bool.and_eq_true, beq_iff_eq] at h hv hw
      simp only [canonVal]
      split
      · split
        · rename_i hkv
          simp only [Value.beq, Bool.and_eq_true, beq_iff_eq, canonMap_entry, List.length_map]
          refine ⟨h.1, beqMap_iff.2 (fun p hp => ?_)⟩
          obtain ⟨q, hq, rfl⟩ := List.mem_map.1 hp
          obtain ⟨w, hw', he⟩ := beqMap_iff.1 h.2 q hq
          refine ⟨_, by rw [get?_map, hw']; rfl, ?_⟩
          exact beqMap_canon hS kvs hv.2 _ (wf_mapKV hS hkv) q hq w (keyed_mem hw.2 _ (mem_of_get? hw')) he
        · exact h0
      · exact h0
    | _ => simp only [Value.beq] at h; cases h
  | .bool _, w, _, _, h, _ => by
    cases w <;> first | (simp only [Value.beq] at h; cases h; done) | (simp only [canonVal]; exact h)
  | .i32 _, w, _, _, h, _ => by
    cases w <;> first | (simp only [Value.beq] at h; cases h; done) | (simp only [canonVal]; exact h)
  | .i64 _, w, _, _, h, _ => by
    cases w <;> first | (simp only [Value.beq] at h; cases h; done) | (simp only [canonVal]; exact h)
  | .u32 _, w, _, _, h, _ => by
    cases w <;> first | (simp only [Value.beq] at h; cases h; done) | (simp only [canonVal]; exact h)
  | .u64 _, w, _, _, h, _ => by
    cases w <;> first | (simp only [Value.beq] at h; cases h; done) | (simp only [canonVal]; exact h)
  | .f32 _, w, _, _, h, _ => by
    cases w <;> first | (simp only [Value.beq] at h; cases h; done) | (simp only [canonVal]; exact h)
  | .f64 _, w, _, _, h, _ => by
    cases w <;> first | (simp only [Value.beq] at h; cases h; done) | (simp only [canonVal]; exact h)
  | .str _, w, _, _, h, _ => by
    cases w <;> first | (simp only [Value.beq] at h; cases h; done) | (simp only [canonVal]; exact h)
  | .bytes _, w, _, _, h, _ => by
    cases w <;> first | (simp only [Value.beq] at h; cases h; done) | (simp only [canonVal]; exact h)
  | .enum _, w, _, _, h, _ => by
    cases w <;> first | (simp only [Value.beq] at h; cases h; done) | (simp only [canonVal]; exact h)
theorem beqVals_canon {S : Schema} (hS : S.wf = true) : (a b : List Value) → keyedVals a = true →
    keyedVals b = true → beqVals a b = true → ∀ f, beqVals (canonVals S f a) (canonVals S f b) = true
  | [], b, _, _, h, f => by
    cases b with
    | nil => simp only [canonVals, beqVals]
    | cons => simp only [beqVals] at h; cases h
  | v :: r, b, ha, hb, h, f => by
    cases b with
    | nil => simp only [beqVals] at h; cases h
    | cons w s =>
      simp only [beqVals, keyedVals, Bool.and_eq_true] at h ha hb
      simp only [canonVals, beqVals, Bool.and_eq_true]
      exact ⟨beq_canon hS v w ha.1 hb.1 h.1 f, beqVals_canon hS r s ha.2 hb.2 h.2 f⟩
theorem beqMap_canon {S : Schema} (hS : S.wf = true) : (a : List (MapKey × Value)) → keyedMap a = true →
    ∀ vd, FieldWf S vd → ∀ p ∈ a, ∀ w : Value, w.keyed = true → p.2.beq w = true →
    (canonEntry S vd p.2).beq (canonEntry S vd w) = true
  | [], _, _, _, p, hp => absurd hp List.not_mem_nil
  | (k, v) :: r, ha, vd, hwf, p, hp => by
    simp only [keyedMap, Bool.and_eq_true] at ha
    intro w hw h
    rcases List.mem_cons.1 hp with e | hp
    · subst e
      simp only at h ⊢
      unfold canonEntry
      rw [← beq_hasVal ha.1 hw h S vd]
      split
      · exact beq_canon hS v w ha.1 hw h vd
      · rename_i hh
        split
        · rename_i x hx
          exact default_self hS hwf ha.1 hx (beq_default hh hx)
        · exact h
    · exact beqMap_canon hS r ha.2 vd hwf p hp w hw h
theorem beqSlots_canon {S : Schema} (hS : S.wf = true) : (a b : List (Nat × Slot)) → keyedSlots a = true →
    keyedSlots b = true → beqSlots a b = true → ∀ d, beqSlots (canonSlots S d a) (canonSlots S d b) = true
  | [], b, _, _, h, d => by
    cases b with
    | nil => simp only [canonSlots, beqSlots]
    | cons => simp only [beqSlots] at h; cases h
  | (n, .taken) :: r, b, ha, hb, h, d => by
    match b, hb, h with
    | (m, .taken) :: s, hb, h =>
      simp only [beqSlots, keyedSlots, Bool.and_eq_true, beq_iff_eq] at h ha hb
      simp only [canonSlots]
      exact beqSlots_canon hS r s ha hb h.2 d
    | [], _, h | (_, .val _) :: _, _, h | (_, .unknown _) :: _, _, h => simp only [beqSlots] at h; cases h
  | (n, .unknown u) :: r, b, ha, hb, h, d => by
    match b, hb, h with
    | (m, .unknown w) :: s, hb, h =>
      simp only [beqSlots, keyedSlots, Bool.and_eq_true] at h ha hb
      simp only [canonSlots, beqSlots, Bool.and_eq_true]
      exact ⟨h.1, beqSlots_canon hS r s ha hb h.2 d⟩
    | [], _, h | (_, .val _) :: _, _, h | (_, .taken) :: _, _, h => simp only [beqSlots] at h; cases h
  | (n, .val v) :: r, b, ha, hb, h, d => by
    match b, hb, h with
    | (m, .val w) :: s, hb, h =>
      simp only [beqSlots, keyedSlots, Bool.and_eq_true, beq_iff_eq] at h ha hb
      obtain ⟨⟨rfl, h1⟩, h⟩ := h
      have ih := beqSlots_canon hS r s ha.2 hb.2 h d
      simp only [canonSlots]
      cases S.field? d n with
      | some f =>
        simp only [← beq_hasVal ha.1 hb.1 h1 S f]
        split
        · simp only [beqSlots, beq_self_eq_true, Bool.true_and, Bool.and_eq_true]
          exact ⟨beq_canon hS v w ha.1 hb.1 h1 f, ih⟩
        · exact ih
      | none =>
        cases S.ext? d n with
        | some f =>
          simp only [← beq_hasVal ha.1 hb.1 h1 S f]
          split
          · simp only [beqSlots, beq_self_eq_true, Bool.true_and, Bool.and_eq_true]
            exact ⟨beq_canon hS v w ha.1 hb.1 h1 f, ih⟩
          · exact ih
        | none => exact ih
    | [], _, h | (_, .unknown _) :: _, _, h | (_, .taken) :: _, _, h => simp only [beqSlots] at h; cases h
end

mutual
/-- At every level, every stored value counts as present and nothing was taken out. -/
def tidyVal (S : Schema) (f : FieldDesc) : Value → Bool
  | .msg d fs => tidySlots S d fs
  | .list vs => tidyVals S f.elem vs
  | .map kvs =>
    match f.kind with
    | .message i =>
      match S.mapKV i with
      | some (_, vd) => tidyMap S vd kvs
      | none => true
    | _ => true
  | _ => true
def tidyVals (S : Schema) (f : FieldDesc) : List Value → Bool
  | [] => true
  | v :: r => tidyVal S f v && tidyVals S f r
def tidyMap (S : Schema) (vd : FieldDesc) : List (MapKey × Value) → Bool
  | [] => true
  | (_, v) :: r => tidyVal S vd v && tidyMap S vd r
def tidySlots (S : Schema) (d : Nat) : List (Nat × Slot) → Bool
  | [] => true
  | (_, .taken) :: _ => false
  | (_, .unknown _) :: r => tidySlots S d r
  | (n, .val v) :: r =>
    (match S.field? d n with
      | some f => hasVal S f v == some true && tidyVal S f v
      | none =>
        match S.ext? d n with
        | some f => hasVal S f v == some true && tidyVal S f v
        | none => false) && tidySlots S d r
end

mutual
/-- Such a value is equal to what is read back, unless there is a NaN. -/
theorem canon_beq {S : Schema} (hS : S.wf = true) : (v : Value) → v.keyed = true → v.nanFree = true →
    ∀ f, tidyVal S f v = true → (canonVal S f v).beq v = true
  | .msg d fs, hk, hn, f, ht => by
    simp only [Value.keyed, Value.nanFree, tidyVal] at hk hn ht
    simp only [canonVal, Value.beq, beq_self_eq_true, Bool.true_and]
    exact canonSlots_beq hS fs hk hn d ht
  | .list vs, hk, hn, f, ht => by
    simp only [Value.keyed, Value.nanFree, tidyVal] at hk hn ht
    simp only [canonVal, Value.beq]
    exact canonVals_beq hS vs hk hn f.elem ht
  | .map kvs, hk, hn, f, ht => by
    have hs : (Value.map kvs).beq (.map kvs) = true := by rw [beq_self _ hk]; exact hn
    simp only [Value.keyed, Value.nanFree, tidyVal, Bool.and_eq_true] at hk hn ht
    simp only [canonVal]
    cases hm : f.kind with
    | message i =>
      simp only [hm] at ht ⊢
      cases hkv : S.mapKV i with
      | none => exact hs
      | some q =>
        obtain ⟨kd, vd⟩ := q
        simp only [hkv] at ht
        simp only [Value.beq, Bool.and_eq_true, beq_iff_eq, canonMap_entry, List.length_map, true_and]
        refine beqMap_iff.2 (fun p hp => ?_)
        obtain ⟨q, hq, rfl⟩ := List.mem_map.1 hp
        exact ⟨q.2, (get?_mem hk.1 _ _).2 hq, canonMap_beq hS kvs hk.2 hn _ (wf_mapKV hS hkv) ht q hq⟩
    | _ => exact hs
  | .f32 x, hk, hn, f, _ => by simp only [canonVal]; rw [beq_self _ hk]; exact hn
  | .f64 x, hk, hn, f, _ => by simp only [canonVal]; rw [beq_self _ hk]; exact hn
  | .bool _, hk, hn, f, _ | .i32 _, hk, hn, f, _ | .i64 _, hk, hn, f, _ | .u32 _, hk, hn, f, _ | .u64 _, hk, hn, f, _
  | .str _, hk, hn, f, _ | .bytes _, hk, hn, f, _ | .enum _, hk, hn, f, _ => by
    simp only [canonVal]; rw [beq_self _ hk]; exact hn
theorem canonVals_beq {S : Schema} (hS : S.wf = true) : (a : List Value) → keyedVals a = true →
    nanFreeVals a = true → ∀ f, tidyVals S f a = true → beqVals (canonVals S f a) a = true
  | [], _, _, _, _ => by simp only [canonVals, beqVals]
  | v :: r, hk, hn, f, ht => by
    simp only [keyedVals, nanFreeVals, tidyVals, Bool.and_eq_true] at hk hn ht
    simp only [canonVals, beqVals, Bool.and_eq_true]
    exact ⟨canon_beq hS v hk.1 hn.1 f ht.1, canonVals_beq hS r hk.2 hn.2 f ht.2⟩
theorem canonMap_beq {S : Schema} (hS : S.wf = true) : (a : List (MapKey × Value)) → keyedMap a = true →
    nanFreeMap a = true → ∀ vd, FieldWf S vd → tidyMap S vd a = true → ∀ p ∈ a, (canonEntry S vd p.2).beq p.2 = true
  | [], _, _, _, _, _, p, hp => absurd hp List.not_mem_nil
  | (k, v) :: r, hk, hn, vd, hwf, ht, p, hp => by
    simp only [keyedMap, nanFreeMap, tidyMap, Bool.and_eq_true] at hk hn ht
    rcases List.mem_cons.1 hp with e | hp
    · subst e
      simp only
      unfold canonEntry
      split
      · exact canon_beq hS v hk.1 hn.1 vd ht.1
      · rename_i hh
        split
        · rename_i x hx
          obtain ⟨x', hx', hc⟩ := fieldDefault_conf hS hwf
          rw [hx] at hx'; cases hx'
          exact beq_symm v x hk.1 (keyed_conf _ _ hc) (beq_default hh hx)
        · rw [beq_self _ hk.1]; exact hn.1
    · exact canonMap_beq hS r hk.2 hn.2 vd hwf ht.2 p hp
theorem canonSlots_beq {S : Schema} (hS : S.wf = true) : (a : List (Nat × Slot)) → keyedSlots a = true →
    nanFreeSlots a = true → ∀ d, tidySlots S d a = true → beqSlots (canonSlots S d a) a = true
  | [], _, _, _, _ => by simp only [canonSlots, beqSlots]
  | (n, .taken) :: r, hk, hn, d, ht => by simp only [tidySlots] at ht; cases ht
  | (n, .unknown u) :: r, hk, hn, d, ht => by
    simp only [keyedSlots, nanFreeSlots, tidySlots] at hk hn ht
    simp only [canonSlots, beqSlots, beq_self_eq_true, Bool.true_and, (USet.beq_iff u u).2]
    exact canonSlots_beq hS r hk hn d ht
  | (n, .val v) :: r, hk, hn, d, ht => by
    simp only [keyedSlots, nanFreeSlots, tidySlots, Bool.and_eq_true] at hk hn ht
    have ih := canonSlots_beq hS r hk.2 hn.2 d ht.2
    have ht1 := ht.1
    simp only [canonSlots]
    cases hf : S.field? d n with
    | some f =>
      rw [hf] at ht1
      simp only [Bool.and_eq_true, beq_iff_eq] at ht1
      simp only [ht1.1, if_true, beqSlots, beq_self_eq_true, Bool.true_and, Bool.and_eq_true]
      exact ⟨canon_beq hS v hk.1 hn.1 f ht1.2, ih⟩
    | none =>
      rw [hf] at ht1
      cases hx : S.ext? d n with
      | some f =>
        rw [hx] at ht1
        simp only [Bool.and_eq_true, beq_iff_eq] at ht1
        simp only [ht1.1, if_true, beqSlots, beq_self_eq_true, Bool.true_and, Bool.and_eq_true]
        exact ⟨canon_beq hS v hk.1 hn.1 f ht1.2, ih⟩
      | none => rw [hx] at ht1; cases ht1
end

end Verif.Dyn
