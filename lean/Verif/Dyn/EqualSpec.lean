import Verif.Dyn.Equal
/-!
What `==` on messages compares, stated outright.
-/
set_option autoImplicit false
namespace Verif.Dyn
open Verif.Wire

/-! ### What `==` compares, stated outright -/

mutual
/-- Equal values: the same up to the order of map entries and the sign of zero; NaN equals nothing. -/
inductive EqVal : Value → Value → Prop where
  | bool (b : Bool) : EqVal (.bool b) (.bool b)
  | i32 (n : BitVec 32) : EqVal (.i32 n) (.i32 n)
  | i64 (n : BitVec 64) : EqVal (.i64 n) (.i64 n)
  | u32 (n : BitVec 32) : EqVal (.u32 n) (.u32 n)
  | u64 (n : BitVec 64) : EqVal (.u64 n) (.u64 n)
  | f32 {x : BitVec 32} (h : isNan32 x = false) : EqVal (.f32 x) (.f32 x)
  | f64 {x : BitVec 64} (h : isNan64 x = false) : EqVal (.f64 x) (.f64 x)
  | zero32 {x y : BitVec 32} (hx : x = 0 ∨ x = 0x80000000) (hy : y = 0 ∨ y = 0x80000000) : EqVal (.f32 x) (.f32 y)
  | zero64 {x y : BitVec 64} (hx : x = 0 ∨ x = 0x8000000000000000) (hy : y = 0 ∨ y = 0x8000000000000000) :
      EqVal (.f64 x) (.f64 y)
  | str (s : Bytes) : EqVal (.str s) (.str s)
  | bytes (s : Bytes) : EqVal (.bytes s) (.bytes s)
  | enum (n : BitVec 32) : EqVal (.enum n) (.enum n)
  | list {a b : List Value} (h : EqVals a b) : EqVal (.list a) (.list b)
  | map {a b : List (MapKey × Value)} (hk : ∀ k, (∃ v, (k, v) ∈ a) ↔ ∃ w, (k, w) ∈ b)
      (h : ∀ k v w, (k, v) ∈ a → (k, w) ∈ b → EqVal v w) : EqVal (.map a) (.map b)
  | msg (d : Nat) {a b : List (Nat × Slot)} (h : EqFields a b) : EqVal (.msg d a) (.msg d b)
/-- Equal lists: element by element. -/
inductive EqVals : List Value → List Value → Prop where
  | nil : EqVals [] []
  | cons {v w : Value} {a b : List Value} (h : EqVal v w) (hr : EqVals a b) : EqVals (v :: a) (w :: b)
/-- Equal messages: the same fields stored, with equal values, and the same unknown fields. -/
inductive EqFields : List (Nat × Slot) → List (Nat × Slot) → Prop where
  | nil : EqFields [] []
  | val (n : Nat) {v w : Value} {a b : List (Nat × Slot)} (h : EqVal v w) (hr : EqFields a b) :
      EqFields ((n, .val v) :: a) ((n, .val w) :: b)
  | taken (n : Nat) {a b : List (Nat × Slot)} (hr : EqFields a b) : EqFields ((n, .taken) :: a) ((n, .taken) :: b)
  | unknown (n : Nat) (u : List (Nat × UVal)) {a b : List (Nat × Slot)} (hr : EqFields a b) :
      EqFields ((n, .unknown u) :: a) ((n, .unknown u) :: b)
end

theorem zero32 (x : BitVec 32) : x.toNat % 0x80000000 = 0 ↔ x = 0 ∨ x = 0x80000000 := by
  have := x.isLt
  rw [← BitVec.toNat_inj, ← BitVec.toNat_inj (y := 0x80000000)]
  show _ ↔ x.toNat = 0 ∨ x.toNat = 0x80000000
  omega
theorem zero64 (x : BitVec 64) : x.toNat % 0x8000000000000000 = 0 ↔ x = 0 ∨ x = 0x8000000000000000 := by
  have := x.isLt
  rw [← BitVec.toNat_inj, ← BitVec.toNat_inj (y := 0x8000000000000000)]
  show _ ↔ x.toNat = 0 ∨ x.toNat = 0x8000000000000000
  omega

theorem f32Eq_iff (x y : BitVec 32) : f32Eq x y = true ↔ EqVal (.f32 x) (.f32 y) := by
  simp only [f32Eq, Bool.and_eq_true, Bool.not_eq_true', Bool.or_eq_true, beq_iff_eq, zero32]
  constructor
  · rintro ⟨⟨h, _⟩, rfl | ⟨hx, hy⟩⟩
    · exact .f32 h
    · exact .zero32 hx hy
  · intro h
    cases h with
    | f32 h => exact ⟨⟨h, h⟩, .inl rfl⟩
    | zero32 hx hy =>
      refine ⟨⟨?_, ?_⟩, .inr ⟨hx, hy⟩⟩
      · rcases hx with rfl | rfl <;> rfl
      · rcases hy with rfl | rfl <;> rfl
theorem f64Eq_iff (x y : BitVec 64) : f64Eq x y = true ↔ EqVal (.f64 x) (.f64 y) := by
  simp only [f64Eq, Bool.and_eq_true, Bool.not_eq_true', Bool.or_eq_true, beq_iff_eq, zero64]
  constructor
  · rintro ⟨⟨h, _⟩, rfl | ⟨hx, hy⟩⟩
    · exact .f64 h
    · exact .zero64 hx hy
  · intro h
    cases h with
    | f64 h => exact ⟨⟨h, h⟩, .inl rfl⟩
    | zero64 hx hy =>
      refine ⟨⟨?_, ?_⟩, .inr ⟨hx, hy⟩⟩
      · rcases hx with rfl | rfl <;> rfl
      · rcases hy with rfl | rfl <;> rfl

mutual
theorem beq_iff : (v w : Value) → v.keyed = true → w.keyed = true → (v.beq w = true ↔ EqVal v w)
  | .msg d fs, w, hv, hw => by
    cases w with
    | msg e gs =>
      simp only [Value.beq, Value.keyed, Bool.and_eq_true, beq_iff_eq] at hv hw ⊢
      rw [beqSlots_iff fs gs hv hw]
      exact ⟨fun ⟨h, h'⟩ => by subst h; exact .msg d h', fun h => by cases h with | msg _ h => exact ⟨rfl, h⟩⟩
    | _ => exact ⟨fun h => (by simp only [Value.beq] at h; cases h), fun h => (by cases h)⟩
  | .list vs, w, hv, hw => by
    cases w with
    | list ws =>
      simp only [Value.beq, Value.keyed] at hv hw ⊢
      rw [beqVals_iff vs ws hv hw]
      exact ⟨.list, fun h => by cases h with | list h => exact h⟩
    | _ => exact ⟨fun h => (by simp only [Value.beq] at h; cases h), fun h => (by cases h)⟩
  | .map a, w, hv, hw => by
    cases w with
    | map b =>
      simp only [Value.beq, Value.keyed, Bool.and_eq_true, beq_iff_eq] at hv hw ⊢
      constructor
      · rintro ⟨hl, h⟩
        refine .map (fun k => ⟨?_, ?_⟩) (fun k v w h1 h2 => ?_)
        · rintro ⟨v, hm⟩
          obtain ⟨w, hw, _⟩ := beqMap_iff.1 h _ hm
          exact ⟨w, mem_of_get? hw⟩
        · rintro ⟨w, hm⟩
          obtain ⟨v, h1, _⟩ := beqMap_back hv.1 hw.1 hl h hm
          exact ⟨v, h1⟩
        · obtain ⟨w', h3, h4⟩ := beqMap_iff.1 h _ h1
          rw [(get?_mem hw.1 k w).2 h2] at h3
          cases h3
          exact (beqMap_iffs a hv.2 _ h1 w (keyed_mem hw.2 _ h2)).1 h4
      · intro h
        cases h with
        | map hk h =>
          have hs : a.map (·.1) ⊆ b.map (·.1) := by
            intro k hm
            obtain ⟨⟨_, v⟩, h1, rfl⟩ := List.mem_map.1 hm
            obtain ⟨w, h2⟩ := (hk _).1 ⟨v, h1⟩
            exact List.mem_map.2 ⟨_, h2, rfl⟩
          have hs' : b.map (·.1) ⊆ a.map (·.1) := by
            intro k hm
            obtain ⟨⟨_, v⟩, h1, rfl⟩ := List.mem_map.1 hm
            obtain ⟨w, h2⟩ := (hk _).2 ⟨v, h1⟩
            exact List.mem_map.2 ⟨_, h2, rfl⟩
          have hp := (List.perm_ext_iff_of_nodup ((distinct_nodup a).1 hv.1) ((distinct_nodup b).1 hw.1)).2
            (fun k => ⟨fun h => hs h, fun h => hs' h⟩)
          refine ⟨by simpa using hp.length_eq, beqMap_iff.2 (fun p hp => ?_)⟩
          obtain ⟨w, h2⟩ := (hk p.1).1 ⟨p.2, hp⟩
          exact ⟨w, (get?_mem hw.1 _ _).2 h2, (beqMap_iffs a hv.2 _ hp w (keyed_mem hw.2 _ h2)).2 (h _ _ _ hp h2)⟩
    | _ => exact ⟨fun h => (by simp only [Value.beq] at h; cases h), fun h => (by cases h)⟩
  | .f32 x, w, _, _ => by
    cases w with
    | f32 y => simp only [Value.beq]; exact f32Eq_iff x y
    | _ => exact ⟨fun h => (by simp only [Value.beq] at h; cases h), fun h => (by cases h)⟩
  | .f64 x, w, _, _ => by
    cases w with
    | f64 y => simp only [Value.beq]; exact f64Eq_iff x y
    | _ => exact ⟨fun h => (by simp only [Value.beq] at h; cases h), fun h => (by cases h)⟩
  | .bool x, w, _, _ => by
    cases w with
    | bool y =>
      simp only [Value.beq, beq_iff_eq]
      exact ⟨fun h => by subst h; constructor, fun h => by cases h; rfl⟩
    | _ => exact ⟨fun h => (by simp only [Value.beq] at h; cases h), fun h => (by cases h)⟩
  | .i32 x, w, _, _ => by
    cases w with
    | i32 y =>
      simp only [Value.beq, beq_iff_eq]
      exact ⟨fun h => by subst h; constructor, fun h => by cases h; rfl⟩
    | _ => exact ⟨fun h => (by simp only [Value.beq] at h; cases h), fun h => (by cases h)⟩
  | .i64 x, w, _, _ => by
    cases w with
    | i64 y =>
      simp only [Value.beq, beq_iff_eq]
      exact ⟨fun h => by subst h; constructor, fun h => by cases h; rfl⟩
    | _ => exact ⟨fun h => (by simp only [Value.beq] at h; cases h), fun h => (by cases h)⟩
  | .u32 x, w, _, _ => by
    cases w with
    | u32 y =>
      simp only [Value.beq, beq_iff_eq]
      exact ⟨fun h => by subst h; constructor, fun h => by cases h; rfl⟩
    | _ => exact ⟨fun h => (by simp only [Value.beq] at h; cases h), fun h => (by cases h)⟩
  | .u64 x, w, _, _ => by
    cases w with
    | u64 y =>
      simp only [Value.beq, beq_iff_eq]
      exact ⟨fun h => by subst h; constructor, fun h => by cases h; rfl⟩
    | _ => exact ⟨fun h => (by simp only [Value.beq] at h; cases h), fun h => (by cases h)⟩
  | .str x, w, _, _ => by
    cases w with
    | str y =>
      simp only [Value.beq, beq_iff_eq]
      exact ⟨fun h => by subst h; constructor, fun h => by cases h; rfl⟩
    | _ => exact ⟨fun h => (by simp only [Value.beq] at h; cases h), fun h => (by cases h)⟩
  | .bytes x, w, _, _ => by
    cases w with
    | bytes y =>
      simp only [Value.beq, beq_iff_eq]
      exact ⟨fun h => by subst h; constructor, fun h => by cases h; rfl⟩
    | _ => exact ⟨fun h => (by simp only [Value.beq] at h; cases h), fun h => (by cases h)⟩
  | .enum x, w, _, _ => by
    cases w with
    | enum y =>
      simp only [Value.beq, beq_iff_eq]
      exact ⟨fun h => by subst h; constructor, fun h => by cases h; rfl⟩
    | _ => exact ⟨fun h => (by simp only [Value.beq] at h; cases h), fun h => (by cases h)⟩
theorem beqVals_iff : (a b : List Value) → keyedVals a = true → keyedVals b = true → (beqVals a b = true ↔ EqVals a b)
  | [], b, _, _ => by
    cases b with
    | nil => exact ⟨fun _ => .nil, fun _ => by simp only [beqVals]⟩
    | cons => exact ⟨fun h => (by simp only [beqVals] at h; cases h), fun h => (by cases h)⟩
  | v :: r, b, ha, hb => by
    cases b with
    | nil => exact ⟨fun h => (by simp only [beqVals] at h; cases h), fun h => (by cases h)⟩
    | cons w s =>
      simp only [beqVals, keyedVals, Bool.and_eq_true] at ha hb ⊢
      rw [beq_iff v w ha.1 hb.1, beqVals_iff r s ha.2 hb.2]
      exact ⟨fun h => .cons h.1 h.2, fun h => by cases h with | cons h1 h2 => exact ⟨h1, h2⟩⟩
theorem beqMap_iffs : (a : List (MapKey × Value)) → keyedMap a = true → ∀ p ∈ a, ∀ w : Value, w.keyed = true →
    (p.2.beq w = true ↔ EqVal p.2 w)
  | [], _, p, hp => absurd hp List.not_mem_nil
  | (k, v) :: r, ha, p, hp => by
    simp only [keyedMap, Bool.and_eq_true] at ha
    intro w hw
    rcases List.mem_cons.1 hp with e | hp
    · subst e; exact beq_iff v w ha.1 hw
    · exact beqMap_iffs r ha.2 p hp w hw
theorem beqSlots_iff : (a b : List (Nat × Slot)) → keyedSlots a = true → keyedSlots b = true →
    (beqSlots a b = true ↔ EqFields a b)
  | [], b, _, _ => by
    cases b with
    | nil => exact ⟨fun _ => .nil, fun _ => by simp only [beqSlots]⟩
    | cons => exact ⟨fun h => (by simp only [beqSlots] at h; cases h), fun h => (by cases h)⟩
  | (n, .taken) :: r, b, ha, hb => by
    match b, hb with
    | (m, .taken) :: s, hb =>
      simp only [beqSlots, keyedSlots, Bool.and_eq_true, beq_iff_eq] at ha hb ⊢
      rw [beqSlots_iff r s ha hb]
      exact ⟨fun ⟨h, h'⟩ => by subst h; exact .taken _ h', fun h => by cases h with | taken _ h => exact ⟨rfl, h⟩⟩
    | [], _ | (_, .val _) :: _, _ | (_, .unknown _) :: _, _ =>
      exact ⟨fun h => (by simp only [beqSlots] at h; cases h), fun h => (by cases h)⟩
  | (n, .unknown u) :: r, b, ha, hb => by
    match b, hb with
    | (m, .unknown w) :: s, hb =>
      simp only [beqSlots, keyedSlots, Bool.and_eq_true, beq_iff_eq, USet.beq_iff] at ha hb ⊢
      rw [beqSlots_iff r s ha hb]
      exact ⟨fun ⟨⟨h, h1⟩, h'⟩ => by subst h h1; exact .unknown _ _ h',
        fun h => by cases h with | unknown _ _ h => exact ⟨⟨rfl, rfl⟩, h⟩⟩
    | [], _ | (_, .val _) :: _, _ | (_, .taken) :: _, _ =>
      exact ⟨fun h => (by simp only [beqSlots] at h; cases h), fun h => (by cases h)⟩
  | (n, .val v) :: r, b, ha, hb => by
    match b, hb with
    | (m, .val w) :: s, hb =>
      simp only [beqSlots, keyedSlots, Bool.and_eq_true, beq_iff_eq] at ha hb ⊢
      rw [beqSlots_iff r s ha.2 hb.2, beq_iff v w ha.1 hb.1]
      exact ⟨fun ⟨⟨h, h1⟩, h'⟩ => by subst h; exact .val _ h1 h',
        fun h => by cases h with | val _ h1 h => exact ⟨⟨rfl, h1⟩, h⟩⟩
    | [], _ | (_, .unknown _) :: _, _ | (_, .taken) :: _, _ =>
      exact ⟨fun h => (by simp only [beqSlots] at h; cases h), fun h => (by cases h)⟩
end

end Verif.Dyn
