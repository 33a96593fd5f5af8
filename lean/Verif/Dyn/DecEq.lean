import Verif.Dyn.Value
/-!
Equality of model values is decidable (used only to evaluate closed examples).
-/
set_option autoImplicit false
namespace Verif.Dyn
open Verif.Wire

mutual
/-- Structural equality. -/
def eqbUVal : UVal → UVal → Bool
  | .varint a, .varint b => a == b
  | .sixtyFour a, .sixtyFour b => a == b
  | .len a, .len b => a == b
  | .group u, .group w => eqbUVals u w
  | .thirtyTwo a, .thirtyTwo b => a == b
  | _, _ => false
/-- Structural equality. -/
def eqbUVals : List (Nat × UVal) → List (Nat × UVal) → Bool
  | [], [] => true
  | (n, s) :: r, (m, t) :: q => n == m && eqbUVal s t && eqbUVals r q
  | _, _ => false
end

mutual
theorem eqbUVal_iff : ∀ (v w : UVal), eqbUVal v w = true ↔ v = w
  | .varint a, w => by cases w <;> simp [eqbUVal]
  | .sixtyFour a, w => by cases w <;> simp [eqbUVal]
  | .len a, w => by cases w <;> simp [eqbUVal]
  | .group u, w => by cases w <;> simp [eqbUVal, eqbUVals_iff u]
  | .thirtyTwo a, w => by cases w <;> simp [eqbUVal]
theorem eqbUVals_iff : ∀ (v w : List (Nat × UVal)), eqbUVals v w = true ↔ v = w
  | [], w => by cases w <;> simp [eqbUVals]
  | (n, s) :: r, w => by
    cases w with
    | nil => simp [eqbUVals]
    | cons p q =>
      obtain ⟨a, b⟩ := p
      simp [eqbUVals, eqbUVal_iff s, eqbUVals_iff r]
end

mutual
/-- Structural equality. -/
def Value.beqV : Value → Value → Bool
  | .bool a, .bool b => a == b
  | .i32 a, .i32 b => a == b
  | .i64 a, .i64 b => a == b
  | .u32 a, .u32 b => a == b
  | .u64 a, .u64 b => a == b
  | .f32 a, .f32 b => a == b
  | .f64 a, .f64 b => a == b
  | .str a, .str b => a == b
  | .bytes a, .bytes b => a == b
  | .enum a, .enum b => a == b
  | .msg d fs, .msg e gs => d == e && eqbSlots fs gs
  | .list vs, .list ws => eqbVals vs ws
  | .map vs, .map ws => eqbMap vs ws
  | _, _ => false
/-- Structural equality. -/
def Slot.beqS : Slot → Slot → Bool
  | .taken, .taken => true
  | .val v, .val w => v.beqV w
  | .unknown u, .unknown w => eqbUVals u w
  | _, _ => false
/-- Structural equality. -/
def eqbSlots : List (Nat × Slot) → List (Nat × Slot) → Bool
  | [], [] => true
  | (n, s) :: r, (m, t) :: q => n == m && s.beqS t && eqbSlots r q
  | _, _ => false
/-- Structural equality. -/
def eqbVals : List Value → List Value → Bool
  | [], [] => true
  | v :: r, w :: q => v.beqV w && eqbVals r q
  | _, _ => false
/-- Structural equality. -/
def eqbMap : List (MapKey × Value) → List (MapKey × Value) → Bool
  | [], [] => true
  | (k, v) :: r, (l, w) :: q => decide (k = l) && v.beqV w && eqbMap r q
  | _, _ => false
end

mutual
theorem Value.beqV_iff : ∀ (v w : Value), v.beqV w = true ↔ v = w
  | .bool a, w => by cases w <;> simp [Value.beqV]
  | .i32 a, w => by cases w <;> simp [Value.beqV]
  | .i64 a, w => by cases w <;> simp [Value.beqV]
  | .u32 a, w => by cases w <;> simp [Value.beqV]
  | .u64 a, w => by cases w <;> simp [Value.beqV]
  | .f32 a, w => by cases w <;> simp [Value.beqV]
  | .f64 a, w => by cases w <;> simp [Value.beqV]
  | .str a, w => by cases w <;> simp [Value.beqV]
  | .bytes a, w => by cases w <;> simp [Value.beqV]
  | .enum a, w => by cases w <;> simp [Value.beqV]
  | .msg d fs, w => by cases w <;> simp [Value.beqV, eqbSlots_iff fs]
  | .list vs, w => by cases w <;> simp [Value.beqV, eqbVals_iff vs]
  | .map vs, w => by cases w <;> simp [Value.beqV, eqbMap_iff vs]
theorem Slot.beqS_iff : ∀ (v w : Slot), v.beqS w = true ↔ v = w
  | .taken, w => by cases w <;> simp [Slot.beqS]
  | .val v, w => by cases w <;> simp [Slot.beqS, Value.beqV_iff v]
  | .unknown u, w => by cases w <;> simp [Slot.beqS, eqbUVals_iff]
theorem eqbSlots_iff : ∀ (v w : List (Nat × Slot)), eqbSlots v w = true ↔ v = w
  | [], w => by cases w <;> simp [eqbSlots]
  | (n, s) :: r, w => by
    cases w with
    | nil => simp [eqbSlots]
    | cons p q =>
      obtain ⟨a, b⟩ := p
      simp [eqbSlots, Slot.beqS_iff s, eqbSlots_iff r]
theorem eqbVals_iff : ∀ (v w : List Value), eqbVals v w = true ↔ v = w
  | [], w => by cases w <;> simp [eqbVals]
  | v :: r, w => by
    cases w with
    | nil => simp [eqbVals]
    | cons p q => simp [eqbVals, Value.beqV_iff v, eqbVals_iff r]
theorem eqbMap_iff : ∀ (v w : List (MapKey × Value)), eqbMap v w = true ↔ v = w
  | [], w => by cases w <;> simp [eqbMap]
  | (n, s) :: r, w => by
    cases w with
    | nil => simp [eqbMap]
    | cons p q =>
      obtain ⟨a, b⟩ := p
      simp [eqbMap, Value.beqV_iff s, eqbMap_iff r]
end

instance : DecidableEq Value := fun v w => decidable_of_iff _ (Value.beqV_iff v w)
instance : DecidableEq Slot := fun v w => decidable_of_iff _ (Slot.beqS_iff v w)
deriving instance DecidableEq for DynMsg
deriving instance DecidableEq for FieldDesc

instance instDecEqExcept {ε α : Type} [DecidableEq ε] [DecidableEq α] : DecidableEq (Except ε α)
  | .ok a, .ok b => decidable_of_iff (a = b) (by simp)
  | .error a, .error b => decidable_of_iff (a = b) (by simp)
  | .ok _, .error _ => isFalse nofun
  | .error _, .ok _ => isFalse nofun

end Verif.Dyn
