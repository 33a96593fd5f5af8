import Verif.Json.Tree
import Verif.Dyn.DecEq
import Verif.Dyn.Fields
/-!
Equality of JSON values is decidable (used only to evaluate closed examples).
-/
set_option autoImplicit false
namespace Verif.Json
open Verif.Dyn

mutual
/-- Structural equality. -/
def eqbJson : Json → Json → Bool
  | .null, .null => true
  | .bool a, .bool b => a == b
  | .uint a, .uint b => a == b
  | .sint a, .sint b => a == b
  | .float a, .float b => a == b
  | .str a, .str b => a == b
  | .arr a, .arr b => eqbJsons a b
  | .obj a, .obj b => eqbObj a b
  | _, _ => false
/-- Structural equality. -/
def eqbJsons : List Json → List Json → Bool
  | [], [] => true
  | a :: r, b :: q => eqbJson a b && eqbJsons r q
  | _, _ => false
/-- Structural equality. -/
def eqbObj : List (List Char × Json) → List (List Char × Json) → Bool
  | [], [] => true
  | (n, a) :: r, (m, b) :: q => n == m && eqbJson a b && eqbObj r q
  | _, _ => false
end

mutual
theorem eqbJson_iff : ∀ (v w : Json), eqbJson v w = true ↔ v = w
  | .null, w => by cases w <;> simp [eqbJson]
  | .bool a, w => by cases w <;> simp [eqbJson]
  | .uint a, w => by cases w <;> simp [eqbJson]
  | .sint a, w => by cases w <;> simp [eqbJson]
  | .float a, w => by cases w <;> simp [eqbJson]
  | .str a, w => by cases w <;> simp [eqbJson]
  | .arr a, w => by cases w <;> simp [eqbJson, eqbJsons_iff a]
  | .obj a, w => by cases w <;> simp [eqbJson, eqbObj_iff a]
theorem eqbJsons_iff : ∀ (v w : List Json), eqbJsons v w = true ↔ v = w
  | [], w => by cases w <;> simp [eqbJsons]
  | a :: r, w => by
    cases w with
    | nil => simp [eqbJsons]
    | cons p q => simp [eqbJsons, eqbJson_iff a, eqbJsons_iff r]
theorem eqbObj_iff : ∀ (v w : List (List Char × Json)), eqbObj v w = true ↔ v = w
  | [], w => by cases w <;> simp [eqbObj]
  | (n, a) :: r, w => by
    cases w with
    | nil => simp [eqbObj]
    | cons p q =>
      obtain ⟨b, c⟩ := p
      simp [eqbObj, eqbJson_iff a, eqbObj_iff r]
end

instance : DecidableEq Json := fun a b => decidable_of_iff _ (eqbJson_iff a b)

instance : DecidableEq Wire.UVal := fun v w => decidable_of_iff _ (eqbUVal_iff v w)

deriving instance DecidableEq for Item

end Verif.Json
