import Verif.Json.Tree
/-!
Integers from JSON: the visitors of `de/kind.rs` for integer kinds, and the doubles they
are given.
-/
set_option autoImplicit false
namespace Verif.Json
open Verif.Pool

/-! ### Doubles -/

/-- The biased exponent of a double. -/
def expBits (x : BitVec 64) : Nat := x.toNat / 2 ^ 52 % 2 ^ 11
/-- The fraction bits of a double. -/
def manBits (x : BitVec 64) : Nat := x.toNat % 2 ^ 52
/-- The sign bit of a double. -/
def signBit (x : BitVec 64) : Bool := decide (2 ^ 63 ≤ x.toNat)

/-- `is_finite` -/
def finite64 (x : BitVec 64) : Bool := expBits x != 2047

/-- The magnitude of a finite double in units of `2^-1074`, the smallest positive double:
`fraction` for subnormal numbers, `(2^52 + fraction) * 2^(exponent - 1)` for the others. -/
def units (x : BitVec 64) : Nat :=
  if expBits x = 0 then manBits x else (2 ^ 52 + manBits x) * 2 ^ (expBits x - 1)

/-- The value of a finite double in units of `2^-1074`. -/
def scaled (x : BitVec 64) : Int := if signBit x then -(units x : Int) else units x

/-- How many units make one. -/
def one : Nat := 2 ^ 1074

/-- `v.fract() != 0.0` is false: a finite number without fractional part (the fractional
part of an infinity or a NaN is NaN). -/
def isInteger (x : BitVec 64) : Bool := finite64 x && units x % one == 0

/-- `v as i…`/`v as u…` for a number without fractional part: the integer, clamped to the
type's range. -/
def clamp (lo hi v : Int) : Int := if v < lo then lo else if hi < v then hi else v

/-- `visit_f64` of the integer visitors (kind.rs:292-305, 347-360, 394-407, 441-454).  `lo` and
`hi` are the limits of the type, `hiF` the upper limit after the cast `MAX as f64`. -/
def visitF64 (lo hi hiF : Int) (x : BitVec 64) : Except JErr Int :=
  if !isInteger x then .error .err
  else if scaled x / one < lo ∨ hiF < scaled x / one then .error .err
  else .ok (clamp lo hi (scaled x / one))

/-! ### The visitors -/

/-- `Ok` of an optional value. -/
def orErr {α : Type} : Option α → Except JErr α
  | some a => .ok a
  | none => .error .err

/-- `v.try_into()` into a type with the given limits. -/
def tryInto (lo hi v : Int) : Except JErr Int := if lo ≤ v ∧ v ≤ hi then .ok v else .error .err

/-- An integer visitor: `parse` is `str::parse` of the type. -/
def visitInt (lo hi hiF : Int) (parse : List Char → Option Int) : Json → Except JErr Int
  | .uint v => tryInto lo hi v.toNat
  | .sint v => tryInto lo hi v.toInt
  | .float v => visitF64 lo hi hiF v
  | .str s => orErr (parse s)
  | _ => .error .err

/-- `Int32Visitor` (kind.rs:253-306). -/
def visitI32 (j : Json) : Except JErr (BitVec 32) :=
  (visitInt (-2 ^ 31) (2 ^ 31 - 1) (2 ^ 31 - 1) (fun s => (parseSigned 32 s).map (·.toInt)) j).map (BitVec.ofInt 32)

/-- `Uint32Visitor` (kind.rs:308-361). -/
def visitU32 (j : Json) : Except JErr (BitVec 32) :=
  (visitInt 0 (2 ^ 32 - 1) (2 ^ 32 - 1) (fun s => (parseUnsigned 32 s).map (fun v => (v.toNat : Int))) j).map
    (BitVec.ofInt 32)

/-- `Int64Visitor` (kind.rs:363-408).  The largest `i64` is not a double: `i64::MAX as f64` is
rounded up to `2^63`. -/
def visitI64 (j : Json) : Except JErr (BitVec 64) :=
  (visitInt (-2 ^ 63) (2 ^ 63 - 1) (2 ^ 63) (fun s => (parseSigned 64 s).map (·.toInt)) j).map (BitVec.ofInt 64)

/-- `Uint64Visitor` (kind.rs:410-455).  `u64::MAX as f64` is `2^64`. -/
def visitU64 (j : Json) : Except JErr (BitVec 64) :=
  (visitInt 0 (2 ^ 64 - 1) (2 ^ 64) (fun s => (parseUnsigned 64 s).map (fun v => (v.toNat : Int))) j).map
    (BitVec.ofInt 64)

end Verif.Json
