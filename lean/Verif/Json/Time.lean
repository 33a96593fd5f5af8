import Verif.Json.Tree
/-!
Timestamps and durations: validation and ranges.
-/
set_option autoImplicit false
namespace Verif.Json

/-- `pop_digit` (de/wkt.rs:395-397): the rest, if there is a digit. -/
def popDigit : List UInt8 → Option (List UInt8)
  | b :: r => if 48 ≤ b.toNat ∧ b.toNat ≤ 57 then some r else none
  | [] => none

/-- `pop_digits` (de/wkt.rs:399-401). -/
def popDigits : Nat → List UInt8 → Option (List UInt8)
  | 0, s => some s
  | n + 1, s => (popDigit s).bind (popDigits n)

/-- `pop_char` (de/wkt.rs:403-405). -/
def popChar (c : Char) : List UInt8 → Option (List UInt8)
  | b :: r => if b.toNat = c.toNat then some r else none
  | [] => none

/-- `while pop_digit(&mut v) {}` (de/wkt.rs:445). -/
def dropDigits : List UInt8 → List UInt8
  | b :: r => if 48 ≤ b.toNat ∧ b.toNat ≤ 57 then dropDigits r else b :: r
  | [] => []

/-- The fraction (de/wkt.rs:441-446). -/
def popFraction (s : List UInt8) : Option (List UInt8) :=
  match popChar '.' s with
  | some r => (popDigit r).map dropDigits
  | none => some s

/-- The offset (de/wkt.rs:448-457). -/
def popOffset (s : List UInt8) : Option (List UInt8) :=
  match (match popChar '+' s with
    | some r => some r
    | none => popChar '-' s) with
  | some r => ((popDigits 2 r).bind (popChar ':')).bind (popDigits 2)
  | none => popChar 'Z' s

/-- `validate_strict_rfc3339` (de/wkt.rs:392-467), on the bytes of the string; the messages are
left out. -/
def rfc3339 (s : List UInt8) : Bool :=
  match ((((popDigits 4 s).bind (popChar '-')).bind (popDigits 2)).bind (popChar '-')).bind (popDigits 2) with
  | none => false
  | some s => match popChar 'T' s with
    | none => false
    | some s =>
      match ((((popDigits 2 s).bind (popChar ':')).bind (popDigits 2)).bind (popChar ':')).bind (popDigits 2) with
      | none => false
      | some s => match (popFraction s).bind popOffset with
        | some [] => true
        | _ => false

/-- `i64::unsigned_abs`, `i32::unsigned_abs` -/
def unsignedAbs {w : Nat} (x : BitVec w) : Nat := x.toInt.natAbs

/-- `check_duration` (serde/mod.rs:288-296). -/
def checkDuration (seconds : BitVec 64) (nanos : BitVec 32) : Bool :=
  !(decide (315576000000 < unsignedAbs seconds) || decide (999999999 < unsignedAbs nanos))

/-- `check_timestamp` (serde/mod.rs:298-304).  The nanoseconds are not looked at. -/
def checkTimestamp (seconds : BitVec 64) (_nanos : BitVec 32) : Bool :=
  !(decide (seconds.toInt < -62135596800) || decide (253402300799 < seconds.toInt))

end Verif.Json
