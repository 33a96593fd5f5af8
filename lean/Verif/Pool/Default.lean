import Verif.Pool.Scope
/-!
Default values: model of `parse_simple_value` and `unescape_c_escape_string`
(`descriptor/build/resolve.rs:769-884`).

Trusted base: `str::parse::<f32/f64>` is a parameter; `str::parse` for integers and
`bool` and `u8::from_str_radix` follow the standard library's documentation.
-/
set_option autoImplicit false
namespace Verif.Pool
open Verif.Wire Verif.Dyn

/-- Value of one decimal digit. -/
def digitVal (c : Char) : Option Nat :=
  if '0' ≤ c ∧ c ≤ '9' then some (c.toNat - '0'.toNat) else none

/-- A run of decimal digits, most significant first, continuing from `acc`. -/
def digitsFrom : Nat → List Char → Option Nat
  | acc, [] => some acc
  | acc, c :: r =>
    match digitVal c with
    | some d => digitsFrom (acc * 10 + d) r
    | none => none

/-- A non-empty run of decimal digits. -/
def parseDigits : List Char → Option Nat
  | [] => none
  | c :: r => digitsFrom 0 (c :: r)

/-- Drop a leading `+`. -/
def stripPlus : List Char → List Char
  | '+' :: r => r
  | r => r

/-- `str::parse` for an unsigned integer type of `bits` bits: an optional `+`, digits,
in range. -/
def parseUnsigned (bits : Nat) (s : List Char) : Option (BitVec bits) :=
  match parseDigits (stripPlus s) with
  | some n => if n < 2 ^ bits then some (BitVec.ofNat bits n) else none
  | none => none

/-- `str::parse` for a signed integer type of `bits` bits: an optional sign, digits, in
range. -/
def parseSigned (bits : Nat) (s : List Char) : Option (BitVec bits) :=
  match s with
  | '-' :: r =>
    match parseDigits r with
    | some n => if n ≤ 2 ^ (bits - 1) then some (BitVec.ofInt bits (-(n : Int))) else none
    | none => none
  | s =>
    match parseDigits (stripPlus s) with
    | some n => if n < 2 ^ (bits - 1) then some (BitVec.ofNat bits n) else none
    | none => none

/-- `str::parse::<bool>`. -/
def parseBool (s : List Char) : Option Bool :=
  if s = "true".toList then some true
  else if s = "false".toList then some false
  else none

/-- Value of a hexadecimal digit (ASCII byte). -/
def hexVal (b : UInt8) : Option Nat :=
  let n := b.toNat
  if 48 ≤ n ∧ n ≤ 57 then some (n - 48)
  else if 97 ≤ n ∧ n ≤ 102 then some (n - 87)
  else if 65 ≤ n ∧ n ≤ 70 then some (n - 55)
  else none

/-- `u8::from_str_radix(s, 16)` for a string of two bytes: a leading `+` is accepted. -/
def hexPair (b1 b2 : UInt8) : Option UInt8 :=
  if b1 = 43 then (hexVal b2).map UInt8.ofNat
  else match hexVal b1, hexVal b2 with
    | some x, some y => some (UInt8.ofNat (x * 16 + y))
    | _, _ => none

def isOctal (b : UInt8) : Bool := 48 ≤ b.toNat && b.toNat ≤ 55

/-- One step of the octal accumulator, `octal * 8 + (src[p] - b'0')` in `u8`
(resolve.rs:856): panics on overflow when overflow checks are on, wraps otherwise. -/
def octStep (checks : Bool) (acc : Nat) (b : UInt8) : Res Nat :=
  let v := acc * 8 + (b.toNat - 48)
  if v < 256 then .ok v
  else if checks then .error .overflow else .ok (v % 256)

/-- Not in the middle of a character: `str::is_char_boundary` at a byte, given the byte
that follows (`none` at the end). -/
def boundary : Option UInt8 → Bool
  | none => true
  | some b => !(0x80 ≤ b.toNat && b.toNat < 0xC0)

/-- The single-character escapes (resolve.rs:812-851). -/
def simpleEscape (b : UInt8) : Option UInt8 :=
  if b = 97 then some 0x07
  else if b = 98 then some 0x08
  else if b = 102 then some 0x0C
  else if b = 110 then some 0x0A
  else if b = 114 then some 0x0D
  else if b = 116 then some 0x09
  else if b = 118 then some 0x0B
  else if b = 92 then some 0x5C
  else if b = 63 then some 0x3F
  else if b = 39 then some 0x27
  else if b = 34 then some 0x22
  else none

/-- Prepend a byte to a successful result. -/
def consRes (b : UInt8) : Res (Option Bytes) → Res (Option Bytes)
  | .ok (some r) => .ok (some (b :: r))
  | .ok none => .ok none
  | .error p => .error p

/-- Continue with the accumulated octal value. -/
def octThen (v : Res Nat) (k : Res (Option Bytes)) : Res (Option Bytes) :=
  match v with
  | .ok n => consRes (UInt8.ofNat n) k
  | .error p => .error p

def bindNat (v : Res Nat) (f : Nat → Res Nat) : Res Nat :=
  match v with
  | .ok n => f n
  | .error p => .error p

/-- `unescape_c_escape_string` (resolve.rs:796-884) on the bytes of the string;
`.ok none` is the returned error.  The escapes of one to three octal digits are spelled
out; the hexadecimal escape slices the string at two byte offsets and panics when they
are not character boundaries. -/
def unescape (checks : Bool) : Bytes → Res (Option Bytes)
  | [] => .ok (some [])
  | c :: r =>
    if c ≠ 92 then consRes c (unescape checks r)
    else match r with
      | [] => .ok none
      | e :: r =>
        match simpleEscape e with
        | some b => consRes b (unescape checks r)
        | none =>
          if isOctal e then
            match r with
            | [] => octThen (octStep checks 0 e) (unescape checks [])
            | d2 :: r2 =>
              if isOctal d2 then
                match r2 with
                | [] => octThen (bindNat (octStep checks 0 e) (octStep checks · d2))
                    (unescape checks [])
                | d3 :: r3 =>
                  if isOctal d3 then
                    octThen (bindNat (bindNat (octStep checks 0 e) (octStep checks · d2))
                      (octStep checks · d3)) (unescape checks r3)
                  else octThen (bindNat (octStep checks 0 e) (octStep checks · d2))
                    (unescape checks (d3 :: r3))
              else octThen (octStep checks 0 e) (unescape checks (d2 :: r2))
          else if e = 120 ∨ e = 88 then
            match r with
            | h1 :: h2 :: r' =>
              if boundary (some h1) && boundary r'.head? then
                match hexPair h1 h2 with
                | some b => consRes b (unescape checks r')
                | none => .ok none
              else .error .slice
            | _ => .ok none
          else .ok none

/-- What the standard library supplies. -/
structure FloatParse where
  f32 : List Char → Option (BitVec 32)
  f64 : List Char → Option (BitVec 64)

/-- `parse_simple_value` (resolve.rs:769-794); `none` is the error. -/
def parseSimple (fp : FloatParse) (checks : Bool) (k : Kind) (s : List Char) :
    Res (Option Value) :=
  match k with
  | .double => .ok ((fp.f64 s).map .f64)
  | .float => .ok ((fp.f32 s).map .f32)
  | .int32 | .sint32 | .sfixed32 => .ok ((parseSigned 32 s).map .i32)
  | .int64 | .sint64 | .sfixed64 => .ok ((parseSigned 64 s).map .i64)
  | .uint32 | .fixed32 => .ok ((parseUnsigned 32 s).map .u32)
  | .uint64 | .fixed64 => .ok ((parseUnsigned 64 s).map .u64)
  | .bool => .ok ((parseBool s).map .bool)
  | .string => .ok (some (.str (utf8Encode s)))
  | .bytes =>
    match unescape checks (utf8Encode s) with
    | .ok r => .ok (r.map .bytes)
    | .error p => .error p
  | .message _ | .enum _ => .error .index

end Verif.Pool
