import Verif.Wire.Basic
/-!
Unknown fields: model of `prost-reflect/src/dynamic/unknown.rs`.
-/
set_option autoImplicit false
namespace Verif.Wire

/-- `UnknownFieldValue` (unknown.rs:26-37). The `[u8; 8]` and `[u8; 4]` arrays are
kept as the number whose little-endian bytes they are (unknown.rs:154, 173).
A field set (unknown.rs:40-42) is the list of its fields; a field (unknown.rs:19-22)
is its number and value. -/
inductive UVal where
  | varint (v : BitVec 64)
  | sixtyFour (v : BitVec 64)
  | len (b : Bytes)
  | group (fs : List (Nat × UVal))
  | thirtyTwo (v : BitVec 32)

/-- `UnknownField` (unknown.rs:19-22). -/
abbrev UField := Nat × UVal
/-- `UnknownFieldSet` (unknown.rs:40-42). -/
abbrev USet := List UField

/-- `UnknownField::wire_type` (unknown.rs:51-59). -/
def UVal.wireType : UVal → WireType
  | .varint _ => .varint
  | .sixtyFour _ => .sixtyFourBit
  | .len _ => .lengthDelimited
  | .group _ => .startGroup
  | .thirtyTwo _ => .thirtyTwoBit

mutual
/-- `UnknownField::encode` (unknown.rs:66-90). -/
def encUVal (n : Nat) : UVal → Bytes
  | .varint v => encodeKey n .varint ++ encodeVarint v.toNat
  | .sixtyFour v => encodeKey n .sixtyFourBit ++ putLE 8 v.toNat
  | .len b => encodeKey n .lengthDelimited ++ (encodeVarint b.length ++ b)
  | .group fs => encodeKey n .startGroup ++ (encUSet fs ++ encodeKey n .endGroup)
  | .thirtyTwo v => encodeKey n .thirtyTwoBit ++ putLE 4 v.toNat
/-- `UnknownFieldSet::encode_raw` (unknown.rs:238-245). -/
def encUSet : List (Nat × UVal) → Bytes
  | [] => []
  | (n, v) :: r => encUVal n v ++ encUSet r
end

mutual
/-- `UnknownField::encoded_len` (unknown.rs:181-193); `bytes::encoded_len` is
key + length varint + payload, `group::encoded_len` is two keys + payload. -/
def lenUVal (n : Nat) : UVal → Nat
  | .varint v => keyLen n + encodedLenVarint v.toNat
  | .sixtyFour _ => keyLen n + 8
  | .len b => keyLen n + encodedLenVarint b.length + b.length
  | .group fs => 2 * keyLen n + lenUSet fs
  | .thirtyTwo _ => keyLen n + 4
/-- `UnknownFieldSet::encoded_len` (unknown.rs:262-268). -/
def lenUSet : List (Nat × UVal) → Nat
  | [] => 0
  | (n, v) :: r => lenUVal n v + lenUSet r
end

/-- `UnknownFieldSet::merge_field` (unknown.rs:247-260) on top of a value decoder. -/
def pushUnknown (dec : Nat → WireType → Bytes → R (UVal × Bytes)) : FieldFn USet :=
  fun st n w b =>
    match dec n w b with
    | .error e => .error e
    | .ok (v, b') => .ok (st ++ [(n, v)], b')

/-- `UnknownField::decode_value` (unknown.rs:137-178), given the field function for
the fields inside a group (`none` when the recursion counter is used up). -/
def decUValWith (nested : Option (FieldFn USet)) (number : Nat) (wt : WireType) (buf : Bytes) :
    R (UVal × Bytes) :=
  match wt with
  | .varint =>
    match decodeVarint buf with
    | .error e => .error e
    | .ok (v, r) => .ok (.varint (BitVec.ofNat 64 v), r)
  | .sixtyFourBit =>
    match getLE 8 buf with
    | .error e => .error e
    | .ok (v, r) => .ok (.sixtyFour (BitVec.ofNat 64 v), r)
  | .lengthDelimited =>
    match getLenDelim buf with
    | .error e => .error e
    | .ok (b, r) => .ok (.len b, r)
  | .startGroup =>
    match groupMerge nested number .startGroup [] buf with
    | .error e => .error e
    | .ok (fs, r) => .ok (.group fs, r)
  | .endGroup => .error .wrongWireType
  | .thirtyTwoBit =>
    match getLE 4 buf with
    | .error e => .error e
    | .ok (v, r) => .ok (.thirtyTwo (BitVec.ofNat 32 v), r)

/-- `UnknownField::decode_value` (unknown.rs:137-178). The first argument is the
recursion counter of the context. -/
def decUVal : Nat → Nat → WireType → Bytes → R (UVal × Bytes)
  | 0 => decUValWith none
  | d + 1 => decUValWith (some (pushUnknown (decUVal d)))

/-- `UnknownField::decode` (unknown.rs:109-115). -/
def decUField (d : Nat) (buf : Bytes) : R (UField × Bytes) :=
  match decodeKey buf with
  | .error e => .error e
  | .ok (n, w, r) =>
    match decUVal d n w r with
    | .error e => .error e
    | .ok (v, r') => .ok ((n, v), r')

end Verif.Wire
