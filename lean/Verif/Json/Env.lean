import Verif.Json.Base64
import Verif.Json.Mask
import Verif.Json.Time
import Verif.Json.Ints
import Verif.Text.Parse
import Verif.Dyn.Typing
/-!
What JSON serialization needs besides the schema: options, the standard library's and
`prost-types`' conversions, the well-known types and their descriptors.
-/
set_option autoImplicit false
namespace Verif.Json
open Verif.Wire Verif.Dyn Verif.Pool

/-- What other crates supply.
* `widen`: the double `serde_json` offers after an `f32` has been written.
* `narrow`: the cast `f64 as f32`.
* `ofI64`, `ofU64`: `i64 as f64`, `u64 as f64`; `ofI64s`, `ofU64s`: the casts to `f32`.
* `parse64`, `parse32`: `f64::from_str`, `f32::from_str`.
* `enumName`: `EnumDescriptor::get_value(n)` and its `name()` (api.rs:1481-1490).
* `showTime`, `parseTime`, `showDur`, `parseDur`: `Display` and `FromStr` of
  `prost_types::Timestamp` and `prost_types::Duration`.
* `order`: the order in which a `HashMap` yields its entries. -/
structure JEnv where
  widen : BitVec 32 → BitVec 64
  narrow : BitVec 64 → BitVec 32
  ofI64 : BitVec 64 → BitVec 64
  ofU64 : BitVec 64 → BitVec 64
  ofI64s : BitVec 64 → BitVec 32
  ofU64s : BitVec 64 → BitVec 32
  parse64 : List Char → Option (BitVec 64)
  parse32 : List Char → Option (BitVec 32)
  enumName : EnumDesc → BitVec 32 → Option Name
  showTime : BitVec 64 → BitVec 32 → List Char
  parseTime : List Char → Option (BitVec 64 × BitVec 32)
  showDur : BitVec 64 → BitVec 32 → List Char
  parseDur : List Char → Option (BitVec 64 × BitVec 32)
  order : List (List Char × Json) → List (List Char × Json)

/-- `SerializeOptions` (serde/mod.rs:18-23). -/
structure SOpts where
  stringify64 : Bool
  enumNumbers : Bool
  protoNames : Bool
  skipDefault : Bool

/-- `SerializeOptions::default` (serde/mod.rs). -/
def SOpts.default : SOpts := ⟨true, false, false, true⟩

/-- `DeserializeOptions` (serde/mod.rs:30-32). -/
structure DOpts where
  deny : Bool

/-- `DeserializeOptions::default` (serde/mod.rs). -/
def DOpts.default : DOpts := ⟨true⟩

/-! ### Well-known types -/

/-- The message types with a JSON form of their own (serde/mod.rs:265-286). -/
inductive Wkt where
  | any | timestamp | duration | struct | float | double | int32 | int64 | uint32 | uint64
  | bool | string | bytes | fieldMask | list | value | empty
  deriving DecidableEq, Repr

/-- The full name. -/
def Wkt.name : Wkt → Name
  | .any => "google.protobuf.Any".toList
  | .timestamp => "google.protobuf.Timestamp".toList
  | .duration => "google.protobuf.Duration".toList
  | .struct => "google.protobuf.Struct".toList
  | .float => "google.protobuf.FloatValue".toList
  | .double => "google.protobuf.DoubleValue".toList
  | .int32 => "google.protobuf.Int32Value".toList
  | .int64 => "google.protobuf.Int64Value".toList
  | .uint32 => "google.protobuf.UInt32Value".toList
  | .uint64 => "google.protobuf.UInt64Value".toList
  | .bool => "google.protobuf.BoolValue".toList
  | .string => "google.protobuf.StringValue".toList
  | .bytes => "google.protobuf.BytesValue".toList
  | .fieldMask => "google.protobuf.FieldMask".toList
  | .list => "google.protobuf.ListValue".toList
  | .value => "google.protobuf.Value".toList
  | .empty => "google.protobuf.Empty".toList

/-- All of them. -/
def Wkt.all : List Wkt :=
  [.any, .timestamp, .duration, .struct, .float, .double, .int32, .int64, .uint32, .uint64,
   .bool, .string, .bytes, .fieldMask, .list, .value, .empty]

/-- `is_well_known_type` and the dispatch on `full_name()` (serde/mod.rs:265-286,
ser/wkt.rs:23-49, de/mod.rs:22-76). -/
def wkt? (n : Name) : Option Wkt := Wkt.all.find? (fun w => w.name == n)

/-- `google.protobuf.NullValue`. -/
def nullName : Name := "google.protobuf.NullValue".toList

/-- A field of the descriptors below. -/
def stdField (n : Nat) (name : String) (kind : Kind) (card : Card) (presence : Bool)
    (oneof : Option Nat) : FieldDesc :=
  { number := n, name := name.toList, jsonName := name.toList, kind := kind, card := card,
    group := false, presence := presence, packed := false, default := none, oneof := oneof }

/-- The index of the type in `stdSchema`. -/
def Wkt.std : Wkt → Nat
  | .any => 0 | .timestamp => 1 | .duration => 2 | .struct => 3 | .value => 5 | .list => 6
  | .fieldMask => 7 | .empty => 8 | .double => 9 | .float => 10 | .int64 => 11 | .uint64 => 12
  | .int32 => 13 | .uint32 => 14 | .bool => 15 | .string => 16 | .bytes => 17

/-- A wrapper message: one field `value = 1` without presence. -/
def wrapper (w : Wkt) (k : Kind) : MsgDesc :=
  { name := w.name, fields := [stdField 1 "value" k .optional false none], mapEntry := false,
    extensions := [] }

/-- The descriptors of the types in `prost_types` (and of the scalars that implement `Message`
as wrapper types): what their generated encoders and decoders do is taken to be what the
dynamic ones do with these descriptors.  4 is the entry type of `Struct.fields`. -/
def stdSchema : Schema where
  msgs := [
    { name := Wkt.any.name, mapEntry := false, extensions := [], fields := [
        stdField 1 "type_url" .string .optional false none, stdField 2 "value" .bytes .optional false none] },
    { name := Wkt.timestamp.name, mapEntry := false, extensions := [], fields := [
        stdField 1 "seconds" .int64 .optional false none, stdField 2 "nanos" .int32 .optional false none] },
    { name := Wkt.duration.name, mapEntry := false, extensions := [], fields := [
        stdField 1 "seconds" .int64 .optional false none, stdField 2 "nanos" .int32 .optional false none] },
    { name := Wkt.struct.name, mapEntry := false, extensions := [], fields := [
        stdField 1 "fields" (.message 4) .repeated false none] },
    { name := "google.protobuf.Struct.FieldsEntry".toList, mapEntry := true, extensions := [], fields := [
        stdField 1 "key" .string .optional false none, stdField 2 "value" (.message 5) .optional true none] },
    { name := Wkt.value.name, mapEntry := false, extensions := [], fields := [
        stdField 1 "null_value" (.enum 0) .optional true (some 0),
        stdField 2 "number_value" .double .optional true (some 0),
        stdField 3 "string_value" .string .optional true (some 0),
        stdField 4 "bool_value" .bool .optional true (some 0),
        stdField 5 "struct_value" (.message 3) .optional true (some 0),
        stdField 6 "list_value" (.message 6) .optional true (some 0)] },
    { name := Wkt.list.name, mapEntry := false, extensions := [], fields := [
        stdField 1 "values" (.message 5) .repeated false none] },
    { name := Wkt.fieldMask.name, mapEntry := false, extensions := [], fields := [
        stdField 1 "paths" .string .repeated false none] },
    { name := Wkt.empty.name, mapEntry := false, extensions := [], fields := [] },
    wrapper .double .double, wrapper .float .float, wrapper .int64 .int64, wrapper .uint64 .uint64,
    wrapper .int32 .int32, wrapper .uint32 .uint32, wrapper .bool .bool, wrapper .string .string,
    wrapper .bytes .bytes]
  enums := [{ name := nullName, values := [("NULL_VALUE".toList, 0)] }]

/-- A decoder's result: a decode error is an `Err`. -/
def ofDecode {α : Type} : R α → Except JErr α
  | .ok a => .ok a
  | .error .panic => .error .panic
  | .error _ => .error .err

mutual
/-- How deep messages, groups and map entries are nested: the decoders that prost generates count a
map entry as a level, the dynamic one (dynamic/message.rs:353-377) does not. -/
def levelsVal : Value → Nat
  | .msg _ fs => 1 + levelsSlots fs
  | .list vs => levelsVals vs
  | .map kvs => levelsMap kvs
  | _ => 0
@[inherit_doc levelsVal] def levelsVals : List Value → Nat
  | [] => 0
  | v :: r => max (levelsVal v) (levelsVals r)
@[inherit_doc levelsVal] def levelsMap : List (MapKey × Value) → Nat
  | [] => 0
  | (_, v) :: r => max (1 + levelsVal v) (levelsMap r)
@[inherit_doc levelsVal] def levelsSlots : List (Nat × Slot) → Nat
  | [] => 0
  | (_, .taken) :: r => levelsSlots r
  | (_, .unknown u) :: r => max (USet.depth u) (levelsSlots r)
  | (_, .val v) :: r => max (levelsVal v) (levelsSlots r)
end

/-- `transcode_to` (dynamic/mod.rs:576-582).  The bytes are an encoding, so what the generated
decoder goes through is what the message has. -/
def transcodeTo (S : Schema) (w : Wkt) (m : DynMsg) : Except JErr FieldSet :=
  match encMsg S m with
  | none => .error .panic
  | some b =>
    match ofDecode (decode stdSchema w.std b) with
    | .error e => .error e
    | .ok m' => if levelsSlots m'.fields ≤ recursionLimit then .ok m'.fields else .error .err

/-- `make_message` (de/mod.rs:199-208): `transcode_from` (dynamic/mod.rs:568-573) into a new
message. -/
def makeMsg (S : Schema) (d : Nat) (w : Wkt) (fs : FieldSet) : Except JErr DynMsg :=
  match encMsg stdSchema ⟨w.std, fs⟩ with
  | none => .error .panic
  | some b => ofDecode (decode S d b)

/-- A string read from a message: Rust strings are UTF-8, anything else cannot occur. -/
def strOf (b : Bytes) : Except JErr (List Char) :=
  match utf8Decode b with
  | some s => .ok s
  | none => .error .panic

/-! ### Entries of a `HashMap` or `BTreeMap` with string keys -/

/-- `HashMap::insert`, in the order of first insertion. -/
def put {α : Type} (k : List Char) (v : α) : List (List Char × α) → List (List Char × α)
  | [] => [(k, v)]
  | (k', v') :: r => if k = k' then (k, v) :: r else (k', v') :: put k v r

/-- `HashMap::get`. -/
def lookup {α : Type} (k : List Char) : List (List Char × α) → Option α
  | [] => none
  | (k', v) :: r => if k = k' then some v else lookup k r

/-- `HashMap::remove`. -/
def remove {α : Type} (k : List Char) (es : List (List Char × α)) : List (List Char × α) :=
  es.filter (fun p => decide (p.1 ≠ k))

/-- The order of strings: by code points, which is the order of their UTF-8 bytes. -/
def keyLt : List Char → List Char → Bool
  | _, [] => false
  | [], _ :: _ => true
  | a :: r, b :: s => if a = b then keyLt r s else decide (a.toNat < b.toNat)

/-- `BTreeMap::insert`. -/
def putSorted {α : Type} (k : List Char) (v : α) : List (List Char × α) → List (List Char × α)
  | [] => [(k, v)]
  | (k', v') :: r =>
    if k = k' then (k, v) :: r
    else if keyLt k k' then (k, v) :: (k', v') :: r
    else (k', v') :: putSorted k v r

end Verif.Json
