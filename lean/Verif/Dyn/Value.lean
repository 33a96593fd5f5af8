import Verif.Wire.Unknown
import Verif.Dyn.SMap
import Verif.Utf8
/-!
Values, messages and schemas: model of `dynamic/mod.rs` (data types) and of the
part of the descriptor API that `dynamic/*` reads (`descriptor/api.rs`).
-/
set_option autoImplicit false
namespace Verif.Dyn
open Verif.Wire

/-- Identifiers are lists of characters. -/
abbrev Name := List Char

/-- `Kind` (api.rs:22-75). Messages and enums are indices into the pool; a group is
`message` with the field's `group` flag set, as in `Kind::new` (api.rs:62-67). -/
inductive Kind where
  | double | float | int32 | int64 | uint32 | uint64 | sint32 | sint64
  | fixed32 | fixed64 | sfixed32 | sfixed64 | bool | string | bytes
  | message (i : Nat)
  | enum (i : Nat)
  deriving DecidableEq, Repr

/-- `Cardinality` (descriptor/mod.rs). -/
inductive Card where
  | optional | required | repeated
  deriving DecidableEq, Repr

/-- `MapKey` (dynamic/mod.rs:80-94). Strings are their UTF-8 bytes. -/
inductive MapKey where
  | bool (b : Bool)
  | i32 (v : BitVec 32)
  | i64 (v : BitVec 64)
  | u32 (v : BitVec 32)
  | u64 (v : BitVec 64)
  | str (b : Bytes)
  deriving DecidableEq, Repr

mutual
/-- `Value` (dynamic/mod.rs:48-76). Floats are bit patterns, strings their UTF-8
bytes (a Rust `String` is always valid UTF-8: `utf8Valid` is part of every
typing predicate). A message is its descriptor index and its field set
(dynamic/mod.rs:39-42). -/
inductive Value where
  | bool (b : Bool)
  | i32 (v : BitVec 32)
  | i64 (v : BitVec 64)
  | u32 (v : BitVec 32)
  | u64 (v : BitVec 64)
  | f32 (v : BitVec 32)
  | f64 (v : BitVec 64)
  | str (b : Bytes)
  | bytes (b : Bytes)
  | enum (v : BitVec 32)
  | msg (desc : Nat) (fields : List (Nat × Slot))
  | list (vs : List Value)
  | map (kvs : List (MapKey × Value))
/-- `ValueOrUnknown` (dynamic/fields.rs:44-51). -/
inductive Slot where
  | taken
  | val (v : Value)
  | unknown (u : List (Nat × UVal))
end

/-- `DynamicMessageFieldSet` (dynamic/fields.rs:39-41). -/
abbrev FieldSet := SMap Slot

/-- `DynamicMessage` (dynamic/mod.rs:39-42). -/
structure DynMsg where
  desc : Nat
  fields : FieldSet

/-- `DynamicMessage::new` (dynamic/mod.rs:112-117). -/
def DynMsg.empty (desc : Nat) : DynMsg := ⟨desc, []⟩

/-- A message as a value. -/
def DynMsg.toValue (m : DynMsg) : Value := .msg m.desc m.fields

/-- `FieldDescriptorInner` / `ExtensionDescriptorInner` (descriptor/mod.rs), the parts
read by the dynamic module. -/
structure FieldDesc where
  number : Nat
  name : Name
  jsonName : Name
  kind : Kind
  card : Card
  /-- `is_group` (api.rs:1048-1050). -/
  group : Bool
  /-- `supports_presence` (api.rs:1102-1104). -/
  presence : Bool
  /-- `is_packed` (api.rs:1078-1080). -/
  packed : Bool
  /-- custom default value. -/
  default : Option Value
  /-- index of the containing oneof. -/
  oneof : Option Nat

/-- `MessageDescriptorInner` (descriptor/mod.rs) plus the `map_entry` option. -/
structure MsgDesc where
  name : Name
  /-- fields in declaration order. -/
  fields : List FieldDesc
  mapEntry : Bool
  /-- extensions of this message, in the order the pool knows them. -/
  extensions : List FieldDesc

/-- `EnumDescriptorInner`: declared values in declaration order. -/
structure EnumDesc where
  name : Name
  values : List (Name × BitVec 32)

/-- A descriptor pool as seen by dynamic messages. -/
structure Schema where
  msgs : List MsgDesc
  enums : List EnumDesc

/-- The message descriptor at an index. -/
def Schema.msg? (S : Schema) (i : Nat) : Option MsgDesc := S.msgs[i]?

/-- `MessageDescriptor::get_field` (api.rs:852-860). -/
def MsgDesc.getField (m : MsgDesc) (n : Nat) : Option FieldDesc :=
  m.fields.find? (fun f => f.number == n)

/-- `MessageDescriptor::get_extension` (api.rs:948-950): the first match. -/
def MsgDesc.getExtension (m : MsgDesc) (n : Nat) : Option FieldDesc :=
  m.extensions.find? (fun f => f.number == n)

/-- Field of message `d` with number `n`. -/
def Schema.field? (S : Schema) (d n : Nat) : Option FieldDesc :=
  (S.msg? d).bind (·.getField n)

/-- Extension of message `d` with number `n`. -/
def Schema.ext? (S : Schema) (d n : Nat) : Option FieldDesc :=
  (S.msg? d).bind (·.getExtension n)

/-- `MessageDescriptor::is_map_entry` (api.rs:896-902). -/
def Schema.isMapEntry (S : Schema) (i : Nat) : Bool :=
  match S.msg? i with
  | some m => m.mapEntry
  | none => false

/-- `FieldDescriptor::is_map` (api.rs:1065-1071). -/
def isMap (S : Schema) (f : FieldDesc) : Bool :=
  f.card == .repeated && match f.kind with
    | .message i => S.isMapEntry i
    | _ => false

/-- `FieldDescriptor::is_list` (api.rs:1056-1058). -/
def isList (S : Schema) (f : FieldDesc) : Bool :=
  f.card == .repeated && !isMap S f

/-- `KindIndex::is_packable` (descriptor/mod.rs:342-367). -/
def Kind.packable : Kind → Bool
  | .string | .bytes | .message _ => false
  | _ => true

/-- `Kind::wire_type` (api.rs:97-111). -/
def Kind.wireType : Kind → WireType
  | .double | .fixed64 | .sfixed64 => .sixtyFourBit
  | .float | .fixed32 | .sfixed32 => .thirtyTwoBit
  | .string | .bytes | .message _ => .lengthDelimited
  | _ => .varint

/-- Key and value field of the map entry message `i`, `none` when one is missing
(the `unwrap`s of message.rs:253-254 then panic). -/
def Schema.mapKV (S : Schema) (i : Nat) : Option (FieldDesc × FieldDesc) :=
  match S.field? i 1, S.field? i 2 with
  | some k, some v => some (k, v)
  | _, _ => none

/-- `EnumDescriptor::default_value` (api.rs:1459-1464): the first declared value;
`none` stands for the panic on an enum without values. -/
def Schema.enumDefault (S : Schema) (e : Nat) : Option (BitVec 32) :=
  match S.enums[e]? with
  | some d => d.values.head?.map (·.2)
  | none => none

/-- `Kind::default_value` (api.rs:117-131). -/
def kindDefault (S : Schema) : Kind → Option Value
  | .message i => some (.msg i [])
  | .enum e => (S.enumDefault e).map .enum
  | .double => some (.f64 0)
  | .float => some (.f32 0)
  | .int32 | .sint32 | .sfixed32 => some (.i32 0)
  | .int64 | .sint64 | .sfixed64 => some (.i64 0)
  | .uint32 | .fixed32 => some (.u32 0)
  | .uint64 | .fixed64 => some (.u64 0)
  | .bool => some (.bool false)
  | .string => some (.str [])
  | .bytes => some (.bytes [])

/-- `FieldDescriptor::default_value` (api.rs:1121-1131). -/
def fieldDefault (S : Schema) (f : FieldDesc) : Option Value :=
  if isList S f then some (.list [])
  else if isMap S f then some (.map [])
  else match f.default with
    | some v => some v
    | none => kindDefault S f.kind

/-- `MapKey::default_value` (dynamic/mod.rs:932-942); `none` is the panic. -/
def MapKey.default : Kind → Option MapKey
  | .int32 | .sint32 | .sfixed32 => some (.i32 0)
  | .int64 | .sint64 | .sfixed64 => some (.i64 0)
  | .uint32 | .fixed32 => some (.u32 0)
  | .uint64 | .fixed64 => some (.u64 0)
  | .bool => some (.bool false)
  | .string => some (.str [])
  | _ => none

/-- `From<MapKey> for Value` (dynamic/mod.rs:1063-1074). -/
def MapKey.toValue : MapKey → Value
  | .bool b => .bool b
  | .i32 v => .i32 v
  | .i64 v => .i64 v
  | .u32 v => .u32 v
  | .u64 v => .u64 v
  | .str b => .str b

/-- `Value::into_map_key` (dynamic/mod.rs:913-923). -/
def Value.toMapKey : Value → Option MapKey
  | .bool b => some (.bool b)
  | .i32 v => some (.i32 v)
  | .i64 v => some (.i64 v)
  | .u32 v => some (.u32 v)
  | .u64 v => some (.u64 v)
  | .str b => some (.str b)
  | _ => none

/-! ### Equality (`#[derive(PartialEq)]`) -/

/-- IEEE-754 equality of `f32` bit patterns: NaN differs from everything, the two
zeros are equal. -/
def f32Eq (a b : BitVec 32) : Bool :=
  let nan (x : BitVec 32) : Bool := decide (0x7F800000 < x.toNat % 0x80000000)
  !nan a && !nan b && (a == b || (a.toNat % 0x80000000 == 0 && b.toNat % 0x80000000 == 0))

/-- IEEE-754 equality of `f64` bit patterns. -/
def f64Eq (a b : BitVec 64) : Bool :=
  let nan (x : BitVec 64) : Bool := decide (0x7FF0000000000000 < x.toNat % 0x8000000000000000)
  !nan a && !nan b &&
    (a == b || (a.toNat % 0x8000000000000000 == 0 && b.toNat % 0x8000000000000000 == 0))

mutual
/-- `PartialEq for UnknownFieldValue` (unknown.rs:25). -/
def UVal.beq : UVal → UVal → Bool
  | .varint a, .varint b => a == b
  | .sixtyFour a, .sixtyFour b => a == b
  | .len a, .len b => a == b
  | .group a, .group b => USet.beq a b
  | .thirtyTwo a, .thirtyTwo b => a == b
  | _, _ => false
/-- `PartialEq for UnknownFieldSet` (unknown.rs:40). -/
def USet.beq : List (Nat × UVal) → List (Nat × UVal) → Bool
  | [], [] => true
  | (n, a) :: r, (m, b) :: s => n == m && UVal.beq a b && USet.beq r s
  | _, _ => false
end

mutual
/-- `PartialEq for Value` (dynamic/mod.rs:48). -/
def Value.beq : Value → Value → Bool
  | .bool a, .bool b => a == b
  | .i32 a, .i32 b => a == b
  | .i64 a, .i64 b => a == b
  | .u32 a, .u32 b => a == b
  | .u64 a, .u64 b => a == b
  | .f32 a, .f32 b => f32Eq a b
  | .f64 a, .f64 b => f64Eq a b
  | .str a, .str b => a == b
  | .bytes a, .bytes b => a == b
  | .enum a, .enum b => a == b
  | .msg d fs, .msg e gs => d == e && beqSlots fs gs
  | .list a, .list b => beqVals a b
  | .map a, .map b => a.length == b.length && beqMap a b
  | _, _ => false
/-- Element-wise equality of `Vec<Value>`. -/
def beqVals : List Value → List Value → Bool
  | [], [] => true
  | a :: r, b :: s => a.beq b && beqVals r s
  | _, _ => false
/-- `HashMap` equality, given equal sizes: every entry of the first is in the second. -/
def beqMap : List (MapKey × Value) → List (MapKey × Value) → Bool
  | [], _ => true
  | (k, a) :: r, s =>
    (match KMap.get? s k with
      | some b => a.beq b
      | none => false) && beqMap r s
/-- `BTreeMap` equality. -/
def beqSlots : List (Nat × Slot) → List (Nat × Slot) → Bool
  | [], [] => true
  | (n, .taken) :: r, (m, .taken) :: s => n == m && beqSlots r s
  | (n, .val a) :: r, (m, .val b) :: s => n == m && a.beq b && beqSlots r s
  | (n, .unknown a) :: r, (m, .unknown b) :: s => n == m && USet.beq a b && beqSlots r s
  | _, _ => false
end

/-- `PartialEq for DynamicMessage` (dynamic/mod.rs:38). -/
def DynMsg.beq (a b : DynMsg) : Bool := a.desc == b.desc && beqSlots a.fields b.fields

/-- `is_default_for_field` / `is_default_for_extension` (dynamic/mod.rs:619-626);
`none` is a panic while computing the default. -/
def isDefault (S : Schema) (f : FieldDesc) (v : Value) : Option Bool :=
  (fieldDefault S f).map (v.beq ·)

/-- `FieldDescriptorLike::has` (dynamic/fields.rs:32-34). -/
def hasVal (S : Schema) (f : FieldDesc) (v : Value) : Option Bool :=
  if f.presence then some true else (isDefault S f v).map (!·)

/-! ### Validity checks -/

/-- `Value::is_valid` (dynamic/mod.rs:678-693). -/
def Value.isValid : Value → Kind → Bool
  | .bool _, .bool => true
  | .i32 _, .int32 | .i32 _, .sint32 | .i32 _, .sfixed32 => true
  | .i64 _, .int64 | .i64 _, .sint64 | .i64 _, .sfixed64 => true
  | .u32 _, .uint32 | .u32 _, .fixed32 => true
  | .u64 _, .uint64 | .u64 _, .fixed64 => true
  | .f32 _, .float => true
  | .f64 _, .double => true
  | .str _, .string => true
  | .bytes _, .bytes => true
  | .enum _, .enum _ => true
  | .msg _ _, .message _ => true
  | _, _ => false

/-- `MapKey::is_valid` (dynamic/mod.rs:954-964). -/
def MapKey.isValid : MapKey → Kind → Bool
  | .bool _, .bool => true
  | .i32 _, .int32 | .i32 _, .sint32 | .i32 _, .sfixed32 => true
  | .i64 _, .int64 | .i64 _, .sint64 | .i64 _, .sfixed64 => true
  | .u32 _, .uint32 | .u32 _, .fixed32 => true
  | .u64 _, .uint64 | .u64 _, .fixed64 => true
  | .str _, .string => true
  | _, _ => false

mutual
/-- `Value::is_valid_for_field` and `is_valid_for_extension` (dynamic/mod.rs:639-671);
`none` is the panic of `map_entry_key_field`/`map_entry_value_field` on a malformed
map entry. -/
def validFor (S : Schema) (f : FieldDesc) : Value → Option Bool
  | .list vs => if isList S f then some (vs.all (·.isValid f.kind)) else some false
  | .map kvs =>
    match f.kind with
    | .message i =>
      if isMap S f then
        match S.mapKV i with
        | none => none
        | some (kd, vd) => validMap S kd vd kvs
      else some false
    | _ => some false
  | v => some (v.isValid f.kind)
/-- The `all` over map entries (dynamic/mod.rs:647-649). -/
def validMap (S : Schema) (kd vd : FieldDesc) : List (MapKey × Value) → Option Bool
  | [] => some true
  | (k, v) :: r =>
    if k.isValid kd.kind then
      match validFor S vd v with
      | some true => validMap S kd vd r
      | other => other
    else some false
end

end Verif.Dyn
