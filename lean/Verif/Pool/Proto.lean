import Verif.Dyn.Value
/-!
The descriptor protos a pool is built from: model of `descriptor/types.rs` and of
the tags in `descriptor/tag.rs`.

Simplified: option messages are reduced to the options the builder reads (`packed`,
`map_entry`, `allow_alias`); `source_code_info` (used for error spans only) is
left out.  An absent string is the empty
string where the code reads it through prost's accessor (`file.name()`, …).
-/
set_option autoImplicit false
namespace Verif.Pool
open Verif.Dyn

/-- `field_descriptor_proto::Type` (prost-types), in the order of resolve.rs:578-592. -/
inductive PType where
  | double | float | int64 | uint64 | int32 | fixed64 | fixed32 | bool | string | bytes
  | uint32 | sfixed32 | sfixed64 | sint32 | sint64 | group | message | enum
  deriving DecidableEq, Repr

/-- `FieldDescriptorProto` (types.rs:88-113).  Numbers are `i32`, kept as `Int`. -/
structure FieldP where
  name : Name := []
  number : Int := 0
  /-- `label()`: an absent label reads as optional. -/
  label : Card := .optional
  /-- `r#type()`: an absent type reads as double. -/
  ty : PType := .double
  typeName : Name := []
  extendee : Option Name := none
  default : Option Name := none
  oneofIndex : Option Int := none
  jsonName : Option Name := none
  /-- outer: is there an options message; inner: does it set `packed`. -/
  options : Option (Option Bool) := none
  proto3Optional : Bool := false

/-- `OneofDescriptorProto` (types.rs:115-121). -/
structure OneofP where
  name : Name := []

/-- `EnumValueDescriptorProto` (types.rs:138-145). -/
structure EnumValueP where
  name : Name := []
  number : Int := 0

/-- `EnumDescriptorProto` (types.rs:123-135); reserved ranges are inclusive. -/
structure EnumP where
  name : Name := []
  values : List EnumValueP := []
  reserved : List (Int × Int) := []
  /-- the `allow_alias` option, interpreted or not (names.rs:242-251). -/
  allowAlias : Bool := false
  reservedNames : List Name := []

/-- `MethodDescriptorProto` (types.rs:157-170). -/
structure MethodP where
  name : Name := []
  input : Name := []
  output : Name := []
  clientStreaming : Option Bool := none
  serverStreaming : Option Bool := none

/-- `ServiceDescriptorProto` (types.rs:147-155). -/
structure ServiceP where
  name : Name := []
  methods : List MethodP := []

/-- `DescriptorProto` (types.rs:48-71); ranges are half open. -/
structure MsgP where
  name : Name := []
  fields : List FieldP := []
  exts : List FieldP := []
  nested : List MsgP := []
  enums : List EnumP := []
  extRanges : List (Int × Int) := []
  oneofs : List OneofP := []
  /-- outer: is there an options message; inner: does it set `map_entry`. -/
  options : Option (Option Bool) := none
  reserved : List (Int × Int) := []
  reservedNames : List Name := []

/-- `FileDescriptorProto` (types.rs:21-46). -/
structure FileP where
  name : Name := []
  package : Name := []
  deps : List Name := []
  publicDeps : List Int := []
  weakDeps : List Int := []
  messages : List MsgP := []
  enums : List EnumP := []
  services : List ServiceP := []
  exts : List FieldP := []
  syn : Option Name := none

/-! Tags (descriptor/tag.rs). -/
namespace Tag
def fileMessage : Nat := 4
def fileEnum : Nat := 5
def fileService : Nat := 6
def fileExtension : Nat := 7
def msgField : Nat := 2
def msgNested : Nat := 3
def msgEnum : Nat := 4
def msgExtension : Nat := 6
def msgOneof : Nat := 8
def enumValue : Nat := 2
def svcMethod : Nat := 2
end Tag

/-- A descriptor path: `&[i32]`, all elements non-negative. -/
abbrev Path := List Nat

end Verif.Pool
