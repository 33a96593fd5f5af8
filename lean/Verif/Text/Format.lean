import Verif.Dyn.Codec
import Verif.Num
/-!
Printing messages in the text format: model of `dynamic/text_format/format.rs` and of
`fmt_string` (dynamic/mod.rs:1104-1122).

Where the code writes into a `fmt::Write`, the model returns the characters; `none` is a
panic or too deep a recursion (the first numeric argument is the depth the stack allows).
The writer is a `String`, so its own errors cannot occur.
-/
set_option autoImplicit false
namespace Verif.Text
open Verif.Wire Verif.Dyn Verif.Pool

/-- What the standard library and the descriptors supply.
* `show32`, `show64`: the text written for a float (format.rs:67-80).
* `parse64`: `f64::from_str`.
* `narrow`: the cast `as f32`.
* `enumName`: `EnumDescriptor::get_value(n)` and its `name()` (api.rs:1481-1490): which of
  several values with the same number the binary search hits is not specified. -/
structure TEnv where
  show32 : BitVec 32 → List Char
  show64 : BitVec 64 → List Char
  parse64 : List Char → Option (BitVec 64)
  narrow : BitVec 64 → BitVec 32
  enumName : EnumDesc → BitVec 32 → Option Name

/-- `FormatOptions` (text_format/mod.rs). -/
structure FOpts where
  pretty : Bool
  skipUnknown : Bool
  expandAny : Bool
  skipDefault : Bool
  indexOrder : Bool

/-- `FormatOptions::default` (text_format/mod.rs). -/
def FOpts.default : FOpts := ⟨false, true, true, true, false⟩

/-- The last three octal digits: `{:03o}` of a byte. -/
def octal3 (b : UInt8) : List Char :=
  [digitChar (b.toNat / 64 % 8), digitChar (b.toNat / 8 % 8), digitChar (b.toNat % 8)]

/-- One byte of a string (dynamic/mod.rs:1107-1118). -/
def fmtByte (b : UInt8) : List Char :=
  if b = 0x09 then ['\\', 't']
  else if b = 0x0D then ['\\', 'r']
  else if b = 0x0A then ['\\', 'n']
  else if b = 0x5C then ['\\', '\\']
  else if b = 0x27 then ['\\', '\'']
  else if b = 0x22 then ['\\', '"']
  else if 0x20 ≤ b.toNat ∧ b.toNat ≤ 0x7e then [Char.ofNat b.toNat]
  else '\\' :: octal3 b

/-- The bytes between the quotes. -/
def fmtBytes : Bytes → List Char
  | [] => []
  | b :: r => fmtByte b ++ fmtBytes r

/-- `fmt_string` (dynamic/mod.rs:1104-1122). -/
def fmtString (b : Bytes) : List Char := '"' :: (fmtBytes b ++ ['"'])

/-- Hexadecimal digit. -/
def hexChar (n : Nat) : Char := if n < 10 then digitChar n else Char.ofNat (87 + n)

/-- `{:0wx}`: `w` hexadecimal digits. -/
def hexPad : Nat → Nat → List Char
  | 0, _ => []
  | w + 1, n => hexPad w (n / 16) ++ [hexChar (n % 16)]

/-- `Display` of a bool. -/
def showBool (b : Bool) : List Char := if b then ['t', 'r', 'u', 'e'] else ['f', 'a', 'l', 's', 'e']

/-- `fmt_padding` (format.rs:283-288). -/
def pad (o : FOpts) : List Char := if o.pretty then [' '] else []

/-- `fmt_newline` (format.rs:290-296). -/
def newline (ind : Nat) : List Char := '\n' :: List.replicate ind ' '

/-- Apply `f` to every item in order; `none` if one panics. -/
def fmtAll {α : Type} (f : α → Option (List Char)) : List α → Option (List (List Char))
  | [] => some []
  | a :: r =>
    match f a, fmtAll f r with
    | some s, some t => some (s :: t)
    | _, _ => none

/-- Parts with a separator between them. -/
def joinWith (sep : List Char) : List (List Char) → List Char
  | [] => []
  | [s] => s
  | s :: t :: r => s ++ (sep ++ joinWith sep (t :: r))

/-- `fmt_delimited` (format.rs:246-264). -/
def fmtDelimited {α : Type} (o : FOpts) (ind : Nat) (f : α → Option (List Char)) (xs : List α) :
    Option (List Char) :=
  (fmtAll f xs).map (joinWith (if o.pretty then newline ind else [',']))

/-- `fmt_list` (format.rs:266-281). -/
def fmtList {α : Type} (o : FOpts) (f : α → Option (List Char)) (xs : List α) : Option (List Char) :=
  (fmtAll f xs).map (fun ss => '[' :: (joinWith (',' :: pad o) ss ++ [']']))

/-- The braces around a message (format.rs:102-114, 227-239), `body` printed at the
indentation it is given. -/
def braced (o : FOpts) (ind : Nat) (body : Nat → Option (List Char)) : Option (List Char) :=
  if o.pretty then
    (body (ind + 2)).map (fun s => '{' :: (newline (ind + 2) ++ (s ++ (newline ind ++ ['}']))))
  else (body ind).map (fun s => '{' :: (s ++ ['}']))

/-- `fmt_map_key` (format.rs:148-157). -/
def fmtKey : MapKey → List Char
  | .bool b => showBool b
  | .i32 v => decInt v.toInt
  | .i64 v => decInt v.toInt
  | .u32 v => decDigits v.toNat
  | .u64 v => decDigits v.toNat
  | .str b => fmtString b

/-- The scalar cases of `fmt_value` (format.rs:62-90). -/
def fmtScalar (env : TEnv) (S : Schema) (kind : Option Kind) : Value → Option (List Char)
  | .bool b => some (showBool b)
  | .i32 v => some (decInt v.toInt)
  | .i64 v => some (decInt v.toInt)
  | .u32 v => some (decDigits v.toNat)
  | .u64 v => some (decDigits v.toNat)
  | .f32 v => some (env.show32 v)
  | .f64 v => some (env.show64 v)
  | .str b => some (fmtString b)
  | .bytes b => some (fmtString b)
  | .enum v =>
    match kind with
    | some (.enum e) =>
      match S.enums[e]? with
      | none => none
      | some ed =>
        match env.enumName ed v with
        | some n => some n
        | none => some (decInt v.toInt)
    | _ => some (decInt v.toInt)
  | _ => none

/-- `fmt_field_value` (format.rs:179-185), given the printed value. -/
def fieldValue (o : FOpts) (v : Value) (s : List Char) : List Char :=
  match v with
  | .msg _ _ => pad o ++ s
  | _ => ':' :: (pad o ++ s)

/-- The last segment of a full name (`MessageDescriptor::name`). -/
def shortName (n : Name) : Name := (n.reverse.takeWhile (· ≠ '.')).reverse

/-- The name written for a field (format.rs:162-166); `none` is the `unwrap`. -/
def fieldLabel (S : Schema) (f : FieldDesc) : Option Name :=
  if f.group then
    match f.kind with
    | .message i => (S.msg? i).map (fun m => shortName m.name)
    | _ => none
  else some f.name

/-- The value kind of a map field (format.rs:120-122): outer `none` is the panic of
`map_entry_value_field`. -/
def mapValueKind (S : Schema) : Option Kind → Option (Option Kind)
  | some (.message i) =>
    match S.field? i 2 with
    | some f => some (some f.kind)
    | none => none
  | _ => some none

/-- Is this the unknown-fields item? -/
def isUnknown : Item → Bool
  | .unknown _ => true
  | _ => false

/-- `fields.iter(desc, !skip_default_fields, index_order)` (fields.rs:151-196). -/
def items (o : FOpts) (S : Schema) (md : MsgDesc) (fs : FieldSet) : Option (List Item) :=
  match iterFieldPart S (!o.skipDefault) fs
      (if o.indexOrder then md.fields.map (fun f => (f.number, f)) else md.fieldsByNumber),
    iterExtPart S md fs with
  | some a, some b => some (a ++ b)
  | _, _ => none

/-! ### Unknown fields -/

/-- `UnknownFieldSet::decode(..).ok()` (prost's `decode` over unknown.rs:247-260). -/
def decodeUSet (b : Bytes) : Option USet :=
  match mergeAll (pushUnknown (decUVal recursionLimit)) [] b with
  | .ok (us, _) => some us
  | .error _ => none

/-- `fmt_unknown_field` and `fmt_unknown_field_set` (format.rs:187-240). -/
def fmtUnknown (o : FOpts) : Nat → Nat → UField → Option (List Char)
  | 0, _, _ => none
  | k + 1, ind, (n, u) =>
    let set (us : USet) : Option (List Char) :=
      if us.isEmpty then some ['{', '}']
      else braced o ind (fun ind => fmtDelimited o ind (fmtUnknown o k ind) us)
    let scalar (s : List Char) : Option (List Char) := some (decDigits n ++ ':' :: (pad o ++ s))
    match u with
    | .varint v => scalar (decDigits v.toNat)
    | .thirtyTwo v => scalar ('0' :: 'x' :: hexPad 8 v.toNat)
    | .sixtyFour v => scalar ('0' :: 'x' :: hexPad 16 v.toNat)
    | .len b =>
      match (if b.isEmpty then none else decodeUSet b) with
      | some us => (set us).map (fun s => decDigits n ++ (pad o ++ s))
      | none => scalar (fmtString b)
    | .group us => (set us).map (fun s => decDigits n ++ (pad o ++ s))

/-! ### Any -/

/-- The characters of `google.protobuf.Any`. -/
def anyName : Name := "google.protobuf.Any".toList

/-- The descriptor of `prost_types::Any`: `type_url = 1`, `value = 2`. -/
def anySchema : Schema :=
  { msgs := [{ name := anyName, mapEntry := false, extensions := [], fields := [
      { number := 1, name := "type_url".toList, jsonName := "typeUrl".toList, kind := .string,
        card := .optional, group := false, presence := false, packed := false, default := none,
        oneof := none },
      { number := 2, name := "value".toList, jsonName := "value".toList, kind := .bytes,
        card := .optional, group := false, presence := false, packed := false, default := none,
        oneof := none }] }], enums := [] }

/-- `transcode_to::<prost_types::Any>` (dynamic/mod.rs:576-582): encode and decode as the
generated type, whose decoder is taken to agree with the dynamic one for its descriptor.
The outer `none` is a panic, the inner a failed decode. -/
def transcodeAny (S : Schema) (m : DynMsg) : Option (Option (Bytes × Bytes)) :=
  match encMsg S m with
  | none => none
  | some b =>
    match decode anySchema 0 b with
    | .error _ => some none
    | .ok a =>
      match FieldSet.getValue a.fields 1, FieldSet.getValue a.fields 2 with
      | some (.str u), some (.bytes v) => some (some (u, v))
      | some (.str u), _ => some (some (u, []))
      | _, some (.bytes v) => some (some ([], v))
      | _, _ => some (some ([], []))

/-- The part after the last `/` (`get_type_url_message_name`, dynamic/mod.rs:1188-1194). -/
def urlName (url : List Char) : Option Name :=
  if url.contains '/' then some (url.reverse.takeWhile (· ≠ '/')).reverse else none

/-- `get_message_by_name` (api.rs:467-478): a leading dot is ignored. -/
def Schema.msgByName (S : Schema) (n : Name) : Option Nat :=
  S.msgs.findIdx? (fun m => m.name == (match n with
    | '.' :: r => r
    | n => n))

/-- `as_any` (format.rs:299-313): the outer `none` is a panic. -/
def asAny (S : Schema) (md : MsgDesc) (m : DynMsg) : Option (Option (List Char × DynMsg)) :=
  if md.name ≠ anyName then some none
  else
    match transcodeAny S m with
    | none => none
    | some none => some none
    | some (some (u, v)) =>
      match utf8Decode u with
      | none => some none
      | some url =>
        match urlName url with
        | none => some none
        | some n =>
          match Schema.msgByName S n with
          | none => some none
          | some d =>
            match decode S d v with
            | .error _ => some none
            | .ok body => some (some (url, body))

/-! ### Messages -/

/-- `fmt_message_field` (format.rs:159-177); `val` prints a value. -/
def fmtItem (S : Schema) (o : FOpts) (k ind : Nat)
    (val : Value → Option Kind → Option (List Char)) : Item → Option (List Char)
  | .field f v =>
    match fieldLabel S f, val v (some f.kind) with
    | some n, some s => some (n ++ fieldValue o v s)
    | _, _ => none
  | .ext f v =>
    match val v (some f.kind) with
    | some s => some ('[' :: (f.name ++ (']' :: fieldValue o v s)))
    | none => none
  | .unknown us => fmtDelimited o ind (fmtUnknown o k ind) us

/-- `fmt_message` (format.rs:33-58) without the expansion of Any. -/
def fmtFields (S : Schema) (o : FOpts) (k ind : Nat)
    (val : Value → Option Kind → Option (List Char)) (md : MsgDesc) (fs : FieldSet) :
    Option (List Char) :=
  match items o S md fs with
  | none => none
  | some its =>
    fmtDelimited o ind (fmtItem S o k ind val)
      (if o.skipUnknown then its.filter (fun i => !isUnknown i) else its)

/-- `fmt_message` (format.rs:33-58). -/
def fmtMsg (S : Schema) (o : FOpts) (k ind : Nat)
    (val : Value → Option Kind → Option (List Char)) (md : MsgDesc) (d : Nat) (fs : FieldSet) :
    Option (List Char) :=
  match (if o.expandAny then asAny S md ⟨d, fs⟩ else some none) with
  | none => none
  | some (some (url, body)) =>
    match val body.toValue none with
    | some s => some ('[' :: (url ++ (']' :: fieldValue o body.toValue s)))
    | none => none
  | some none => fmtFields S o k ind val md fs

/-- One map entry (format.rs:123-143). -/
def fmtEntry (o : FOpts) (ind : Nat) (val : Nat → Value → Option (List Char)) :
    MapKey × Value → Option (List Char)
  | (key, v) =>
    if o.pretty then
      (val (ind + 2) v).map (fun s =>
        '{' :: (newline (ind + 2) ++ ("key: ".toList ++ (fmtKey key ++ (newline (ind + 2) ++
          ("value".toList ++ (fieldValue o v s ++ (newline ind ++ ['}']))))))))
    else
      (val ind v).map (fun s =>
        "{key:".toList ++ (fmtKey key ++ (",value".toList ++ (fieldValue o v s ++ ['}']))))

/-- `fmt_value` (format.rs:60-146). -/
def fmtVal (env : TEnv) (S : Schema) (o : FOpts) : Nat → Nat → Value → Option Kind →
    Option (List Char)
  | 0, _, _, _ => none
  | k + 1, ind, .msg d fs, _ =>
    match S.msg? d with
    | none => none
    | some md =>
      match items o S md fs with
      | none => none
      | some its =>
        if its.all (fun i => o.skipUnknown && isUnknown i) then some ['{', '}']
        else braced o ind (fun ind => fmtMsg S o k ind (fmtVal env S o k ind) md d fs)
  | k + 1, ind, .list vs, kind => fmtList o (fun v => fmtVal env S o k ind v kind) vs
  | k + 1, ind, .map kvs, kind =>
    match mapValueKind S kind with
    | none => none
    | some vk => fmtList o (fmtEntry o ind (fun ind v => fmtVal env S o k ind v vk)) kvs
  | _ + 1, _, v, kind => fmtScalar env S kind v

/-- `to_text_format_with_options` (text_format/mod.rs), with stack depth `k`. -/
def toText (env : TEnv) (S : Schema) (o : FOpts) (k : Nat) (m : DynMsg) : Option (List Char) :=
  match S.msg? m.desc with
  | none => none
  | some md => fmtMsg S o k 0 (fmtVal env S o k 0) md m.desc m.fields

end Verif.Text
