import Verif.Text.Lex
import Verif.Text.Format
import Verif.Dyn.Api
/-!
Parsing the text format: model of `dynamic/text_format/parse/mod.rs` on the tokens of
`Verif.Text.Lex`.

`peek`/`bump` become pattern matches on the remaining tokens.  Spans and error texts are
left out.  The code recurses once per nested message without a limit; the model's
`parseMsg` takes the depth the stack allows and answers `.stack` when it is used up.
When parsing fails these functions return only the error, as `parse_text_format` does; what
`merge_text_format` leaves in the caller's message is in `Verif.Text.Left`.
-/
set_option autoImplicit false
namespace Verif.Text
open Verif.Wire Verif.Dyn Verif.Pool

/-- `ParseErrorKind` (parse/error.rs), without the payload; the last three are not errors
of the code: a panic, a stack overflow, and the model's own step bound. -/
inductive TErr where
  | lex | unexpected | fieldNotFound | extensionNotFound | messageNotFound | invalidAny
  | alreadySet | oneofSet | outOfRange | utf8 | enumValue | mapKey
  | panic | stack | fuel
  deriving DecidableEq, Repr

/-- A parser's result: a value and the remaining tokens. -/
abbrev PR (α : Type) := Except TErr (α × List LTok)

/-- `unexpected_token` (parse/mod.rs:610-621), after a `peek()?`. -/
def unexpected {α : Type} : List LTok → Except TErr α
  | .bad :: _ => .error .lex
  | .panic :: _ => .error .panic
  | _ => .error .unexpected

/-- `from_str_radix(..).ok()` into an unsigned type with the given largest value. -/
def uintRadix (max : Nat) (digits : List Char) (radix : Nat) : Option Nat :=
  match radixVal radix digits with
  | some n => if n ≤ max then some n else none
  | none => none

/-- `parse_int` (parse/mod.rs:468-481): sign, digits, radix. -/
def parseInt : List LTok → PR (Bool × List Char × Nat)
  | .tok .minus :: .tok (.int d x) :: r => .ok ((true, d, x), r)
  | .tok .minus :: r => unexpected r
  | .tok (.int d x) :: r => .ok ((false, d, x), r)
  | r => unexpected r

/-- The conversion of `parse_i32` and `parse_i64` (parse/mod.rs:358-370, 390-402), for `w`
bits. -/
def signedOf (w : Nat) (neg : Bool) (d : List Char) (x : Nat) : Option (BitVec w) :=
  if neg then
    match uintRadix (2 ^ w - 1) d x with
    | some n =>
      if n = 2 ^ (w - 1) - 1 + 1 then some (BitVec.ofNat w (2 ^ (w - 1)))
      else if n ≤ 2 ^ (w - 1) - 1 then some (-(BitVec.ofNat w n))
      else none
    | none => none
  else (uintRadix (2 ^ (w - 1) - 1) d x).map (BitVec.ofNat w)

/-- The conversion of `parse_u32` and `parse_u64` (parse/mod.rs:422-426, 446-450). -/
def unsignedOf (w : Nat) (neg : Bool) (d : List Char) (x : Nat) : Option (BitVec w) :=
  if neg then none else (uintRadix (2 ^ w - 1) d x).map (BitVec.ofNat w)

/-- `parse_i32` (parse/mod.rs:356-386) and `parse_i64` (388-418). -/
def parseSigned (w : Nat) (ts : List LTok) : PR (BitVec w) :=
  match parseInt ts with
  | .error e => .error e
  | .ok ((neg, d, x), r) =>
    match signedOf w neg d x with
    | some v => .ok (v, r)
    | none => .error .outOfRange

/-- `parse_u32` (parse/mod.rs:420-442) and `parse_u64` (444-466). -/
def parseUnsigned (w : Nat) (ts : List LTok) : PR (BitVec w) :=
  match parseInt ts with
  | .error e => .error e
  | .ok ((neg, d, x), r) =>
    match unsignedOf w neg d x with
    | some v => .ok (v, r)
    | none => .error .outOfRange

/-- `to_ascii_lowercase` of a character. -/
def asciiLower (c : Char) : Char := if inR 65 90 c then Char.ofNat (c.toNat + 32) else c

/-- `f64::INFINITY` -/
def inf64 : BitVec 64 := 0x7FF0000000000000#64
/-- `f64::NAN` -/
def nan64 : BitVec 64 := 0x7FF8000000000000#64
/-- `-value`: the sign bit is flipped. -/
def neg64 (v : BitVec 64) : BitVec 64 := v ^^^ 0x8000000000000000#64

/-- A number without its sign (parse/mod.rs:333-347). -/
def parseFloatAbs (env : TEnv) : List LTok → PR (BitVec 64)
  | .tok (.float v) :: r => .ok (v, r)
  | .tok (.int d x) :: r =>
    if x = 10 then
      match env.parse64 d with
      | some v => .ok (v, r)
      | none => .error .panic
    else .error .unexpected
  | .tok (.ident s) :: r =>
    if s.map asciiLower = "inf".toList ∨ s.map asciiLower = "infinity".toList then .ok (inf64, r)
    else if s.map asciiLower = "nan".toList then .ok (nan64, r)
    else .error .unexpected
  | r => unexpected r

/-- `parse_float` (parse/mod.rs:326-354). -/
def parseFloat (env : TEnv) : List LTok → PR (BitVec 64)
  | .tok .minus :: r =>
    match parseFloatAbs env r with
    | .ok (v, r') => .ok (neg64 v, r')
    | .error e => .error e
  | r => parseFloatAbs env r

/-- `parse_bool` (parse/mod.rs:483-506). -/
def parseBool : List LTok → PR Bool
  | .tok (.ident s) :: r =>
    if s = "false".toList ∨ s = "False".toList ∨ s = "f".toList then .ok (false, r)
    else if s = "true".toList ∨ s = "True".toList ∨ s = "t".toList then .ok (true, r)
    else .error .unexpected
  | .tok (.int d x) :: r =>
    match uintRadix 255 d x with
    | some n => if n = 1 then .ok (true, r) else if n = 0 then .ok (false, r) else .error .unexpected
    | none => .error .unexpected
  | r => unexpected r

/-- The loop over adjacent string literals (parse/mod.rs:514-517). -/
def moreStrings : List LTok → PR Bytes
  | .tok (.str b) :: r =>
    match moreStrings r with
    | .ok (bs, r') => .ok (b ++ bs, r')
    | .error e => .error e
  | .bad :: _ => .error .lex
  | .panic :: _ => .error .panic
  | r => .ok ([], r)

/-- `parse_bytes` (parse/mod.rs:508-520). -/
def parseBytes : List LTok → PR Bytes
  | .tok (.str b) :: r =>
    match moreStrings r with
    | .ok (bs, r') => .ok (b ++ bs, r')
    | .error e => .error e
  | r => unexpected r

/-- `get_value_by_name` (api.rs:1468-1478). -/
def EnumDesc.byName (e : EnumDesc) (n : Name) : Option (BitVec 32) :=
  (e.values.find? (fun p => p.1 == n)).map (·.2)

/-- `parse_enum` (parse/mod.rs:522-539). -/
def parseEnum (S : Schema) (e : Nat) : List LTok → PR (BitVec 32)
  | .tok (.ident s) :: r =>
    match S.enums[e]? with
    | none => .error .panic
    | some ed =>
      match EnumDesc.byName ed s with
      | some v => .ok (v, r)
      | none => .error .enumValue
  | .tok .minus :: r => parseSigned 32 (.tok .minus :: r)
  | .tok (.int d x) :: r => parseSigned 32 (.tok (.int d x) :: r)
  | r => unexpected r

/-- Apply a constructor to the value. -/
def mapP {α β : Type} (f : α → β) : PR α → PR β
  | .ok (a, r) => .ok (f a, r)
  | .error e => .error e

/-- `parse_value` (parse/mod.rs:273-324); `sub i` parses the value of message `i`. -/
def parseVal (env : TEnv) (S : Schema) (sub : Nat → List LTok → PR FieldSet) :
    Kind → List LTok → PR Value
  | .float, ts => mapP (fun v => .f32 (env.narrow v)) (parseFloat env ts)
  | .double, ts => mapP .f64 (parseFloat env ts)
  | .int32, ts | .sint32, ts | .sfixed32, ts => mapP .i32 (parseSigned 32 ts)
  | .int64, ts | .sint64, ts | .sfixed64, ts => mapP .i64 (parseSigned 64 ts)
  | .uint32, ts | .fixed32, ts => mapP .u32 (parseUnsigned 32 ts)
  | .uint64, ts | .fixed64, ts => mapP .u64 (parseUnsigned 64 ts)
  | .bool, ts => mapP .bool (parseBool ts)
  | .string, ts =>
    match parseBytes ts with
    | .ok (b, r) => if utf8Valid b then .ok (.str b, r) else .error .utf8
    | .error e => .error e
  | .bytes, ts => mapP .bytes (parseBytes ts)
  | .message i, ts => mapP (.msg i) (sub i ts)
  | .enum e, ts => mapP .enum (parseEnum S e ts)

/-- The loop of `parse_repeated_value` (parse/mod.rs:255-267). -/
def listTail (pv : List LTok → PR Value) : Nat → List LTok → PR (List Value)
  | 0, _ => .error .fuel
  | n + 1, .tok .comma :: r =>
    match pv r with
    | .error e => .error e
    | .ok (v, r') =>
      match listTail pv n r' with
      | .error e => .error e
      | .ok (vs, r'') => .ok (v :: vs, r'')
  | _ + 1, .tok .rbracket :: r => .ok ([], r)
  | _ + 1, r => unexpected r

/-- `parse_repeated_value` (parse/mod.rs:240-271): the values, one if there are no brackets
(both callers treat a bare value like a list of one). -/
def parseRep (pv : List LTok → PR Value) : List LTok → PR (List Value)
  | .tok .lbracket :: .tok .rbracket :: r => .ok ([], r)
  | .tok .lbracket :: r =>
    match pv r with
    | .error e => .error e
    | .ok (v, r') =>
      match listTail pv (r.length + 1) r' with
      | .error e => .error e
      | .ok (vs, r'') => .ok (v :: vs, r'')
  | r => mapP (fun v => [v]) (pv r)

/-- `msg.get_field_by_number(n).unwrap()` on a map entry; `none` is a panic. -/
def entryGet (S : Schema) (i n : Nat) (fs : FieldSet) : Option Value :=
  match S.field? i n with
  | some f => FieldSet.get S fs f
  | none => none

/-- `unpack` (parse/mod.rs:185-202). -/
def unpack (S : Schema) (i : Nat) : Value → Except TErr (MapKey × Value)
  | .msg _ fs =>
    match entryGet S i 1 fs with
    | none => .error .panic
    | some k =>
      match k.toMapKey with
      | none => .error .mapKey
      | some key =>
        match entryGet S i 2 fs with
        | none => .error .panic
        | some v => .ok (key, v)
  | _ => .error .panic

/-- Unpack the parsed map entries and insert them one by one (parse/mod.rs:206-214). -/
def insertEntries (S : Schema) (i : Nat) : List (MapKey × Value) → List Value →
    Except TErr (List (MapKey × Value))
  | kvs, [] => .ok kvs
  | kvs, v :: r =>
    match unpack S i v with
    | .error e => .error e
    | .ok (key, w) => insertEntries S i (KMap.insert key w kvs) r

/-- Is any of these fields present? `none` is a panic. -/
def anyHas (S : Schema) (fs : FieldSet) : List FieldDesc → Option Bool
  | [] => some false
  | f :: r =>
    match FieldSet.has S fs f with
    | none => none
    | some true => some true
    | some false => anyHas S fs r

/-- The members of the field's oneof (`oneof.fields()`; an extension has none). -/
def oneofMembers (md : MsgDesc) (f : FieldDesc) : List FieldDesc :=
  match f.oneof with
  | none => []
  | some o => md.fields.filter (fun g => g.oneof == some o)

/-- `parse_field_value` (parse/mod.rs:170-238). `sib` and `mem` are the other members and
all members of the field's oneof. -/
def parseFieldValue (env : TEnv) (S : Schema) (sub : Nat → List LTok → PR FieldSet)
    (sib : List Nat) (mem : List FieldDesc) (f : FieldDesc) (fs : FieldSet) (ts : List LTok) :
    PR FieldSet :=
  if isList S f then
    match parseRep (parseVal env S sub f.kind) ts with
    | .error e => .error e
    | .ok (vs, r) =>
      match FieldSet.getMut S sib fs f with
      | some (fs', .list ws) => .ok (FieldSet.write f (.list (ws ++ vs)) fs', r)
      | _ => .error .panic
  else if isMap S f then
    match parseRep (parseVal env S sub f.kind) ts with
    | .error e => .error e
    | .ok (vs, r) =>
      match FieldSet.getMut S sib fs f, f.kind with
      | some (fs', .map kvs), .message i =>
        match insertEntries S i kvs vs with
        | .error e => .error e
        | .ok kvs' => .ok (FieldSet.write f (.map kvs') fs', r)
      | _, _ => .error .panic
  else
    match parseVal env S sub f.kind ts with
    | .error e => .error e
    | .ok (v, r) =>
      match FieldSet.has S fs f with
      | none => .error .panic
      | some true => .error .alreadySet
      | some false =>
        match anyHas S fs mem with
        | none => .error .panic
        | some true => .error .oneofSet
        | some false => .ok (FieldSet.set sib fs f v, r)

/-- The loop of `parse_full_ident` (parse/mod.rs:548-568). -/
def fullIdentLoop (terms : List Tok) (acc : List Char) : List LTok → PR (List Char)
  | .tok .dot :: .tok (.ident s) :: r => fullIdentLoop terms (acc ++ ('.' :: s)) r
  | .tok .dot :: r => unexpected r
  | .tok t :: r => if terms.contains t then .ok (acc, .tok t :: r) else .error .unexpected
  | r => unexpected r

/-- `parse_full_ident` (parse/mod.rs:541-569). -/
def parseFullIdent (terms : List Tok) : List LTok → PR (List Char)
  | .tok (.ident s) :: r => fullIdentLoop terms s r
  | r => unexpected r

/-- `FieldName` (parse/mod.rs:26-30). -/
inductive FName where
  | ident (n : List Char)
  | ext (n : List Char)
  | any (domain name : List Char)

/-- `parse_field_name` (parse/mod.rs:140-168). -/
def parseFieldName : List LTok → PR FName
  | .tok (.ident s) :: r => .ok (.ident s, r)
  | .tok .lbracket :: r =>
    match parseFullIdent [.rbracket, .slash] r with
    | .error e => .error e
    | .ok (n, .tok .rbracket :: r') => .ok (.ext n, r')
    | .ok (n, .tok .slash :: r') =>
      match parseFullIdent [.rbracket] r' with
      | .error e => .error e
      | .ok (t, .tok .rbracket :: r'') => .ok (.any n t, r'')
      | .ok (_, r'') => unexpected r''
    | .ok (_, r') => unexpected r'
  | r => unexpected r

/-- The colon, optional before a message value (parse/mod.rs:72-78). -/
def parseColon : List LTok → Except TErr (List LTok)
  | .tok .colon :: r => .ok r
  | .tok .lbrace :: r => .ok (.tok .lbrace :: r)
  | .tok .langle :: r => .ok (.tok .langle :: r)
  | r => unexpected r

/-- `find_field` (parse/mod.rs:624-638). The `unwrap` on a group that is not a message is
a panic: the outer `none`. -/
def findField (S : Schema) (md : MsgDesc) (n : Name) : Option (Option FieldDesc) :=
  match (md.getFieldByName n).filter (fun f => !f.group) with
  | some f => some (some f)
  | none =>
    match (md.getFieldByName (n.map asciiLower)).filter (·.group) with
    | some f =>
      match fieldLabel S f with
      | none => none
      | some l => if n = l then some (some f) else some none
    | none => some none

/-- `get_extension_by_full_name` (api.rs:953-955). An extension's `name` is its full name. -/
def MsgDesc.extByName (md : MsgDesc) (n : Name) : Option FieldDesc :=
  md.extensions.find? (fun f => f.name == n)

/-- The `Any` case of `parse_field` (parse/mod.rs:104-130). -/
def parseAny (S : Schema) (sub : Nat → List LTok → PR FieldSet) (md : MsgDesc) (d : Nat)
    (domain name : List Char) (fs : FieldSet) (ts : List LTok) : PR FieldSet :=
  match Schema.msgByName S name with
  | none => .error .messageNotFound
  | some i =>
    match sub i ts with
    | .error e => .error e
    | .ok (body, r) =>
      match encMsg S ⟨i, body⟩ with
      | none => .error .panic
      | some b =>
        if md.name ≠ anyName then .error .invalidAny
        else
          match DynMsg.trySetByNumber S md ⟨d, fs⟩ 1 (.str (utf8Encode (domain ++ '/' :: name))) with
          | none => .error .panic
          | some (_, .error _) => .error .invalidAny
          | some (m1, .ok ()) =>
            match DynMsg.trySetByNumber S md m1 2 (.bytes b) with
            | none => .error .panic
            | some (_, .error _) => .error .invalidAny
            | some (m2, .ok ()) => .ok (m2.fields, r)

/-- The optional separator after a field (parse/mod.rs:133-135). -/
def parseSep (fs : FieldSet) : List LTok → PR FieldSet
  | .tok .comma :: r => .ok (fs, r)
  | .tok .semicolon :: r => .ok (fs, r)
  | .bad :: _ => .error .lex
  | .panic :: _ => .error .panic
  | r => .ok (fs, r)

/-- The value of a field after its name and colon (parse/mod.rs:80-131). -/
def parseNamed (env : TEnv) (S : Schema) (sub : Nat → List LTok → PR FieldSet) (md : MsgDesc)
    (d : Nat) (name : FName) (fs : FieldSet) (ts : List LTok) : PR FieldSet :=
  match name with
  | .ident n =>
    match findField S md n with
    | none => .error .panic
    | some none => .error .fieldNotFound
    | some (some f) => parseFieldValue env S sub (siblings md f) (oneofMembers md f) f fs ts
  | .ext n =>
    match MsgDesc.extByName md n with
    | none => .error .extensionNotFound
    | some f => parseFieldValue env S sub [] [] f fs ts
  | .any domain n => parseAny S sub md d domain n fs ts

/-- `parse_field` (parse/mod.rs:69-138). -/
def parseField (env : TEnv) (S : Schema) (sub : Nat → List LTok → PR FieldSet) (md : MsgDesc)
    (d : Nat) (fs : FieldSet) (ts : List LTok) : PR FieldSet :=
  match parseFieldName ts with
  | .error e => .error e
  | .ok (name, r) =>
    match parseColon r with
    | .error e => .error e
    | .ok r' =>
      match parseNamed env S sub md d name fs r' with
      | .error e => .error e
      | .ok (fs', r'') => parseSep fs' r''

/-- The tokens a field starts with (parse/mod.rs:60). -/
def startsField : Tok → Bool
  | .ident _ => true
  | .lbracket => true
  | _ => false

/-- The loop of `parse_message_value` (parse/mod.rs:57-66). -/
def bodyLoop (pf : FieldSet → List LTok → PR FieldSet) (term : Tok) : Nat → FieldSet →
    List LTok → PR FieldSet
  | 0, _, _ => .error .fuel
  | n + 1, fs, .tok t :: r =>
    if startsField t then
      match pf fs (.tok t :: r) with
      | .error e => .error e
      | .ok (fs', r') => bodyLoop pf term n fs' r'
    else if t = term then .ok (fs, r)
    else .error .unexpected
  | _ + 1, _, r => unexpected r

/-- `parse_message_value` (parse/mod.rs:47-67) into an empty message. -/
def parseMsg (env : TEnv) (S : Schema) : Nat → Nat → List LTok → PR FieldSet
  | 0, _, _ => .error .stack
  | k + 1, i, ts =>
    match S.msg? i with
    | none => .error .panic
    | some md =>
      match ts with
      | .tok .lbrace :: r =>
        bodyLoop (parseField env S (parseMsg env S k) md i) .rbrace (r.length + 1) [] r
      | .tok .langle :: r =>
        bodyLoop (parseField env S (parseMsg env S k) md i) .rangle (r.length + 1) [] r
      | r => unexpected r

/-- The loop of `parse_message` (parse/mod.rs:40-45). -/
def topLoop (pf : FieldSet → List LTok → PR FieldSet) : Nat → FieldSet → List LTok →
    Except TErr FieldSet
  | _, fs, [] => .ok fs
  | 0, _, _ => .error .fuel
  | n + 1, fs, ts =>
    match pf fs ts with
    | .error e => .error e
    | .ok (fs', r) => topLoop pf n fs' r

/-- `merge_text_format` (text_format/mod.rs) on tokens. -/
def mergeToks (env : TEnv) (S : Schema) (k : Nat) (m : DynMsg) (ts : List LTok) :
    Except TErr DynMsg :=
  match S.msg? m.desc with
  | none => .error .panic
  | some md =>
    match topLoop (parseField env S (parseMsg env S k) md m.desc) ts.length m.fields ts with
    | .error e => .error e
    | .ok fs => .ok ⟨m.desc, fs⟩

/-- `merge_text_format` (text_format/mod.rs), with stack depth `k`. -/
def mergeText (env : TEnv) (S : Schema) (k : Nat) (m : DynMsg) (text : List Char) :
    Except TErr DynMsg :=
  mergeToks env S k m (lex env.parse64 text)

/-- `parse_text_format` (text_format/mod.rs). -/
def parseText (env : TEnv) (S : Schema) (k : Nat) (desc : Nat) (text : List Char) :
    Except TErr DynMsg :=
  mergeText env S k (DynMsg.empty desc) text

end Verif.Text
