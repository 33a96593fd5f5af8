import Verif.Json.Env
/-!
Messages to JSON: model of `dynamic/serde/ser`.  The first numeric argument is the depth of
recursion the stack allows.
-/
set_option autoImplicit false
namespace Verif.Json
open Verif.Wire Verif.Dyn Verif.Pool

/-- Apply `f` in order; the first failure is the result. -/
def mapE {α β : Type} (f : α → Except JErr β) : List α → Except JErr (List β)
  | [] => .ok []
  | a :: r =>
    match f a with
    | .error e => .error e
    | .ok b =>
      match mapE f r with
      | .error e => .error e
      | .ok bs => .ok (b :: bs)

/-- `f32::is_finite` -/
def finite32 (x : BitVec 32) : Bool := decide (x.toNat % 2 ^ 31 < 0x7F800000)

/-- `"Infinity"`, `"-Infinity"`, `"NaN"`. -/
def infText : List Char := "Infinity".toList
/-- `"-Infinity"` -/
def ninfText : List Char := "-Infinity".toList
/-- `"NaN"` -/
def nanText : List Char := "NaN".toList

/-- A `float` field (ser/mod.rs:119-130). -/
def serF32 (env : JEnv) (v : BitVec 32) : Json :=
  if finite32 v then .float (env.widen v)
  else if v = 0x7F800000#32 then .str infText
  else if v = 0xFF800000#32 then .str ninfText
  else .str nanText

/-- A `double` field (ser/mod.rs:131-142). -/
def serF64 (v : BitVec 64) : Json :=
  if finite64 v then .float v
  else if v = 0x7FF0000000000000#64 then .str infText
  else if v = 0xFFF0000000000000#64 then .str ninfText
  else .str nanText

/-- An `int64` (ser/mod.rs:103-109, ser/wkt.rs:151-168). -/
def serI64 (o : SOpts) (v : BitVec 64) : Json :=
  if o.stringify64 then .str (decInt v.toInt) else .ofInt v.toInt

/-- A `uint64` (ser/mod.rs:111-117, ser/wkt.rs:183-200). -/
def serU64 (o : SOpts) (v : BitVec 64) : Json :=
  if o.stringify64 then .str (decDigits v.toNat) else .uint v

/-- `serialize_f64`: `serde_json` writes `null` for what is not finite. -/
def rawF64 (v : BitVec 64) : Json := if finite64 v then .float v else .null
/-- `serialize_f32`. -/
def rawF32 (env : JEnv) (v : BitVec 32) : Json := if finite32 v then .float (env.widen v) else .null

/-- An enum value (ser/mod.rs:147-166). -/
def serEnum (env : JEnv) (S : Schema) (o : SOpts) (kind : Kind) (v : BitVec 32) : Except JErr Json :=
  match kind with
  | .enum e =>
    match S.enums[e]? with
    | none => .error .panic
    | some ed =>
      if ed.name = nullName then .ok .null
      else if o.enumNumbers then .ok (.ofInt v.toInt)
      else
        match env.enumName ed v with
        | some n => .ok (.str n)
        | none => .ok (.ofInt v.toInt)
  | _ => .error .panic

/-- The scalar cases (ser/mod.rs:100-166). -/
def serScalar (env : JEnv) (S : Schema) (o : SOpts) (kind : Kind) : Value → Except JErr Json
  | .bool b => .ok (.bool b)
  | .i32 v => .ok (.ofInt v.toInt)
  | .i64 v => .ok (serI64 o v)
  | .u32 v => .ok (.uint (v.setWidth 64))
  | .u64 v => .ok (serU64 o v)
  | .f32 v => .ok (serF32 env v)
  | .f64 v => .ok (serF64 v)
  | .str b => (strOf b).map .str
  | .bytes b => .ok (.str (b64Enc b64Std b))
  | .enum v => serEnum env S o kind v
  | _ => .error .panic

/-- A map key (ser/mod.rs:214-228). -/
def serKey : MapKey → Except JErr (List Char)
  | .bool b => .ok (Text.showBool b)
  | .i32 v => .ok (decInt v.toInt)
  | .i64 v => .ok (decInt v.toInt)
  | .u32 v => .ok (decDigits v.toNat)
  | .u64 v => .ok (decDigits v.toNat)
  | .str b => strOf b

/-- The kind of the values of a map field (ser/mod.rs:183-191). -/
def mapKind (S : Schema) : Kind → Except JErr Kind
  | .message i =>
    if S.isMapEntry i then
      match S.field? i 2 with
      | some f => .ok f.kind
      | none => .error .panic
    else .error .panic
  | _ => .error .panic

/-- A map entry (ser/mod.rs:193-209). -/
def serEntry (val : Value → Except JErr Json) (p : MapKey × Value) : Except JErr (List Char × Json) :=
  match serKey p.1 with
  | .error e => .error e
  | .ok k =>
    match val p.2 with
    | .error e => .error e
    | .ok j => .ok (k, j)

/-- The key of a field in the object (ser/mod.rs:62-69). -/
def fieldKey (o : SOpts) (f : FieldDesc) : Name := if o.protoNames then f.name else f.jsonName

/-- One item (ser/mod.rs:60-84); unknown fields are left out. -/
def serItem (o : SOpts) (val : Kind → Value → Except JErr Json) : Item →
    Except JErr (Option (List Char × Json))
  | .field f v => (val f.kind v).map (fun j => some (fieldKey o f, j))
  | .ext f v => (val f.kind v).map (fun j => some (f.jsonName, j))
  | .unknown _ => .ok none

/-- `serialize_dynamic_message_fields` (ser/mod.rs:47-88). -/
def serFields (S : Schema) (o : SOpts) (val : Kind → Value → Except JErr Json) (md : MsgDesc)
    (fs : FieldSet) : Except JErr (List (List Char × Json)) :=
  match iter S md (!o.skipDefault) fs with
  | none => .error .panic
  | some its => (mapE (serItem o val) its).map (fun es => es.filterMap id)

/-! ### Well-known types -/

/-- Entries in the order of a `BTreeMap`. -/
def sortKeys {α : Type} (es : List (List Char × α)) : List (List Char × α) :=
  es.foldl (fun acc p => putSorted p.1 p.2 acc) []

/-- An entry of `Struct.fields`. -/
def stdEntry (val : Value → Except JErr Json) (p : MapKey × Value) : Except JErr (List Char × Json) :=
  match p.1 with
  | .str b =>
    match strOf b with
    | .error e => .error e
    | .ok k =>
      match val p.2 with
      | .error e => .error e
      | .ok j => .ok (k, j)
  | _ => .error .panic

/-- `serialize_struct_inner` (ser/wkt.rs:338-351). -/
def serStruct (val : Value → Except JErr Json) (fs : FieldSet) : Except JErr Json :=
  match FieldSet.getValue fs 1 with
  | some (.map kvs) => (mapE (stdEntry val) kvs).map (fun es => .obj (sortKeys es))
  | _ => .ok (.obj [])

/-- `serialize_list_inner` (ser/wkt.rs:353-366). -/
def serList (val : Value → Except JErr Json) (fs : FieldSet) : Except JErr Json :=
  match FieldSet.getValue fs 1 with
  | some (.list vs) => (mapE val vs).map .arr
  | _ => .ok (.arr [])

/-- `serialize_value_inner` (ser/wkt.rs:307-336): the fields of a `Value` are a oneof. -/
def serValue : Nat → Value → Except JErr Json
  | 0, _ => .error .stack
  | k + 1, .msg _ fs =>
    match FieldSet.getValue fs 2, FieldSet.getValue fs 3, FieldSet.getValue fs 4,
      FieldSet.getValue fs 5, FieldSet.getValue fs 6 with
    | some (.f64 v), _, _, _, _ => if finite64 v then .ok (.float v) else .error .err
    | _, some (.str b), _, _, _ => (strOf b).map .str
    | _, _, some (.bool b), _, _ => .ok (.bool b)
    | _, _, _, some (.msg _ gs), _ => serStruct (serValue k) gs
    | _, _, _, _, some (.msg _ gs) => serList (serValue k) gs
    | _, _, _, _, _ => .ok .null
  | _ + 1, _ => .error .panic

/-- An `i64` field of a standard message, zero when not set. -/
def stdI64 (fs : FieldSet) (n : Nat) : BitVec 64 :=
  match FieldSet.getValue fs n with
  | some (.i64 v) => v
  | _ => 0
/-- An `i32` field. -/
def stdI32 (fs : FieldSet) (n : Nat) : BitVec 32 :=
  match FieldSet.getValue fs n with
  | some (.i32 v) => v
  | _ => 0
/-- A `u64` field. -/
def stdU64 (fs : FieldSet) (n : Nat) : BitVec 64 :=
  match FieldSet.getValue fs n with
  | some (.u64 v) => v
  | _ => 0
/-- A `u32` field. -/
def stdU32 (fs : FieldSet) (n : Nat) : BitVec 32 :=
  match FieldSet.getValue fs n with
  | some (.u32 v) => v
  | _ => 0
/-- An `f64` field. -/
def stdF64 (fs : FieldSet) (n : Nat) : BitVec 64 :=
  match FieldSet.getValue fs n with
  | some (.f64 v) => v
  | _ => 0
/-- An `f32` field. -/
def stdF32 (fs : FieldSet) (n : Nat) : BitVec 32 :=
  match FieldSet.getValue fs n with
  | some (.f32 v) => v
  | _ => 0
/-- A `bool` field. -/
def stdBool (fs : FieldSet) (n : Nat) : Bool :=
  match FieldSet.getValue fs n with
  | some (.bool v) => v
  | _ => false
/-- A `string` field. -/
def stdStr (fs : FieldSet) (n : Nat) : Bytes :=
  match FieldSet.getValue fs n with
  | some (.str v) => v
  | _ => []
/-- A `bytes` field. -/
def stdBytes (fs : FieldSet) (n : Nat) : Bytes :=
  match FieldSet.getValue fs n with
  | some (.bytes v) => v
  | _ => []
/-- The elements of a repeated field. -/
def stdList (fs : FieldSet) (n : Nat) : List Value :=
  match FieldSet.getValue fs n with
  | some (.list vs) => vs
  | _ => []

/-- The string in an element of `FieldMask.paths`. -/
def strVal : Value → Except JErr (List Char)
  | .str b => strOf b
  | _ => .error .panic

/-- `"@type"` -/
def typeKey : List Char := "@type".toList
/-- `"value"` -/
def valueKey : List Char := "value".toList

/-- `serialize_any` (ser/wkt.rs:51-95). -/
def serAny (S : Schema) (o : SOpts) (val : Kind → Value → Except JErr Json) (m : DynMsg) :
    Except JErr Json :=
  match transcodeTo S .any m with
  | .error e => .error e
  | .ok raw =>
    match strOf (stdStr raw 1) with
    | .error e => .error e
    | .ok url =>
      match Text.urlName url with
      | none => .error .err
      | some n =>
        match Text.Schema.msgByName S n with
        | none => .error .err
        | some d =>
          match ofDecode (decode S d (stdBytes raw 2)) with
          | .error e => .error e
          | .ok p =>
            if (wkt? n).isSome then
              (val (.message d) p.toValue).map (fun j => .obj [(typeKey, .str url), (valueKey, j)])
            else
              match S.msg? d with
              | none => .error .panic
              | some md => (serFields S o val md p.fields).map (fun es => .obj ((typeKey, .str url) :: es))

/-- The other well-known types (ser/wkt.rs:97-366), given the fields of the standard message. -/
def serStd (env : JEnv) (o : SOpts) (k : Nat) (fs : FieldSet) : Wkt → Except JErr Json
  | .any => .error .panic
  | .timestamp =>
    if checkTimestamp (stdI64 fs 1) (stdI32 fs 2) then .ok (.str (env.showTime (stdI64 fs 1) (stdI32 fs 2)))
    else .error .err
  | .duration =>
    if checkDuration (stdI64 fs 1) (stdI32 fs 2) then .ok (.str (env.showDur (stdI64 fs 1) (stdI32 fs 2)))
    else .error .err
  | .float => .ok (rawF32 env (stdF32 fs 1))
  | .double => .ok (rawF64 (stdF64 fs 1))
  | .int32 => .ok (.ofInt (stdI32 fs 1).toInt)
  | .int64 => .ok (serI64 o (stdI64 fs 1))
  | .uint32 => .ok (.uint ((stdU32 fs 1).setWidth 64))
  | .uint64 => .ok (serU64 o (stdU64 fs 1))
  | .bool => .ok (.bool (stdBool fs 1))
  | .string => (strOf (stdStr fs 1)).map .str
  | .bytes => .ok (.str (b64Enc b64Std (stdBytes fs 1)))
  | .fieldMask =>
    match mapE strVal (stdList fs 1) with
    | .error e => .error e
    | .ok ps =>
      match serMask ps with
      | some s => .ok (.str s)
      | none => .error .err
  | .empty => .ok (.obj [])
  | .struct => serStruct (serValue k) fs
  | .list => serList (serValue k) fs
  | .value => serValue (k + 1) (.msg Wkt.value.std fs)

/-- `Serialize` of a message (ser/mod.rs:32-45); `val` serializes the values inside. -/
def serMsg (env : JEnv) (S : Schema) (o : SOpts) (k : Nat) (val : Kind → Value → Except JErr Json)
    (m : DynMsg) : Except JErr Json :=
  match S.msg? m.desc with
  | none => .error .panic
  | some md =>
    match wkt? md.name with
    | some .any => serAny S o val m
    | some .empty => .ok (.obj [])
    | some w =>
      match transcodeTo S w m with
      | .error e => .error e
      | .ok fs => serStd env o k fs w
    | none => (serFields S o val md m.fields).map .obj

/-- `Serialize` of a value (ser/mod.rs:95-212). -/
def serVal (env : JEnv) (S : Schema) (o : SOpts) : Nat → Kind → Value → Except JErr Json
  | 0, _, _ => .error .stack
  | k + 1, _, .msg d fs => serMsg env S o k (serVal env S o k) ⟨d, fs⟩
  | k + 1, kind, .list vs => (mapE (serVal env S o k kind) vs).map .arr
  | k + 1, kind, .map kvs =>
    match mapKind S kind with
    | .error e => .error e
    | .ok vk => (mapE (serEntry (serVal env S o k vk)) kvs).map .obj
  | _ + 1, kind, v => serScalar env S o kind v

/-- `DynamicMessage::serialize_with_options` (serde/mod.rs), with stack depth `k`. -/
def toJson (env : JEnv) (S : Schema) (o : SOpts) (k : Nat) (m : DynMsg) : Except JErr Json :=
  serMsg env S o k (serVal env S o k) m

end Verif.Json
