import Verif.Json.Ser
/-!
JSON to messages: model of `dynamic/serde/de`.  The first numeric argument is the depth of
recursion the stack allows.
-/
set_option autoImplicit false
namespace Verif.Json
open Verif.Wire Verif.Dyn Verif.Pool

/-- `f32::MAX as f64`, in units. -/
def maxF32 : Nat := units 0x47EFFFFFE0000000#64

/-- `v < f32::MIN as f64 || v > f32::MAX as f64`: false for a NaN, true for an infinity. -/
def outOfF32 (v : BitVec 64) : Bool :=
  if finite64 v then decide (maxF32 < units v) else manBits v == 0

/-- `DoubleVisitor` (kind.rs:143-188). -/
def visitDouble (env : JEnv) : Json → Except JErr (BitVec 64)
  | .float v => .ok v
  | .sint v => .ok (env.ofI64 v)
  | .uint v => .ok (env.ofU64 v)
  | .str s =>
    match env.parse64 s with
    | some v => .ok v
    | none =>
      if s = infText then .ok 0x7FF0000000000000#64
      else if s = ninfText then .ok 0xFFF0000000000000#64
      else if s = nanText then .ok 0x7FF8000000000000#64
      else .error .err
  | _ => .error .err

/-- `FloatVisitor` (kind.rs:190-251). -/
def visitFloat (env : JEnv) : Json → Except JErr (BitVec 32)
  | .float v => if outOfF32 v then .error .err else .ok (env.narrow v)
  | .sint v => .ok (env.ofI64s v)
  | .uint v => .ok (env.ofU64s v)
  | .str s =>
    match env.parse32 s with
    | some v => .ok v
    | none =>
      if s = infText then .ok 0x7F800000#32
      else if s = ninfText then .ok 0xFF800000#32
      else if s = nanText then .ok 0x7FC00000#32
      else .error .err
  | _ => .error .err

/-- `BoolVisitor` (kind.rs:481-495). -/
def visitBool : Json → Except JErr Bool
  | .bool b => .ok b
  | _ => .error .err

/-- `StringVisitor` (kind.rs:457-479). -/
def visitString : Json → Except JErr Bytes
  | .str s => .ok (utf8Encode s)
  | _ => .error .err

/-- `BytesVisitor` (kind.rs:497-537). -/
def visitBytes : Json → Except JErr Bytes
  | .str s => visitBytesStr s
  | _ => .error .err

/-- `KindSeed` for scalar kinds (kind.rs:23-51). -/
def deScalar (env : JEnv) (k : Kind) (j : Json) : Except JErr Value :=
  match k with
  | .double => (visitDouble env j).map .f64
  | .float => (visitFloat env j).map .f32
  | .int32 | .sint32 | .sfixed32 => (visitI32 j).map .i32
  | .int64 | .sint64 | .sfixed64 => (visitI64 j).map .i64
  | .uint32 | .fixed32 => (visitU32 j).map .u32
  | .uint64 | .fixed64 => (visitU64 j).map .u64
  | .bool => (visitBool j).map .bool
  | .string => (visitString j).map .str
  | .bytes => (visitBytes j).map .bytes
  | .message _ | .enum _ => .error .panic

/-- `"NULL_VALUE"` -/
def nullValueText : List Char := "NULL_VALUE".toList

/-- `GoogleProtobufNullVisitor` (de/wkt.rs:102-131). -/
def visitNull (o : DOpts) : Json → Except JErr (Option (BitVec 32))
  | .null => .ok (some 0)
  | .str s =>
    if s = nullValueText then .ok (some 0)
    else if o.deny then .error .err
    else .ok none
  | _ => .error .err

/-- `get_value_by_name` (api.rs:1466-1479). -/
def enumNumber (ed : EnumDesc) (n : Name) : Option (BitVec 32) :=
  (ed.values.find? (fun p => p.1 == n)).map (·.2)

/-- `EnumVisitor` (kind.rs:606-655). -/
def visitEnum (o : DOpts) (ed : EnumDesc) : Json → Except JErr (Option (BitVec 32))
  | .str s =>
    match enumNumber ed s with
    | some v => .ok (some v)
    | none => if o.deny then .error .err else .ok none
  | .uint v => (tryInto (-2 ^ 31) (2 ^ 31 - 1) v.toNat).map (fun v => some (BitVec.ofInt 32 v))
  | .sint v => (tryInto (-2 ^ 31) (2 ^ 31 - 1) v.toInt).map (fun v => some (BitVec.ofInt 32 v))
  | _ => .error .err

/-- `deserialize_enum` (de/mod.rs:78-92). -/
def deEnum (S : Schema) (o : DOpts) (e : Nat) (j : Json) : Except JErr (Option Value) :=
  match S.enums[e]? with
  | none => .error .panic
  | some ed =>
    (if ed.name = nullName then visitNull o j else visitEnum o ed j).map (fun v => v.map .enum)

/-! ### Well-known types -/

mutual
/-- A value as `serde_value` keeps it: objects become `BTreeMap`s. -/
def norm : Json → Json
  | .arr xs => .arr (normList xs)
  | .obj es => .obj (normObj [] es)
  | j => j
/-- The elements of an array. -/
def normList : List Json → List Json
  | [] => []
  | j :: r => norm j :: normList r
/-- The entries of an object, inserted one after the other. -/
def normObj (acc : List (List Char × Json)) : List (List Char × Json) → List (List Char × Json)
  | [] => acc
  | (k, j) :: r => normObj (putSorted k (norm j) acc) r
end

/-- A `Value` with one member of its oneof set. -/
def stdValue (n : Nat) (v : Value) : Value := .msg Wkt.value.std [(n, .val v)]

/-- `fields.insert` of the struct visitor (de/wkt.rs:237-244). -/
def stdPairs (f : Json → Except JErr Value) (acc : List (List Char × Value)) :
    List (List Char × Json) → Except JErr (List (List Char × Value))
  | [] => .ok acc
  | (k, j) :: r =>
    match f j with
    | .error e => .error e
    | .ok v => stdPairs f (putSorted k v acc) r

/-- `GoogleProtobufStructVisitor` (de/wkt.rs:230-250): the fields of the `Struct`. -/
def deStruct (f : Json → Except JErr Value) : Json → Except JErr FieldSet
  | .obj es =>
    (stdPairs f [] es).map (fun kvs => [(1, .val (.map (kvs.map (fun p => (.str (utf8Encode p.1), p.2)))))])
  | _ => .error .err

/-- `GoogleProtobufListVisitor` (de/wkt.rs:211-228): the fields of the `ListValue`. -/
def deList (f : Json → Except JErr Value) : Json → Except JErr FieldSet
  | .arr xs => (mapE f xs).map (fun vs => [(1, .val (.list vs))])
  | _ => .error .err

/-- `GoogleProtobufValueVisitor` (de/wkt.rs:252-337): a `Value` message. -/
def deValue (env : JEnv) : Nat → Json → Except JErr Value
  | 0, _ => .error .stack
  | _ + 1, .null => .ok (stdValue 1 (.enum 0))
  | _ + 1, .bool b => .ok (stdValue 4 (.bool b))
  | _ + 1, .uint v => .ok (stdValue 2 (.f64 (env.ofU64 v)))
  | _ + 1, .sint v => .ok (stdValue 2 (.f64 (env.ofI64 v)))
  | _ + 1, .float v => .ok (stdValue 2 (.f64 v))
  | _ + 1, .str s => .ok (stdValue 3 (.str (utf8Encode s)))
  | k + 1, .arr xs => (deList (deValue env k) (.arr xs)).map (fun fs => stdValue 6 (.msg Wkt.list.std fs))
  | k + 1, .obj es => (deStruct (deValue env k) (.obj es)).map (fun fs => stdValue 5 (.msg Wkt.struct.std fs))

/-- A message with the field 1 set. -/
def one1 (v : Value) : FieldSet := [(1, .val v)]

/-- The fields of a `Timestamp` or `Duration`. -/
def secNanos (p : BitVec 64 × BitVec 32) : FieldSet := [(1, .val (.i64 p.1)), (2, .val (.i32 p.2))]

/-- The fields of `Value`, from the message. -/
def fieldsOf : Value → Except JErr FieldSet
  | .msg _ fs => .ok fs
  | _ => .error .panic

/-- The well-known types other than `Any` (de/mod.rs:34-73): the fields of the standard
message. -/
def deStd (env : JEnv) (k : Nat) (j : Json) : Wkt → Except JErr FieldSet
  | .any => .error .panic
  | .timestamp =>
    match j with
    | .str s =>
      if rfc3339 (utf8Encode s) then
        match env.parseTime s with
        | some p => if checkTimestamp p.1 p.2 then .ok (secNanos p) else .error .err
        | none => .error .err
      else .error .err
    | _ => .error .err
  | .duration =>
    match j with
    | .str s =>
      match env.parseDur s with
      | some p => if checkDuration p.1 p.2 then .ok (secNanos p) else .error .err
      | none => .error .err
    | _ => .error .err
  | .float => (visitFloat env j).map (fun v => one1 (.f32 v))
  | .double => (visitDouble env j).map (fun v => one1 (.f64 v))
  | .int32 => (visitI32 j).map (fun v => one1 (.i32 v))
  | .int64 => (visitI64 j).map (fun v => one1 (.i64 v))
  | .uint32 => (visitU32 j).map (fun v => one1 (.u32 v))
  | .uint64 => (visitU64 j).map (fun v => one1 (.u64 v))
  | .bool => (visitBool j).map (fun v => one1 (.bool v))
  | .string => (visitString j).map (fun v => one1 (.str v))
  | .bytes => (visitBytes j).map (fun v => one1 (.bytes v))
  | .fieldMask =>
    match j with
    | .str s =>
      match deMask s with
      | some ps => .ok (one1 (.list (ps.map (fun p => .str (utf8Encode p)))))
      | none => .error .err
    | _ => .error .err
  | .struct => deStruct (deValue env k) j
  | .list => deList (deValue env k) j
  | .value =>
    match deValue env (k + 1) j with
    | .error e => .error e
    | .ok v => fieldsOf v
  | .empty =>
    match j with
    | .obj [] => .ok []
    | _ => .error .err

/-! ### Messages -/

/-- The field a key names (kind.rs:572-575). -/
def keyField (md : MsgDesc) (key : Name) : Option FieldDesc :=
  match md.fields.find? (fun f => f.jsonName == key) with
  | some f => some f
  | none => md.getFieldByName key

/-- The extension a key names (`get_extension_by_json_name`, api.rs:958-960). -/
def keyExt (md : MsgDesc) (key : Name) : Option FieldDesc :=
  md.extensions.find? (fun f => f.jsonName == key)

/-- `visit_none` (de/mod.rs:168-186). -/
def deNull (S : Schema) (f : FieldDesc) : Except JErr (Option Value) :=
  match f.kind with
  | .message d =>
    match S.msg? d with
    | none => .error .panic
    | some md =>
      if md.name = Wkt.value.name then
        (makeMsg S d .value (one1 (.enum 0))).map (fun m => some m.toValue)
      else .ok none
  | .enum e =>
    match S.enums[e]? with
    | none => .error .panic
    | some ed => if ed.name = nullName then .ok (some (.enum 0)) else .ok none
  | _ => .ok none

/-- `OptionalFieldDescriptorSeed` (de/mod.rs:131-196). -/
def deOpt (S : Schema) (val : FieldDesc → Json → Except JErr (Option Value)) (f : FieldDesc) :
    Json → Except JErr (Option Value)
  | .null => deNull S f
  | j => val f j

/-- One entry of an object (kind.rs:571-602). -/
def deEntry (S : Schema) (o : DOpts) (val : FieldDesc → Json → Except JErr (Option Value))
    (md : MsgDesc) (m : DynMsg) (key : Name) (j : Json) : Except JErr DynMsg :=
  match keyField md key with
  | some f =>
    match deOpt S val f j with
    | .error e => .error e
    | .ok none => .ok m
    | .ok (some v) =>
      match Text.anyHas S m.fields (Text.oneofMembers md f) with
      | none => .error .panic
      | some true => .error .err
      | some false =>
        match DynMsg.setField S md m f v with
        | none => .error .panic
        | some m' => .ok m'
  | none =>
    match keyExt md key with
    | some f =>
      match deOpt S val f j with
      | .error e => .error e
      | .ok none => .ok m
      | .ok (some v) => .ok (DynMsg.setExt m f v)
    | none => if o.deny then .error .err else .ok m

/-- `MessageVisitorInner::visit_map` (kind.rs:566-605). -/
def deEntries (S : Schema) (o : DOpts) (val : FieldDesc → Json → Except JErr (Option Value))
    (md : MsgDesc) (m : DynMsg) : List (Name × Json) → Except JErr DynMsg
  | [] => .ok m
  | (key, j) :: r =>
    match deEntry S o val md m key j with
    | .error e => .error e
    | .ok m' => deEntries S o val md m' r

/-- `find_field` (de/wkt.rs:360-381): the entries before the key go to the buffer.  `none`
when the key is missing. -/
def findKey (key : List Char) (buf : List (List Char × Json)) : List (List Char × Json) →
    Option (List (List Char × Json) × Json × List (List Char × Json))
  | [] => none
  | (k, j) :: r => if k = key then some (buf, j, r) else findKey key (put k (norm j) buf) r

/-- A field of a kind, for the seeds that only look at the kind. -/
def plainField (k : Kind) : FieldDesc :=
  { number := 1, name := [], jsonName := [], kind := k, card := .optional, group := false,
    presence := true, packed := false, default := none, oneof := none }

/-- A message value. -/
def asMsg : Option Value → Except JErr DynMsg
  | some (.msg d fs) => .ok ⟨d, fs⟩
  | _ => .error .panic

/-- The payload of an `Any` (de/wkt.rs:63-97) whose type is message `d`. -/
def anyPayload (env : JEnv) (S : Schema) (o : DOpts)
    (val : FieldDesc → Json → Except JErr (Option Value)) (n : Name) (d : Nat)
    (buf rest : List (List Char × Json)) : Except JErr DynMsg :=
  if (wkt? n).isSome then
    match (match lookup valueKey buf with
      | some j => some (remove valueKey buf, j, rest)
      | none => findKey valueKey buf rest) with
    | none => .error .err
    | some (buf, j, rest) =>
      match val (plainField (.message d)) j with
      | .error e => .error e
      | .ok v => if o.deny && !(buf.isEmpty && rest.isEmpty) then .error .err else asMsg v
  else
    match S.msg? d with
    | none => .error .panic
    | some md =>
      match deEntries S o val md (DynMsg.empty d) (env.order buf) with
      | .error e => .error e
      | .ok m => deEntries S o val md m rest

/-- `GoogleProtobufAnyVisitor` (de/wkt.rs:37-100): the fields of the `Any`. -/
def deAny (env : JEnv) (S : Schema) (o : DOpts) (val : FieldDesc → Json → Except JErr (Option Value)) :
    Json → Except JErr FieldSet
  | .obj es =>
    match findKey typeKey [] es with
    | some (buf, .str url, rest) =>
      match Text.urlName url with
      | none => .error .err
      | some n =>
        match Text.Schema.msgByName S n with
        | none => .error .err
        | some d =>
          match anyPayload env S o val n d buf rest with
          | .error e => .error e
          | .ok p =>
            match encMsg S p with
            | none => .error .panic
            | some b => .ok [(1, .val (.str (utf8Encode url))), (2, .val (.bytes b))]
    | _ => .error .err
  | _ => .error .err

/-- `deserialize_message` (de/mod.rs:14-76); `val` reads the fields inside. -/
def deMsg (env : JEnv) (S : Schema) (o : DOpts) (k : Nat)
    (val : FieldDesc → Json → Except JErr (Option Value)) (d : Nat) (j : Json) : Except JErr DynMsg :=
  match S.msg? d with
  | none => .error .panic
  | some md =>
    match wkt? md.name with
    | some .any =>
      match deAny env S o val j with
      | .error e => .error e
      | .ok fs => makeMsg S d .any fs
    | some w =>
      match deStd env k j w with
      | .error e => .error e
      | .ok fs => makeMsg S d w fs
    | none =>
      match j with
      | .obj es => deEntries S o val md (DynMsg.empty d) es
      | _ => .error .err

/-- `KindSeed` (kind.rs:15-60). -/
def deKind (env : JEnv) (S : Schema) (o : DOpts) (k : Nat)
    (val : FieldDesc → Json → Except JErr (Option Value)) (kind : Kind) (j : Json) :
    Except JErr (Option Value) :=
  match kind with
  | .message d => (deMsg env S o k val d j).map (fun m => some m.toValue)
  | .enum e => deEnum S o e j
  | kind => (deScalar env kind j).map some

/-- A map key (kind.rs:115-135); `unreachable!` for other kinds. -/
def deKey (kind : Kind) (s : List Char) : Except JErr MapKey :=
  match kind with
  | .int32 | .sint32 | .sfixed32 => (orErr (parseSigned 32 s)).map .i32
  | .int64 | .sint64 | .sfixed64 => (orErr (parseSigned 64 s)).map .i64
  | .uint32 | .fixed32 => (orErr (parseUnsigned 32 s)).map .u32
  | .uint64 | .fixed64 => (orErr (parseUnsigned 64 s)).map .u64
  | .bool => (orErr (Pool.parseBool s)).map .bool
  | .string => .ok (.str (utf8Encode s))
  | _ => .error .panic

/-- The loop of `MapVisitor` (kind.rs:113-142). -/
def deMap (key : List Char → Except JErr MapKey) (val : Json → Except JErr (Option Value))
    (acc : List (MapKey × Value)) : List (List Char × Json) → Except JErr (List (MapKey × Value))
  | [] => .ok acc
  | (s, j) :: r =>
    match key s with
    | .error e => .error e
    | .ok k =>
      match val j with
      | .error e => .error e
      | .ok none => deMap key val acc r
      | .ok (some v) => deMap key val (KMap.insert k v acc) r

/-- `FieldDescriptorSeed` (de/mod.rs:106-129). -/
def deVal (env : JEnv) (S : Schema) (o : DOpts) : Nat → FieldDesc → Json → Except JErr (Option Value)
  | 0, _, _ => .error .stack
  | k + 1, f, j =>
    if isList S f then
      match j with
      | .arr xs => (mapE (deKind env S o k (deVal env S o k) f.kind) xs).map
          (fun vs => some (.list (vs.filterMap id)))
      | _ => .error .err
    else if isMap S f then
      match j with
      | .obj es =>
        match f.kind with
        | .message i =>
          match S.mapKV i with
          | none => .error .panic
          | some (kd, vd) => (deMap (deKey kd.kind) (deVal env S o k vd) [] es).map (fun kvs => some (.map kvs))
        | _ => .error .panic
      | _ => .error .err
    else deKind env S o k (deVal env S o k) f.kind j

/-- `DynamicMessage::deserialize_with_options` (serde/mod.rs), with stack depth `k`. -/
def fromJson (env : JEnv) (S : Schema) (o : DOpts) (k : Nat) (d : Nat) (j : Json) : Except JErr DynMsg :=
  deMsg env S o k (deVal env S o k) d j

end Verif.Json
