import Verif.Dyn.Fields
/-!
Binary encoding and decoding of dynamic messages: model of `dynamic/message.rs`.
-/
set_option autoImplicit false
namespace Verif.Dyn
open Verif.Wire

/-! ### Scalars -/

/-- Zig-zag encoding (message.rs:712-714 and prost's `sint32`). -/
def zigzag32 (v : BitVec 32) : BitVec 32 := (v <<< 1) ^^^ (v.sshiftRight 31)
/-- Zig-zag encoding (message.rs:718-720 and prost's `sint64`). -/
def zigzag64 (v : BitVec 64) : BitVec 64 := (v <<< 1) ^^^ (v.sshiftRight 63)
/-- `((value >> 1) as i32) ^ (-((value & 1) as i32))` (prost; message.rs:715-717). -/
def unzigzag32 (u : BitVec 32) : BitVec 32 := (u >>> 1) ^^^ (-(u &&& 1))
/-- `((value >> 1) as i64) ^ (-((value & 1) as i64))` (prost; message.rs:721-723). -/
def unzigzag64 (u : BitVec 64) : BitVec 64 := (u >>> 1) ^^^ (-(u &&& 1))

/-- What `prost::encoding::<kind>::encode` writes after the key (message.rs:93-133);
`none` when value and kind do not match (message.rs:266-268). -/
def scalarEnc : Kind → Value → Option Bytes
  | .bool, .bool b => some (encodeVarint (if b then 1 else 0))
  | .int32, .i32 v => some (encodeVarint (v.signExtend 64).toNat)
  | .sint32, .i32 v => some (encodeVarint (zigzag32 v).toNat)
  | .sfixed32, .i32 v => some (putLE 4 v.toNat)
  | .int64, .i64 v => some (encodeVarint v.toNat)
  | .sint64, .i64 v => some (encodeVarint (zigzag64 v).toNat)
  | .sfixed64, .i64 v => some (putLE 8 v.toNat)
  | .uint32, .u32 v => some (encodeVarint v.toNat)
  | .fixed32, .u32 v => some (putLE 4 v.toNat)
  | .uint64, .u64 v => some (encodeVarint v.toNat)
  | .fixed64, .u64 v => some (putLE 8 v.toNat)
  | .float, .f32 v => some (putLE 4 v.toNat)
  | .double, .f64 v => some (putLE 8 v.toNat)
  | .string, .str b => some (encodeVarint b.length ++ b)
  | .bytes, .bytes b => some (encodeVarint b.length ++ b)
  | .enum _, .enum v => some (encodeVarint (v.signExtend 64).toNat)
  | _, _ => none

/-- `prost::encoding::<kind>::encoded_len` without the key (message.rs:390-430). -/
def scalarLen : Kind → Value → Option Nat
  | .bool, .bool _ => some 1
  | .int32, .i32 v => some (encodedLenVarint (v.signExtend 64).toNat)
  | .sint32, .i32 v => some (encodedLenVarint (zigzag32 v).toNat)
  | .sfixed32, .i32 _ => some 4
  | .int64, .i64 v => some (encodedLenVarint v.toNat)
  | .sint64, .i64 v => some (encodedLenVarint (zigzag64 v).toNat)
  | .sfixed64, .i64 _ => some 8
  | .uint32, .u32 v => some (encodedLenVarint v.toNat)
  | .fixed32, .u32 _ => some 4
  | .uint64, .u64 v => some (encodedLenVarint v.toNat)
  | .fixed64, .u64 _ => some 8
  | .float, .f32 _ => some 4
  | .double, .f64 _ => some 8
  | .string, .str b => some (encodedLenVarint b.length + b.length)
  | .bytes, .bytes b => some (encodedLenVarint b.length + b.length)
  | .enum _, .enum v => some (encodedLenVarint (v.signExtend 64).toNat)
  | _, _ => none

/-- `prost::encoding::<kind>::merge` (message.rs:282-330): wire type check, then the
new value, which replaces the old one. -/
def scalarDec : Kind → WireType → Bytes → R (Value × Bytes)
  | k, wt, buf =>
    let varint (conv : Nat → Value) : R (Value × Bytes) :=
      if wt ≠ .varint then .error .wrongWireType
      else match decodeVarint buf with
        | .error e => .error e
        | .ok (n, r) => .ok (conv n, r)
    let fixed32 (conv : BitVec 32 → Value) : R (Value × Bytes) :=
      if wt ≠ .thirtyTwoBit then .error .wrongWireType
      else match getLE 4 buf with
        | .error e => .error e
        | .ok (n, r) => .ok (conv (BitVec.ofNat 32 n), r)
    let fixed64 (conv : BitVec 64 → Value) : R (Value × Bytes) :=
      if wt ≠ .sixtyFourBit then .error .wrongWireType
      else match getLE 8 buf with
        | .error e => .error e
        | .ok (n, r) => .ok (conv (BitVec.ofNat 64 n), r)
    match k with
    | .bool => varint (fun n => .bool (n != 0))
    | .int32 => varint (fun n => .i32 (BitVec.ofNat 32 n))
    | .enum _ => varint (fun n => .enum (BitVec.ofNat 32 n))
    | .uint32 => varint (fun n => .u32 (BitVec.ofNat 32 n))
    | .int64 => varint (fun n => .i64 (BitVec.ofNat 64 n))
    | .uint64 => varint (fun n => .u64 (BitVec.ofNat 64 n))
    | .sint32 => varint (fun n => .i32 (unzigzag32 (BitVec.ofNat 32 n)))
    | .sint64 => varint (fun n => .i64 (unzigzag64 (BitVec.ofNat 64 n)))
    | .sfixed32 => fixed32 .i32
    | .fixed32 => fixed32 .u32
    | .float => fixed32 .f32
    | .sfixed64 => fixed64 .i64
    | .fixed64 => fixed64 .u64
    | .double => fixed64 .f64
    | .string =>
      if wt ≠ .lengthDelimited then .error .wrongWireType
      else match getLenDelim buf with
        | .error e => .error e
        | .ok (b, r) => if utf8Valid b then .ok (.str b, r) else .error .invalidUtf8
    | .bytes =>
      if wt ≠ .lengthDelimited then .error .wrongWireType
      else match getLenDelim buf with
        | .error e => .error e
        | .ok (b, r) => .ok (.bytes b, r)
    | .message _ => .error .panic

/-! ### Encoding -/

/-- Element encoder of a packed list (message.rs:143-245): the `as_*().expect()` and
the closure of each kind. -/
def packedEnc : Kind → Value → Option Bytes
  | .enum _, .enum v => some (encodeVarint (v.signExtend 64).toNat)
  | .double, .f64 v => some (putLE 8 v.toNat)
  | .float, .f32 v => some (putLE 4 v.toNat)
  | .int32, .i32 v => some (encodeVarint (v.signExtend 64).toNat)
  | .int64, .i64 v => some (encodeVarint v.toNat)
  | .uint32, .u32 v => some (encodeVarint v.toNat)
  | .uint64, .u64 v => some (encodeVarint v.toNat)
  | .sint32, .i32 v => some (encodeVarint (zigzag32 v).toNat)
  | .sint64, .i64 v => some (encodeVarint (zigzag64 v).toNat)
  | .fixed32, .u32 v => some (putLE 4 v.toNat)
  | .fixed64, .u64 v => some (putLE 8 v.toNat)
  | .sfixed32, .i32 v => some (putLE 4 v.toNat)
  | .sfixed64, .i64 v => some (putLE 8 v.toNat)
  | .bool, .bool b => some (encodeVarint (if b then 1 else 0))
  | _, _ => none

/-- Element length of a packed list (message.rs:151-242, 440-513). -/
def packedLen : Kind → Value → Option Nat
  | .enum _, .enum v => some (encodedLenVarint (v.signExtend 64).toNat)
  | .double, .f64 _ => some 8
  | .float, .f32 _ => some 4
  | .int32, .i32 v => some (encodedLenVarint (v.signExtend 64).toNat)
  | .int64, .i64 v => some (encodedLenVarint v.toNat)
  | .uint32, .u32 v => some (encodedLenVarint v.toNat)
  | .uint64, .u64 v => some (encodedLenVarint v.toNat)
  | .sint32, .i32 v => some (encodedLenVarint (zigzag32 v).toNat)
  | .sint64, .i64 v => some (encodedLenVarint (zigzag64 v).toNat)
  | .fixed32, .u32 _ => some 4
  | .fixed64, .u64 _ => some 8
  | .sfixed32, .i32 _ => some 4
  | .sfixed64, .i64 _ => some 8
  | .bool, .bool b => some (encodedLenVarint (if b then 1 else 0))
  | _, _ => none

/-- Concatenation of the packed elements. -/
def packedEncAll (k : Kind) : List Value → Option Bytes
  | [] => some []
  | v :: r =>
    match packedEnc k v, packedEncAll k r with
    | some a, some b => some (a ++ b)
    | _, _ => none

/-- Sum of the packed element lengths. -/
def packedLenAll (k : Kind) : List Value → Option Nat
  | [] => some 0
  | v :: r =>
    match packedLen k v, packedLenAll k r with
    | some a, some b => some (a + b)
    | _, _ => none

/-- `encode_packed_list` (message.rs:687-701). A non-packable kind panics
(message.rs:244) even for an empty list. -/
def encPackedList (f : FieldDesc) (vs : List Value) : Option Bytes :=
  if f.kind.packable then
    match packedLenAll f.kind vs, packedEncAll f.kind vs with
    | some l, some b => some (encodeKey f.number .lengthDelimited ++ (encodeVarint l ++ b))
    | _, _ => none
  else none

/-- `packed_list_encoded_len` (message.rs:703-710). -/
def lenPackedList (f : FieldDesc) (vs : List Value) : Option Nat :=
  if f.kind.packable then
    (packedLenAll f.kind vs).map (fun l => keyLen f.number + encodedLenVarint l + l)
  else none

/-- The early return of `encode_field`/`encoded_len` (message.rs:88-90, 385-387). -/
def unlessDefault {α : Type} (S : Schema) (f : FieldDesc) (v : Value) (zero : α)
    (k : Option α) : Option α :=
  if f.presence then k
  else match isDefault S f v with
    | none => none
    | some true => some zero
    | some false => k

/-- The presence filter of `iter` (fields.rs:160-161, 177-181) in front of an encoder:
nothing for an unknown descriptor or an absent value. -/
def ifPresent {α : Type} (S : Schema) (f? : Option FieldDesc) (v : Value) (zero : α)
    (k : FieldDesc → Option α) : Option α :=
  match f? with
  | none => some zero
  | some f =>
    match hasVal S f v with
    | none => none
    | some false => some zero
    | some true => k f

/-- `MapKey::encode_field` (message.rs:544-588). -/
def encKey (f : FieldDesc) (k : MapKey) : Option Bytes :=
  let body := (scalarEnc f.kind k.toValue).map (encodeKey f.number f.kind.wireType ++ ·)
  if f.presence then body
  else match MapKey.default f.kind with
    | none => none
    | some d => if k = d then some [] else body

/-- `MapKey::encoded_len` (message.rs:643-684). -/
def lenKey (f : FieldDesc) (k : MapKey) : Option Nat :=
  let body := (scalarLen f.kind k.toValue).map (keyLen f.number + ·)
  if f.presence then body
  else match MapKey.default f.kind with
    | none => none
    | some d => if k = d then some 0 else body

mutual
/-- `Value::encoded_len` (message.rs:384-540). -/
def lenVal (S : Schema) (f : FieldDesc) : Value → Option Nat
  | .msg d fs => unlessDefault S f (.msg d fs) 0 (
      match f.kind with
      | .message _ =>
        match lenSlots S d fs with
        | none => none
        | some l =>
          if f.group then some (2 * keyLen f.number + l)
          else some (keyLen f.number + encodedLenVarint l + l)
      | _ => none)
  | .list vs => unlessDefault S f (.list vs) 0 (
      if isList S f then
        if f.packed then lenPackedList f vs else lenVals S f vs
      else none)
  | .map kvs => unlessDefault S f (.map kvs) 0 (
      match f.kind with
      | .message i =>
        if isMap S f then
          match S.mapKV i with
          | none => none
          | some (kd, vd) => lenMapEntries S f.number kd vd kvs
        else none
      | _ => none)
  | v => unlessDefault S f v 0 ((scalarLen f.kind v).map (keyLen f.number + ·))
/-- Sum over the elements of an unpacked list (message.rs:516-519). -/
def lenVals (S : Schema) (f : FieldDesc) : List Value → Option Nat
  | [] => some 0
  | v :: r =>
    match lenVal S f v, lenVals S f r with
    | some a, some b => some (a + b)
    | _, _ => none
/-- Sum over map entries (message.rs:526-534). -/
def lenMapEntries (S : Schema) (n : Nat) (kd vd : FieldDesc) : List (MapKey × Value) → Option Nat
  | [] => some 0
  | (k, v) :: r =>
    match lenKey kd k, lenVal S vd v, lenMapEntries S n kd vd r with
    | some a, some b, some c => some (keyLen n + encodedLenVarint (a + b) + (a + b) + c)
    | _, _, _ => none
/-- `DynamicMessage::encoded_len` (message.rs:62-76) over `iter` (fields.rs:151-196):
declared fields and extensions/unknown fields are counted entry by entry. -/
def lenSlots (S : Schema) (d : Nat) : List (Nat × Slot) → Option Nat
  | [] => some 0
  | (_, .taken) :: r => lenSlots S d r
  | (_, .unknown u) :: r => (lenSlots S d r).map (lenUSet u + ·)
  | (n, .val v) :: r =>
    match ifPresent S (S.field? d n) v 0 (fun f => lenVal S f v),
      ifPresent S (S.ext? d n) v 0 (fun f => lenVal S f v),
      lenSlots S d r with
    | some a, some b, some c => some (a + b + c)
    | _, _, _ => none
end

mutual
/-- `Value::encode_field` (message.rs:84-270). `none` is a panic. -/
def encVal (S : Schema) (f : FieldDesc) : Value → Option Bytes
  | .msg d fs => unlessDefault S f (.msg d fs) [] (
      match f.kind with
      | .message _ =>
        match encSlots S d fs with
        | none => none
        | some (a, b) =>
          if f.group then
            some (encodeKey f.number .startGroup ++ ((a ++ b) ++ encodeKey f.number .endGroup))
          else
            match lenSlots S d fs with
            | none => none
            | some l =>
              some (encodeKey f.number .lengthDelimited ++ (encodeVarint l ++ (a ++ b)))
      | _ => none)
  | .list vs => unlessDefault S f (.list vs) [] (
      if isList S f then
        if f.packed then encPackedList f vs else encVals S f vs
      else none)
  | .map kvs => unlessDefault S f (.map kvs) [] (
      match f.kind with
      | .message i =>
        if isMap S f then
          match S.mapKV i with
          | none => none
          | some (kd, vd) => encMapEntries S f.number kd vd kvs
        else none
      | _ => none)
  | v => unlessDefault S f v []
      ((scalarEnc f.kind v).map (encodeKey f.number f.kind.wireType ++ ·))
/-- The loop over an unpacked list (message.rs:247-249). -/
def encVals (S : Schema) (f : FieldDesc) : List Value → Option Bytes
  | [] => some []
  | v :: r =>
    match encVal S f v, encVals S f r with
    | some a, some b => some (a ++ b)
    | _, _ => none
/-- The loop over map entries (message.rs:256-264). -/
def encMapEntries (S : Schema) (n : Nat) (kd vd : FieldDesc) :
    List (MapKey × Value) → Option Bytes
  | [] => some []
  | (k, v) :: r =>
    match lenKey kd k, lenVal S vd v, encKey kd k, encVal S vd v, encMapEntries S n kd vd r with
    | some la, some lb, some a, some b, some c =>
      some (encodeKey n .lengthDelimited ++ (encodeVarint (la + lb) ++ (a ++ b)) ++ c)
    | _, _, _, _, _ => none
/-- `encode_raw` (message.rs:18-33) over `iter` (fields.rs:151-196), returning
separately what the declared fields and what extensions and unknown fields write.
The first list is in number order, so going through the stored entries gives the
order of the descriptors (proved: `encMsg_eq_iter`). -/
def encSlots (S : Schema) (d : Nat) : List (Nat × Slot) → Option (Bytes × Bytes)
  | [] => some ([], [])
  | (_, .taken) :: r => encSlots S d r
  | (_, .unknown u) :: r =>
    match encSlots S d r with
    | none => none
    | some (a, b) => some (a, encUSet u ++ b)
  | (n, .val v) :: r =>
    match ifPresent S (S.field? d n) v [] (fun f => encVal S f v),
      ifPresent S (S.ext? d n) v [] (fun f => encVal S f v),
      encSlots S d r with
    | some x, some y, some (a, b) => some (x ++ a, y ++ b)
    | _, _, _ => none
end

/-- `DynamicMessage::encode_raw`, i.e. `encode_to_vec` (message.rs:18-33). -/
def encMsg (S : Schema) (m : DynMsg) : Option Bytes :=
  match encSlots S m.desc m.fields with
  | none => none
  | some (a, b) => some (a ++ b)

/-- `DynamicMessage::encoded_len` (message.rs:62-76). -/
def lenMsg (S : Schema) (m : DynMsg) : Option Nat := lenSlots S m.desc m.fields

/-! ### Decoding -/

/-- `Value::merge_field` (message.rs:272-382) for a value that is neither list nor map. -/
def singularMerge (nested : Option (FieldFn DynMsg)) (f : FieldDesc) (v : Value)
    (wt : WireType) (buf : Bytes) : R (Value × Bytes) :=
  match v with
  | .msg d fs =>
    match f.kind with
    | .message _ =>
      mapV DynMsg.toValue (if f.group then groupMerge nested f.number wt ⟨d, fs⟩ buf
        else messageMerge nested wt ⟨d, fs⟩ buf)
    | _ => .error .panic
  | v => if v.isValid f.kind then scalarDec f.kind wt buf else .error .panic

/-- The list case of `Value::merge_field` (message.rs:338-352). -/
def listMerge (S : Schema) (nested : Option (FieldFn DynMsg)) (f : FieldDesc)
    (vs : List Value) (wt : WireType) (buf : Bytes) : R (List Value × Bytes) :=
  match kindDefault S f.kind with
  | none => .error .panic
  | some v0 =>
    if wt = .lengthDelimited ∧ f.kind.packable = true then
      mergeLoop (fun vs b =>
        mapV (fun v => vs ++ [v]) (singularMerge nested f v0 f.kind.wireType b)) vs buf
    else
      mapV (fun v => vs ++ [v]) (singularMerge nested f v0 wt buf)

/-- `Value::merge_field` for the value of a map entry. A value field that is itself
a map (never produced by protoc) is left out of the model. -/
def entryValueMerge (S : Schema) (nested : Option (FieldFn DynMsg)) (f : FieldDesc)
    (v : Value) (wt : WireType) (buf : Bytes) : R (Value × Bytes) :=
  match v with
  | .list vs =>
    if isList S f then
      mapV .list (listMerge S nested f vs wt buf)
    else .error .panic
  | .map _ => .error .unsupported
  | v => singularMerge nested f v wt buf

/-- `MapKey::merge_field` (message.rs:590-641). -/
def keyMerge (f : FieldDesc) (k : MapKey) (wt : WireType) (buf : Bytes) : R (MapKey × Bytes) :=
  if k.isValid f.kind then
    match scalarDec f.kind wt buf with
    | .error e => .error e
    | .ok (v, r) =>
      match v.toMapKey with
      | some k => .ok (k, r)
      | none => .error .panic
  else .error .panic

/-- One field of a map entry (message.rs:363-372). `d` is the recursion counter. -/
def entryField (S : Schema) (d : Nat) (nested : Option (FieldFn DynMsg)) (kd vd : FieldDesc) :
    FieldFn (MapKey × Value) :=
  fun kv number wt buf =>
    if number = 1 then
      mapV (fun k => (k, kv.2)) (keyMerge kd kv.1 wt buf)
    else if number = 2 then
      mapV (fun v => (kv.1, v)) (entryValueMerge S nested vd kv.2 wt buf)
    else
      match skipField d wt number buf with
      | .error e => .error e
      | .ok r => .ok (kv, r)

/-- The map case of `Value::merge_field` (message.rs:353-377). The wire type is not
looked at. -/
def mapMerge (S : Schema) (d : Nat) (nested : Option (FieldFn DynMsg)) (entry : Nat)
    (kvs : List (MapKey × Value)) (buf : Bytes) : R (List (MapKey × Value) × Bytes) :=
  match S.mapKV entry with
  | none => .error .panic
  | some (kd, vd) =>
    match MapKey.default kd.kind, fieldDefault S vd with
    | some k0, some v0 =>
      mapV (fun kv => KMap.insert kv.1 kv.2 kvs)
        (mergeLoop (keyThen (entryField S d nested kd vd)) (k0, v0) buf)
    | _, _ => .error .panic

/-- `Value::merge_field` (message.rs:272-382). -/
def valueMerge (S : Schema) (d : Nat) (nested : Option (FieldFn DynMsg)) (f : FieldDesc)
    (v : Value) (wt : WireType) (buf : Bytes) : R (Value × Bytes) :=
  match v with
  | .list vs =>
    if isList S f then
      mapV .list (listMerge S nested f vs wt buf)
    else .error .panic
  | .map kvs =>
    match f.kind with
    | .message i =>
      if isMap S f then
        mapV .map (mapMerge S d nested i kvs buf)
      else .error .panic
    | _ => .error .panic
  | v => singularMerge nested f v wt buf

/-- `get_field_mut`/`get_extension_mut` followed by `Value::merge_field`
(message.rs:46-54). What is left in the message on an error: `mergeIntoLeft` (Dyn/Left.lean). -/
def mergeInto (S : Schema) (d : Nat) (nested : Option (FieldFn DynMsg)) (sib : List Nat)
    (f : FieldDesc) (m : DynMsg) (wt : WireType) (buf : Bytes) : R (DynMsg × Bytes) :=
  match FieldSet.getMut S sib m.fields f with
  | none => .error .panic
  | some (fs, v) =>
    mapV (fun v' => ⟨m.desc, FieldSet.write f v' fs⟩) (valueMerge S d nested f v wt buf)

/-- `DynamicMessage::merge_field` (message.rs:35-60). -/
def mergeField (S : Schema) (d : Nat) (nested : Option (FieldFn DynMsg)) : FieldFn DynMsg :=
  fun m number wt buf =>
    match S.msg? m.desc with
    | none => .error .panic
    | some md =>
      match md.getField number with
      | some f => mergeInto S d nested (siblings md f) f m wt buf
      | none =>
        match md.getExtension number with
        | some f => mergeInto S d nested [] f m wt buf
        | none =>
          match decUVal d number wt buf with
          | .error e => .error e
          | .ok (u, r) =>
            match FieldSet.addUnknown m.fields number (number, u) with
            | none => .error .panic
            | some fs => .ok (⟨m.desc, fs⟩, r)

/-- `DynamicMessage::merge_field` at a given recursion counter: nested messages and
groups run one level down, none at counter 0 (prost's `limit_reached`). -/
def msgMerge (S : Schema) : Nat → FieldFn DynMsg
  | 0 => mergeField S 0 none
  | d + 1 => mergeField S (d + 1) (some (msgMerge S d))

/-- `Message::merge` on a dynamic message (dynamic/mod.rs:138). -/
def merge (S : Schema) (m : DynMsg) (buf : Bytes) : R DynMsg :=
  match mergeAll (msgMerge S recursionLimit) m buf with
  | .error e => .error e
  | .ok (m, _) => .ok m

/-- `DynamicMessage::decode` (dynamic/mod.rs:132-140). -/
def decode (S : Schema) (desc : Nat) (buf : Bytes) : R DynMsg :=
  merge S (DynMsg.empty desc) buf

end Verif.Dyn
