import Verif.Dyn.Codec
import Verif.Wire.UnknownLemmas
/-!
Specifications used by the theorems: well-formed schemas, conforming and accepted
messages, nesting depth, canonical form and merge semantics.  None of these is
part of the code; they say what the properties mean.
-/
set_option autoImplicit false
namespace Verif.Dyn
open Verif.Wire

/-! ### Well-formed schemas -/

/-- A scalar value of the Rust type that belongs to the kind; strings are UTF-8. -/
def scalarOk : Kind → Value → Bool
  | .message _, _ => false
  | k, .str b => (Value.str b).isValid k && utf8Valid b
  | k, v => v.isValid k

/-- A map key of the Rust type that belongs to the kind; strings are UTF-8. -/
def keyOk : Kind → MapKey → Bool
  | k, .str b => (MapKey.str b).isValid k && utf8Valid b
  | k, m => m.isValid k

def kindOk (S : Schema) : Kind → Bool
  | .message i => (S.msg? i).isSome
  | .enum e => (S.enumDefault e).isSome
  | _ => true

def Kind.isMessage : Kind → Bool
  | .message _ => true
  | _ => false

/-- What the descriptor builder establishes for one field (see Pool), plus the
shape rules protoc enforces: lists have no explicit presence and no default, oneof
members are singular. -/
def fieldWf (S : Schema) (f : FieldDesc) : Bool :=
  decide (ValidNumber f.number) && kindOk S f.kind &&
  (!f.group || f.kind.isMessage) &&
  (!f.packed || (f.card == .repeated && f.kind.packable)) &&
  (!(f.card == .repeated) || (!f.presence && f.default.isNone && f.oneof.isNone)) &&
  (!(f.card != .repeated && f.kind.isMessage) || f.presence) &&
  (match f.default with
    | none => true
    | some v => scalarOk f.kind v) &&
  (f.oneof.isNone || f.presence)

/-- Numbers of the fields. -/
def numbersNodup (fs : List FieldDesc) : Bool := decide (fs.map (·.number)).Nodup

/-- A map entry has a singular key field 1 of a legal key kind and a singular value
field 2 (protoc; not checked by the builder, see C31). -/
def entryWf (S : Schema) (i : Nat) : Bool :=
  match S.mapKV i with
  | some (k, v) => k.card != .repeated && (MapKey.default k.kind).isSome && v.card != .repeated
  | none => false

def msgWf (S : Schema) (i : Nat) (m : MsgDesc) : Bool :=
  m.fields.all (fieldWf S) && m.extensions.all (fieldWf S) && numbersNodup m.fields &&
  m.extensions.all (fun e => (m.getField e.number).isNone && e.oneof.isNone) &&
  (!m.mapEntry || entryWf S i)

/-- Well-formed schema. -/
def Schema.wf (S : Schema) : Bool := S.msgs.zipIdx.all (fun p => msgWf S p.2 p.1)

/-! ### Conforming values -/

/-- The type of one element of a repeated field. -/
def FieldDesc.elem (f : FieldDesc) : FieldDesc := { f with card := .optional }

mutual
def UVal.wf : UVal → Bool
  | .group fs => USet.wf fs
  | .len b => decide (b.length < 2 ^ 64)
  | _ => true
def USet.wf : List (Nat × UVal) → Bool
  | [] => true
  | (n, v) :: r => decide (ValidNumber n) && UVal.wf v && USet.wf r
end

/-- The unknown fields stored under number `n`: at least one, all numbered `n`. -/
def unknownOk (n : Nat) (u : USet) : Bool :=
  !u.isEmpty && u.all (fun p => p.1 == n) && USet.wf u

/-- At most one member of each oneof has an entry. -/
def oneofOk (S : Schema) (d : Nat) (fs : FieldSet) : Bool :=
  match S.msg? d with
  | none => false
  | some md => fs.all (fun p =>
      match md.getField p.1 with
      | none => true
      | some f => (siblings md f).all (fun m => (SMap.get? fs m).isNone))

mutual
/-- `v` is a value of exactly the type of `f`, at every level. -/
def confVal (S : Schema) (f : FieldDesc) : Value → Bool
  | .msg d fs =>
    f.card != .repeated && f.kind == .message d &&
      (SMap.sorted fs && oneofOk S d fs && confSlots S d fs)
  | .list vs => isList S f && confVals S f.elem vs
  | .map kvs =>
    isMap S f && (match f.kind with
      | .message i =>
        match S.mapKV i with
        | some (kd, vd) => KMap.distinct kvs && confMap S kd vd kvs
        | none => false
      | _ => false)
  | v => f.card != .repeated && scalarOk f.kind v
def confVals (S : Schema) (f : FieldDesc) : List Value → Bool
  | [] => true
  | v :: r => confVal S f v && confVals S f r
def confMap (S : Schema) (kd vd : FieldDesc) : List (MapKey × Value) → Bool
  | [] => true
  | (k, v) :: r => keyOk kd.kind k && confVal S vd v && confMap S kd vd r
/-- Every stored value belongs to a declared field or an extension and conforms to it;
unknown fields sit at numbers the schema does not know. -/
def confSlots (S : Schema) (d : Nat) : List (Nat × Slot) → Bool
  | [] => true
  | (_, .taken) :: r => confSlots S d r
  | (n, .unknown u) :: r =>
    (S.field? d n).isNone && (S.ext? d n).isNone && unknownOk n u && confSlots S d r
  | (n, .val v) :: r =>
    (match S.field? d n with
      | some f => confVal S f v
      | none =>
        match S.ext? d n with
        | some f => confVal S f v
        | none => false) && confSlots S d r
end

/-- A message that conforms to its descriptor at every level. -/
def confMsg (S : Schema) (m : DynMsg) : Bool :=
  SMap.sorted m.fields && oneofOk S m.desc m.fields && confSlots S m.desc m.fields

/-! ### Accepted values: the code's own check at every level -/

mutual
/-- Strings are UTF-8 and all nested messages are accepted. -/
def acceptedIn (S : Schema) : Value → Bool
  | .msg d fs => (S.msg? d).isSome && acceptedSlots S d fs
  | .list vs => acceptedVals S vs
  | .map kvs => acceptedMap S kvs
  | _ => true
def acceptedVals (S : Schema) : List Value → Bool
  | [] => true
  | v :: r => acceptedIn S v && acceptedVals S r
def acceptedMap (S : Schema) : List (MapKey × Value) → Bool
  | [] => true
  | (_, v) :: r => acceptedIn S v && acceptedMap S r
/-- Every stored value passed `is_valid_for_field`/`is_valid_for_extension`. -/
def acceptedSlots (S : Schema) (d : Nat) : List (Nat × Slot) → Bool
  | [] => true
  | (_, .taken) :: r => acceptedSlots S d r
  | (_, .unknown u) :: r => USet.wf u && acceptedSlots S d r
  | (n, .val v) :: r =>
    (match S.field? d n with
      | some f => validFor S f v == some true
      | none => true) &&
    (match S.ext? d n with
      | some f => validFor S f v == some true
      | none => true) && acceptedIn S v && acceptedSlots S d r
end

/-- Every value in the message, at every level, passed the validity check of the
setters. -/
def accepted (S : Schema) (m : DynMsg) : Bool := acceptedSlots S m.desc m.fields

/-! ### Nesting depth -/

mutual
def depthVal : Value → Nat
  | .msg _ fs => 1 + depthSlots fs
  | .list vs => depthVals vs
  | .map kvs => depthMap kvs
  | _ => 0
def depthVals : List Value → Nat
  | [] => 0
  | v :: r => max (depthVal v) (depthVals r)
def depthMap : List (MapKey × Value) → Nat
  | [] => 0
  | (_, v) :: r => max (depthVal v) (depthMap r)
def depthSlots : List (Nat × Slot) → Nat
  | [] => 0
  | (_, .taken) :: r => depthSlots r
  | (_, .unknown u) :: r => max (USet.depth u) (depthSlots r)
  | (_, .val v) :: r => max (depthVal v) (depthSlots r)
end

/-- Number of message and group levels below the top message. -/
def depthMsg (m : DynMsg) : Nat := depthSlots m.fields

/-! ### Canonical form -/

mutual
/-- Drop what counts as absent, at every level. A map value equal to the default of
its field is replaced by that default (it is not written to the wire). -/
def canonVal (S : Schema) (f : FieldDesc) : Value → Value
  | .msg d fs => .msg d (canonSlots S d fs)
  | .list vs => .list (canonVals S f.elem vs)
  | .map kvs =>
    match f.kind with
    | .message i =>
      match S.mapKV i with
      | some (_, vd) => .map (canonMap S vd kvs)
      | none => .map kvs
    | _ => .map kvs
  | v => v
def canonVals (S : Schema) (f : FieldDesc) : List Value → List Value
  | [] => []
  | v :: r => canonVal S f v :: canonVals S f r
def canonMap (S : Schema) (vd : FieldDesc) : List (MapKey × Value) → List (MapKey × Value)
  | [] => []
  | (k, v) :: r =>
    (k, if hasVal S vd v = some true then canonVal S vd v
        else match fieldDefault S vd with
          | some w => w
          | none => v) :: canonMap S vd r
def canonSlots (S : Schema) (d : Nat) : List (Nat × Slot) → List (Nat × Slot)
  | [] => []
  | (_, .taken) :: r => canonSlots S d r
  | (n, .unknown u) :: r => (n, .unknown u) :: canonSlots S d r
  | (n, .val v) :: r =>
    match S.field? d n with
    | some f =>
      if hasVal S f v = some true then (n, .val (canonVal S f v)) :: canonSlots S d r
      else canonSlots S d r
    | none =>
      match S.ext? d n with
      | some f =>
        if hasVal S f v = some true then (n, .val (canonVal S f v)) :: canonSlots S d r
        else canonSlots S d r
      | none => canonSlots S d r
end

/-- The message with everything that is not present removed. -/
def canonMsg (S : Schema) (m : DynMsg) : DynMsg := ⟨m.desc, canonSlots S m.desc m.fields⟩

/-! ### Merge semantics -/

/-- What a field holds before its first occurrence. -/
def emptyLike : Value → Value
  | .msg d _ => .msg d []
  | .list _ => .list []
  | .map _ => .map []
  | v => v

/-- Current value of field `n`, or the empty value of the shape of `v`. -/
def curOr (fs : FieldSet) (n : Nat) (v : Value) : Value :=
  match FieldSet.getValue fs n with
  | some c => c
  | none => emptyLike v

/-- Append unknown fields to those stored under `n`. -/
def addUnknowns (fs : FieldSet) (n : Nat) (u : USet) : FieldSet :=
  match SMap.get? fs n with
  | some (.unknown us) => SMap.insert n (.unknown (us ++ u)) fs
  | _ => SMap.insert n (.unknown u) fs

mutual
/-- Merge `v` into the current value of field `f`: messages merge recursively, lists
are appended, map entries replace, anything else is replaced. -/
def mergeVal (S : Schema) (f : FieldDesc) (cur : Value) : Value → Value
  | .msg d fs =>
    match cur with
    | .msg d0 fs0 => .msg d0 (mergeRest S d (mergeDecl S d fs0 fs) fs)
    | _ => .msg d fs
  | .list vs =>
    match cur with
    | .list ws => .list (ws ++ normVals S f.elem vs)
    | _ => .list vs
  | .map kvs =>
    match cur, f.kind with
    | .map m0, .message i =>
      match S.mapKV i with
      | some (_, vd) => .map (mergeMap S vd m0 kvs)
      | none => .map kvs
    | _, _ => .map kvs
  | v => v
termination_by structural v => v
def normVals (S : Schema) (f : FieldDesc) : List Value → List Value
  | [] => []
  | v :: r => mergeVal S f (emptyLike v) v :: normVals S f r
termination_by structural vs => vs
def mergeMap (S : Schema) (vd : FieldDesc) (m0 : List (MapKey × Value)) :
    List (MapKey × Value) → List (MapKey × Value)
  | [] => m0
  | (k, v) :: r =>
    mergeMap S vd (KMap.insert k (if hasVal S vd v = some true then mergeVal S vd (emptyLike v) v
        else match fieldDefault S vd with
          | some w => w
          | none => v) m0) r
termination_by structural kvs => kvs
/-- Merge the declared fields present in the second message. -/
def mergeDecl (S : Schema) (d : Nat) (fs0 : FieldSet) : List (Nat × Slot) → FieldSet
  | [] => fs0
  | (_, .taken) :: r => mergeDecl S d fs0 r
  | (_, .unknown _) :: r => mergeDecl S d fs0 r
  | (n, .val v) :: r =>
    match S.msg? d with
    | none => mergeDecl S d fs0 r
    | some md =>
      match md.getField n with
      | none => mergeDecl S d fs0 r
      | some f =>
        if hasVal S f v = some true then
          mergeDecl S d (SMap.insert n
            (.val (mergeVal S f (curOr (FieldSet.clearAll (siblings md f) fs0) n v) v))
            (FieldSet.clearAll (siblings md f) fs0)) r
        else mergeDecl S d fs0 r
termination_by structural fs => fs
/-- Merge the extensions and unknown fields of the second message. -/
def mergeRest (S : Schema) (d : Nat) (fs0 : FieldSet) : List (Nat × Slot) → FieldSet
  | [] => fs0
  | (_, .taken) :: r => mergeRest S d fs0 r
  | (n, .unknown u) :: r => mergeRest S d (addUnknowns fs0 n u) r
  | (n, .val v) :: r =>
    match S.ext? d n with
    | none => mergeRest S d fs0 r
    | some f =>
      if hasVal S f v = some true then
        mergeRest S d (SMap.insert n (.val (mergeVal S f (curOr fs0 n v) v)) fs0) r
      else mergeRest S d fs0 r
termination_by structural fs => fs
end

/-- The message obtained by merging `m2` into `m1`, field by field. -/
def mergeMsg (S : Schema) (m1 m2 : DynMsg) : DynMsg :=
  ⟨m1.desc, mergeRest S m2.desc (mergeDecl S m2.desc m1.fields m2.fields) m2.fields⟩

end Verif.Dyn
