import Verif.Dyn.Value
/-!
The field set of a dynamic message: model of `dynamic/fields.rs` and of the accessors
of `dynamic/mod.rs:145-556` on top of it.  `Option` results: `none` is a Rust panic.
-/
set_option autoImplicit false
namespace Verif.Dyn
open Verif.Wire

namespace FieldSet

/-- `get_value` (fields.rs:60-65). -/
def getValue (fs : FieldSet) (n : Nat) : Option Value :=
  match SMap.get? fs n with
  | some (.val v) => some v
  | _ => none

/-- `has` (fields.rs:67-71). -/
def has (S : Schema) (fs : FieldSet) (f : FieldDesc) : Option Bool :=
  match getValue fs f.number with
  | some v => hasVal S f v
  | none => some false

/-- `get` (fields.rs:73-78). -/
def get (S : Schema) (fs : FieldSet) (f : FieldDesc) : Option Value :=
  match getValue fs f.number with
  | some v => some v
  | none => fieldDefault S f

/-- `clear_oneof_fields` (fields.rs:107-115), given the numbers of the other members
of the oneof. -/
def clearAll (ns : List Nat) (fs : FieldSet) : FieldSet :=
  ns.foldl (fun fs n => SMap.erase n fs) fs

/-- `get_mut` (fields.rs:80-94): the field set after the call and the value the
returned reference points to. -/
def getMut (S : Schema) (sib : List Nat) (fs : FieldSet) (f : FieldDesc) :
    Option (FieldSet × Value) :=
  let fs := clearAll sib fs
  match SMap.get? fs f.number with
  | some (.val v) => some (fs, v)
  | _ =>
    match fieldDefault S f with
    | some v => some (SMap.insert f.number (.val v) fs, v)
    | none => none

/-- Writing through the reference returned by `get_mut`. -/
def write (f : FieldDesc) (v : Value) (fs : FieldSet) : FieldSet :=
  SMap.insert f.number (.val v) fs

/-- `set` (fields.rs:96-105) without the `debug_assert`. -/
def set (sib : List Nat) (fs : FieldSet) (f : FieldDesc) (v : Value) : FieldSet :=
  SMap.insert f.number (.val v) (clearAll sib fs)

/-- `add_unknown` (fields.rs:117-134); `none` is the panic at line 121. -/
def addUnknown (fs : FieldSet) (n : Nat) (u : UField) : Option FieldSet :=
  match SMap.get? fs n with
  | some (.val _) => none
  | some .taken => some (SMap.insert n (.unknown [u]) fs)
  | some (.unknown us) => some (SMap.insert n (.unknown (us ++ [u])) fs)
  | none => some (SMap.insert n (.unknown [u]) fs)

/-- `clear` (fields.rs:136-138). -/
def clear (fs : FieldSet) (f : FieldDesc) : FieldSet := SMap.erase f.number fs

/-- `take` (fields.rs:140-145): the removed value if it was present. -/
def take (S : Schema) (fs : FieldSet) (f : FieldDesc) : Option (Option Value × FieldSet) :=
  match SMap.get? fs f.number with
  | some (.val v) =>
    match hasVal S f v with
    | none => none
    | some true => some (some v, SMap.erase f.number fs)
    | some false => some (none, SMap.erase f.number fs)
  | _ => some (none, SMap.erase f.number fs)

end FieldSet

/-- Numbers of the other members of the field's oneof (fields.rs:108-113; an
extension has none, fields.rs:457-459). -/
def siblings (md : MsgDesc) (f : FieldDesc) : List Nat :=
  match f.oneof with
  | none => []
  | some o => (md.fields.filter (fun g => g.oneof == some o && g.number != f.number)).map (·.number)

/-- One yielded entry of the iterators of fields.rs:53-57. -/
inductive Item where
  | field (f : FieldDesc) (v : Value)
  | ext (f : FieldDesc) (v : Value)
  | unknown (u : USet)

/-- Fields of a message sorted by number: `MessageDescriptor::fields` iterates a
`BTreeMap` (api.rs:770-778). -/
def MsgDesc.fieldsByNumber (md : MsgDesc) : List (Nat × FieldDesc) :=
  md.fields.foldl (fun acc f => SMap.insert f.number f acc) []

/-- First half of `iter` with `index_order = false` (fields.rs:157-171), in number order
of the descriptors. `none` is a panic. -/
def iterFieldPart (S : Schema) (incl : Bool) (fs : FieldSet) :
    List (Nat × FieldDesc) → Option (List Item)
  | [] => some []
  | (_, f) :: r =>
    match FieldSet.has S fs f, iterFieldPart S incl fs r with
    | some h, some items =>
      if (if incl then !f.presence || h else h) then
        match FieldSet.get S fs f with
        | some v => some (.field f v :: items)
        | none => none
      else some items
    | _, _ => none

/-- Second half of `iter` (fields.rs:173-193). -/
def iterExtPart (S : Schema) (md : MsgDesc) : FieldSet → Option (List Item)
  | [] => some []
  | (n, .val v) :: r =>
    match md.getExtension n with
    | none => iterExtPart S md r
    | some f =>
      match hasVal S f v, iterExtPart S md r with
      | some true, some items => some (.ext f v :: items)
      | some false, some items => some items
      | _, _ => none
  | (_, .unknown u) :: r => (iterExtPart S md r).map (.unknown u :: ·)
  | (_, .taken) :: r => iterExtPart S md r

/-- `iter(message, include_default, false)` (fields.rs:151-196). -/
def iter (S : Schema) (md : MsgDesc) (incl : Bool) (fs : FieldSet) : Option (List Item) :=
  match iterFieldPart S incl fs md.fieldsByNumber, iterExtPart S md fs with
  | some a, some b => some (a ++ b)
  | _, _ => none

/-- `iter_fields` (fields.rs:198-217). -/
def iterFields (S : Schema) (md : MsgDesc) : FieldSet → Option (List (FieldDesc × Value))
  | [] => some []
  | (n, .val v) :: r =>
    match md.getField n with
    | none => iterFields S md r
    | some f =>
      match hasVal S f v, iterFields S md r with
      | some true, some items => some ((f, v) :: items)
      | some false, some items => some items
      | _, _ => none
  | _ :: r => iterFields S md r

/-- `iter_extensions` (fields.rs:219-238). -/
def iterExtensions (S : Schema) (md : MsgDesc) : FieldSet → Option (List (FieldDesc × Value))
  | [] => some []
  | (n, .val v) :: r =>
    match md.getExtension n with
    | none => iterExtensions S md r
    | some f =>
      match hasVal S f v, iterExtensions S md r with
      | some true, some items => some ((f, v) :: items)
      | some false, some items => some items
      | _, _ => none
  | _ :: r => iterExtensions S md r

/-- `iter_unknown` (fields.rs:240-245). -/
def iterUnknown : FieldSet → List UField
  | [] => []
  | (_, .unknown u) :: r => u ++ iterUnknown r
  | _ :: r => iterUnknown r

/-- `take_fields` run to the end (fields.rs:289-313): what it yields and the field
set it leaves behind. -/
def takeFields (S : Schema) (md : MsgDesc) : FieldSet → Option (List (FieldDesc × Value) × FieldSet)
  | [] => some ([], [])
  | (n, .val v) :: r =>
    match md.getField n, takeFields S md r with
    | none, some (items, fs) => some (items, (n, .val v) :: fs)
    | some f, some (items, fs) =>
      match hasVal S f v with
      | some true => some ((f, v) :: items, (n, .taken) :: fs)
      | some false => some (items, (n, .val v) :: fs)
      | none => none
    | _, none => none
  | e :: r => (takeFields S md r).map (fun p => (p.1, e :: p.2))

/-- `take_extensions` run to the end (fields.rs:315-339). -/
def takeExtensions (S : Schema) (md : MsgDesc) :
    FieldSet → Option (List (FieldDesc × Value) × FieldSet)
  | [] => some ([], [])
  | (n, .val v) :: r =>
    match md.getExtension n, takeExtensions S md r with
    | none, some (items, fs) => some (items, (n, .val v) :: fs)
    | some f, some (items, fs) =>
      match hasVal S f v with
      | some true => some ((f, v) :: items, (n, .taken) :: fs)
      | some false => some (items, (n, .val v) :: fs)
      | none => none
    | _, none => none
  | e :: r => (takeExtensions S md r).map (fun p => (p.1, e :: p.2))

/-- `take_unknown` run to the end (fields.rs:341-350). -/
def takeUnknown : FieldSet → List UField × FieldSet
  | [] => ([], [])
  | (n, .unknown u) :: r => (u ++ (takeUnknown r).1, (n, .taken) :: (takeUnknown r).2)
  | e :: r => ((takeUnknown r).1, e :: (takeUnknown r).2)

end Verif.Dyn
