import Verif.Dyn.Codec
/-!
The public accessors of `DynamicMessage` (dynamic/mod.rs:145-556), as functions that
take the message and return the message after the call and the result.  `none` is a
Rust panic.
-/
set_option autoImplicit false
namespace Verif.Dyn
open Verif.Wire

/-- `SetFieldError` (dynamic/mod.rs:98-108). -/
inductive SetErr where
  | notFound
  | invalidType (f : FieldDesc) (v : Value)

/-- `get_field_by_name` of the descriptor (api.rs:863-871): names are unique in a
message (C27), the model takes the first. -/
def MsgDesc.getFieldByName (md : MsgDesc) (n : Name) : Option FieldDesc :=
  md.fields.find? (fun f => f.name == n)

namespace DynMsg

/-- `has_field` / `has_extension` (dynamic/mod.rs:191-193, 455-457). -/
def hasField (S : Schema) (m : DynMsg) (f : FieldDesc) : Option Bool := FieldSet.has S m.fields f

/-- `get_field` / `get_extension` (dynamic/mod.rs:196-198, 462-464). -/
def getField (S : Schema) (m : DynMsg) (f : FieldDesc) : Option Value := FieldSet.get S m.fields f

/-- `get_field_mut` (dynamic/mod.rs:202-204), with the value the caller leaves behind the
reference given by `g`. -/
def modifyField (S : Schema) (md : MsgDesc) (m : DynMsg) (f : FieldDesc) (g : Value → Value) :
    Option DynMsg :=
  match FieldSet.getMut S (siblings md f) m.fields f with
  | none => none
  | some (fs, v) => some ⟨m.desc, FieldSet.write f (g v) fs⟩

/-- `get_extension_mut` (dynamic/mod.rs:470-472). -/
def modifyExt (S : Schema) (m : DynMsg) (f : FieldDesc) (g : Value → Value) : Option DynMsg :=
  match FieldSet.getMut S [] m.fields f with
  | none => none
  | some (fs, v) => some ⟨m.desc, FieldSet.write f (g v) fs⟩

/-- `try_set_field` (dynamic/mod.rs:235-249). -/
def trySetField (S : Schema) (md : MsgDesc) (m : DynMsg) (f : FieldDesc) (v : Value) :
    Option (DynMsg × Except SetErr Unit) :=
  match validFor S f v with
  | none => none
  | some true => some (⟨m.desc, FieldSet.set (siblings md f) m.fields f v⟩, .ok ())
  | some false => some (m, .error (.invalidType f v))

/-- `set_field` (dynamic/mod.rs:213-215): `unwrap`. -/
def setField (S : Schema) (md : MsgDesc) (m : DynMsg) (f : FieldDesc) (v : Value) : Option DynMsg :=
  match trySetField S md m f v with
  | some (m', .ok ()) => some m'
  | _ => none

/-- `set_extension` (dynamic/mod.rs:477-479) in a release build: the validity check is a
`debug_assert` (fields.rs:97-100). -/
def setExt (m : DynMsg) (f : FieldDesc) (v : Value) : DynMsg :=
  ⟨m.desc, FieldSet.set [] m.fields f v⟩

/-- `clear_field` / `clear_extension` (dynamic/mod.rs:255-257, 484-486). -/
def clearField (m : DynMsg) (f : FieldDesc) : DynMsg := ⟨m.desc, FieldSet.clear m.fields f⟩

/-- `take_field` / `take_extension` (dynamic/mod.rs:426-428, 491-493). -/
def takeField (S : Schema) (m : DynMsg) (f : FieldDesc) : Option (DynMsg × Option Value) :=
  match FieldSet.take S m.fields f with
  | none => none
  | some (v, fs) => some (⟨m.desc, fs⟩, v)

/-- `try_set_field_by_number` (dynamic/mod.rs:320-330). -/
def trySetByNumber (S : Schema) (md : MsgDesc) (m : DynMsg) (n : Nat) (v : Value) :
    Option (DynMsg × Except SetErr Unit) :=
  match md.getField n with
  | some f => trySetField S md m f v
  | none => some (m, .error .notFound)

/-- `try_set_field_by_name` (dynamic/mod.rs:404-410). -/
def trySetByName (S : Schema) (md : MsgDesc) (m : DynMsg) (n : Name) (v : Value) :
    Option (DynMsg × Except SetErr Unit) :=
  match md.getFieldByName n with
  | some f => trySetField S md m f v
  | none => some (m, .error .notFound)

/-- `has_field_by_number` (dynamic/mod.rs:262-266). -/
def hasByNumber (S : Schema) (md : MsgDesc) (m : DynMsg) (n : Nat) : Option Bool :=
  match md.getField n with
  | some f => hasField S m f
  | none => some false

/-- `get_field_by_number` (dynamic/mod.rs:273-277). -/
def getByNumber (S : Schema) (md : MsgDesc) (m : DynMsg) (n : Nat) : Option (Option Value) :=
  match md.getField n with
  | some f => (getField S m f).map some
  | none => some none

/-- `clear_field_by_number` (dynamic/mod.rs:337-341). -/
def clearByNumber (md : MsgDesc) (m : DynMsg) (n : Nat) : DynMsg :=
  match md.getField n with
  | some f => clearField m f
  | none => m

/-- `take_field_by_number` (dynamic/mod.rs:444-450). -/
def takeByNumber (S : Schema) (md : MsgDesc) (m : DynMsg) (n : Nat) :
    Option (DynMsg × Option Value) :=
  match md.getField n with
  | some f => takeField S m f
  | none => some (m, none)

end DynMsg

/-- `fields_mut` / `extensions_mut` run to the end (fields.rs:247-287), the caller leaving
`g f v` behind each reference. `look` is `get_field` or `get_extension`. -/
def modifyAll (S : Schema) (look : Nat → Option FieldDesc) (g : FieldDesc → Value → Value) :
    FieldSet → Option FieldSet
  | [] => some []
  | (n, .val v) :: r =>
    match look n with
    | none => (modifyAll S look g r).map ((n, .val v) :: ·)
    | some f =>
      match hasVal S f v, modifyAll S look g r with
      | some true, some r' => some ((n, .val (g f v)) :: r')
      | some false, some r' => some ((n, .val v) :: r')
      | _, _ => none
  | e :: r => (modifyAll S look g r).map (e :: ·)

end Verif.Dyn
