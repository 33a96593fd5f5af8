import Verif.Pool.Proto
/-!
Finding declarations by path: model of `find_message_proto`, `find_enum_proto`
(`descriptor/mod.rs:420-450`), `find_file_field_proto_mut`
(`descriptor/build/resolve.rs:922-958`) and `set_file_option`
(`descriptor/build/options.rs:701-812`).
-/
set_option autoImplicit false
namespace Verif.Pool
open Verif.Dyn

/-- `find_message_proto` (descriptor/mod.rs:420-436); `none` is a panic.  The loop keeps
the current message; the tag `message_type` (4) restarts from the file, as the code does. -/
def findMsgFrom (f : FileP) : Option MsgP → Path → Option MsgP
  | cur, [] => cur
  | _, [_] => none
  | cur, t :: i :: rest =>
    if t = Tag.fileMessage then
      match f.messages[i]? with
      | some m => findMsgFrom f (some m) rest
      | none => none
    else if t = Tag.msgNested then
      match cur with
      | some m =>
        match m.nested[i]? with
        | some n => findMsgFrom f (some n) rest
        | none => none
      | none => none
    else none

def findMsg (f : FileP) (p : Path) : Option MsgP := findMsgFrom f none p

/-- `find_enum_proto` (descriptor/mod.rs:438-449). -/
def findEnum (f : FileP) (p : Path) : Option EnumP :=
  match p with
  | [_, i] => f.enums[i]?
  | _ =>
    match findMsg f (p.take (p.length - 2)) with
    | some m => (p.getLast?).bind (fun i => m.enums[i]?)
    | none => none

/-- `find_message_field_proto` (resolve.rs:940-958), as an update of the field. -/
def modFieldMsg (g : FieldP → FieldP) : Path → MsgP → Option MsgP
  | t :: i :: rest, m =>
    if t = Tag.msgField then
      if i < m.fields.length then some { m with fields := m.fields.modify i g } else none
    else if t = Tag.msgExtension then
      if i < m.exts.length then some { m with exts := m.exts.modify i g } else none
    else if t = Tag.msgNested then
      match m.nested[i]? with
      | some n =>
        match modFieldMsg g rest n with
        | some n' => some { m with nested := m.nested.set i n' }
        | none => none
      | none => none
    else none
  | _, _ => none

/-- `find_file_field_proto_mut` (resolve.rs:922-938), as an update of the field. -/
def modField (g : FieldP → FieldP) (f : FileP) : Path → Option FileP
  | t :: i :: rest =>
    if t = Tag.fileMessage then
      match f.messages[i]? with
      | some m =>
        match modFieldMsg g rest m with
        | some m' => some { f with messages := f.messages.set i m' }
        | none => none
      | none => none
    else if t = Tag.fileExtension then
      if i < f.exts.length then some { f with exts := f.exts.modify i g } else none
    else none
  | _ => none

/-- The service branch of `set_type_name` (resolve.rs:893-903), as an update of the
method. -/
def modMethod (g : MethodP → MethodP) (f : FileP) : Path → Option FileP
  | [_, i, _, j] =>
    match f.services[i]? with
    | some s =>
      if j < s.methods.length then
        some { f with services := f.services.set i { s with methods := s.methods.modify j g } }
      else none
    | none => none
  | _ => none

/-- `set_message_option` (options.rs:745-790) for the options of a message itself. -/
def modMsgIn (g : MsgP → MsgP) : Path → MsgP → Option MsgP
  | [], m => some (g m)
  | [_], _ => none
  | t :: i :: rest, m =>
    if t = Tag.msgNested then
      match m.nested[i]? with
      | some n =>
        match modMsgIn g rest n with
        | some n' => some { m with nested := m.nested.set i n' }
        | none => none
      | none => none
    else none

/-- `set_file_option` (options.rs:701-743) for the options of a message. -/
def modMsg (g : MsgP → MsgP) (f : FileP) : Path → Option FileP
  | t :: i :: rest =>
    if t = Tag.fileMessage then
      match f.messages[i]? with
      | some m =>
        match modMsgIn g rest m with
        | some m' => some { f with messages := f.messages.set i m' }
        | none => none
      | none => none
    else none
  | _ => none

end Verif.Pool
