import Verif.Pool.Proto
/-!
Traversal of file descriptors: model of `descriptor/build/visit.rs`.

The three build passes (names, types, options) run the same traversal with different
callbacks, so the traversal is modelled as the list of callbacks it makes, in order,
with their arguments.
-/
set_option autoImplicit false
namespace Verif.Pool
open Verif.Dyn

/-- `DescriptorPoolOffsets` (build/mod.rs:25-31). -/
structure Offs where
  file : Nat := 0
  message : Nat := 0
  enum : Nat := 0
  service : Nat := 0
  extension : Nat := 0
  deriving DecidableEq, Repr

/-- One callback of `trait Visitor` (visit.rs:12-93). -/
inductive Event where
  | file (path : Path) (index : Nat) (f : FileP)
  | message (path : Path) (full : Name) (file : Nat) (parent : Option Nat) (index : Nat) (m : MsgP)
  | field (path : Path) (full : Name) (file : Nat) (msg : Nat) (index : Nat) (f : FieldP)
  | oneof (path : Path) (full : Name) (file : Nat) (msg : Nat) (index : Nat) (o : OneofP)
  | service (path : Path) (full : Name) (file : Nat) (index : Nat) (s : ServiceP)
  | method (path : Path) (full : Name) (file : Nat) (svc : Nat) (index : Nat) (m : MethodP)
  | enum (path : Path) (full : Name) (file : Nat) (parent : Option Nat) (index : Nat) (e : EnumP)
  | enumValue (path : Path) (full : Name) (file : Nat) (enum : Nat) (index : Nat) (v : EnumValueP)
  | extension (path : Path) (full : Name) (file : Nat) (parent : Option Nat) (index : Nat) (f : FieldP)

/-- `Context::push_scope` (visit.rs:356-361). -/
def pushScope (scope name : Name) : Name :=
  match scope with
  | [] => name
  | c :: r => (c :: r) ++ '.' :: name

/-- `Context::pop_scope` (visit.rs:363-367). -/
def popScope (scope name : Name) : Name := scope.take (scope.length - name.length - 1)

/-- The scope stack kept in one string is restored by `pop_scope`, so the traversal can
pass the scope down as an argument. -/
theorem popScope_pushScope (scope name : Name) : popScope (pushScope scope name) name = scope := by
  cases scope with
  | nil => simp [popScope, pushScope]
  | cons c r =>
    simp only [popScope, pushScope]
    rw [show ((c :: r) ++ '.' :: name).length - List.length name - 1 = (c :: r).length by
      simp only [List.length_append, List.length_cons]; omega]
    exact List.take_left' rfl

/-- The loops over fields and oneofs (visit.rs:178-192, 215-239). -/
def visitFields (path : Path) (scope : Name) (file msg : Nat) (fs : List FieldP) : List Event :=
  fs.mapIdx fun i f => .field (path ++ [Tag.msgField, i]) (pushScope scope f.name) file msg i f

def visitOneofs (path : Path) (scope : Name) (file msg : Nat) (os : List OneofP) : List Event :=
  os.mapIdx fun i o => .oneof (path ++ [Tag.msgOneof, i]) (pushScope scope o.name) file msg i o

/-- The loop over the values of an enum (visit.rs:297-315): the values live in the scope
of the enum, not inside it. -/
def visitValues (path : Path) (scope : Name) (file enum : Nat) (vs : List EnumValueP) :
    List Event :=
  vs.mapIdx fun i v =>
    .enumValue (path ++ [Tag.enumValue, i]) (pushScope scope v.name) file enum i v

/-- The loop over the methods of a service (visit.rs:252-258). -/
def visitMethods (path : Path) (scope : Name) (file svc : Nat) (ms : List MethodP) : List Event :=
  ms.mapIdx fun i m => .method (path ++ [Tag.svcMethod, i]) (pushScope scope m.name) file svc i m

/-- `visit_enum` (visit.rs:276-299) in a loop; `tag` is the path element of the loop. -/
def visitEnums (path : Path) (tag : Nat) (scope : Name) (file : Nat) (parent : Option Nat) :
    Nat → List EnumP → Offs → List Event × Offs
  | _, [], o => ([], o)
  | i, e :: es, o =>
    let p := path ++ [tag, i]
    let r := visitEnums path tag scope file parent (i + 1) es { o with enum := o.enum + 1 }
    (.enum p (pushScope scope e.name) file parent o.enum e ::
      (visitValues p scope file o.enum e.values ++ r.1), r.2)

/-- `visit_extension` (visit.rs:317-336) in a loop. -/
def visitExts (path : Path) (tag : Nat) (scope : Name) (file : Nat) (parent : Option Nat) :
    Nat → List FieldP → Offs → List Event × Offs
  | _, [], o => ([], o)
  | i, f :: fs, o =>
    let r := visitExts path tag scope file parent (i + 1) fs { o with extension := o.extension + 1 }
    (.extension (path ++ [tag, i]) (pushScope scope f.name) file parent o.extension f :: r.1, r.2)

/-- `visit_service` (visit.rs:241-263) in a loop. -/
def visitServices (scope : Name) (file : Nat) :
    Nat → List ServiceP → Offs → List Event × Offs
  | _, [], o => ([], o)
  | i, s :: ss, o =>
    let p := [Tag.fileService, i]
    let full := pushScope scope s.name
    let r := visitServices scope file (i + 1) ss { o with service := o.service + 1 }
    (.service p full file o.service s ::
      (visitMethods p full file o.service s.methods ++ r.1), r.2)

mutual
/-- `visit_message` (visit.rs:157-213). -/
def visitMsg (path : Path) (scope : Name) (file : Nat) (parent : Option Nat) :
    MsgP → Offs → List Event × Offs
  | ⟨name, fields, exts, nested, enums, extRanges, oneofs, options, reserved, reservedNames⟩, o =>
    let full := pushScope scope name
    let idx := o.message
    let o := { o with message := o.message + 1 }
    let r1 := visitMsgs path Tag.msgNested full file (some idx) 0 nested o
    let r2 := visitEnums path Tag.msgEnum full file (some idx) 0 enums r1.2
    let r3 := visitExts path Tag.msgExtension full file (some idx) 0 exts r2.2
    (.message path full file parent idx
        ⟨name, fields, exts, nested, enums, extRanges, oneofs, options, reserved, reservedNames⟩ ::
      (visitOneofs path full file idx oneofs ++ (visitFields path full file idx fields ++
        (r1.1 ++ (r2.1 ++ r3.1)))), r3.2)
termination_by structural m => m
/-- The loops over messages (visit.rs:126-132, 194-200). -/
def visitMsgs (path : Path) (tag : Nat) (scope : Name) (file : Nat) (parent : Option Nat) :
    Nat → List MsgP → Offs → List Event × Offs
  | _, [], o => ([], o)
  | i, m :: ms, o =>
    let r := visitMsg (path ++ [tag, i]) scope file parent m o
    let r' := visitMsgs path tag scope file parent (i + 1) ms r.2
    (r.1 ++ r'.1, r'.2)
termination_by structural _ ms => ms
end

/-- `visit_file` (visit.rs:116-155). -/
def visitFile (f : FileP) (o : Offs) : List Event × Offs :=
  let idx := o.file
  let o := { o with file := o.file + 1 }
  let r1 := visitMsgs [] Tag.fileMessage f.package idx none 0 f.messages o
  let r2 := visitEnums [] Tag.fileEnum f.package idx none 0 f.enums r1.2
  let r3 := visitServices f.package idx 0 f.services r2.2
  let r4 := visitExts [] Tag.fileExtension f.package idx none 0 f.exts r3.2
  (.file [] idx f :: (r1.1 ++ (r2.1 ++ (r3.1 ++ r4.1))), r4.2)

/-- `visit` (visit.rs:95-108). -/
def visit : Offs → List FileP → List Event
  | _, [] => []
  | o, f :: fs =>
    let r := visitFile f o
    r.1 ++ visit r.2 fs

end Verif.Pool
