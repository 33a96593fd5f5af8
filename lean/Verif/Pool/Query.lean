import Verif.Pool.Build
/-!
Reading a pool: model of the look-ups of `descriptor/api.rs`.  Descriptors are the
indices the code stores; `Res` results make the `expect`s and slice accesses explicit.
-/
set_option autoImplicit false
namespace Verif.Pool
open Verif.Wire Verif.Dyn

/-- `name.strip_prefix('.').unwrap_or(name)` (descriptor/mod.rs:411). -/
def stripDot : Name → Name
  | '.' :: r => r
  | n => n

/-- `DescriptorPoolInner::get_by_name` (descriptor/mod.rs:410-413). -/
def Pool.getByName (p : Pool) (n : Name) : Option Def := lookupN p.names (stripDot n)

/-- `DescriptorPool::get_message_by_name` (api.rs:467-478). -/
def Pool.messageByName (p : Pool) (n : Name) : Option Nat :=
  match p.getByName n with
  | some ⟨_, _, .message i⟩ => some i
  | _ => none

/-- `DescriptorPool::get_enum_by_name` (api.rs:481-492). -/
def Pool.enumByName (p : Pool) (n : Name) : Option Nat :=
  match p.getByName n with
  | some ⟨_, _, .enum i⟩ => some i
  | _ => none

/-- `DescriptorPool::get_extension_by_name` (api.rs:495-506). -/
def Pool.extensionByName (p : Pool) (n : Name) : Option Nat :=
  match p.getByName n with
  | some ⟨_, _, .extension i⟩ => some i
  | _ => none

/-- `DescriptorPool::get_service_by_name` (api.rs:509-520). -/
def Pool.serviceByName (p : Pool) (n : Name) : Option Nat :=
  match p.getByName n with
  | some ⟨_, _, .service i⟩ => some i
  | _ => none

/-- `DescriptorPool::get_file_by_name` (api.rs:330-339). -/
def Pool.fileByName (p : Pool) (n : Name) : Option Nat := lookupN p.fileNames n

/-- `iter.map(f)` where `f` may panic. -/
def mapR {α β : Type} (f : α → Res β) : List α → Res (List β)
  | [] => .ok []
  | a :: r =>
    match f a with
    | .error p => .error p
    | .ok b =>
      match mapR f r with
      | .error p => .error p
      | .ok bs => .ok (b :: bs)

/-- `FileDescriptor::file_descriptor_proto` (api.rs:655-657). -/
def Pool.fileProto (p : Pool) (i : Nat) : Res FileP :=
  match p.files[i]? with
  | some f => .ok f.prost
  | none => .error .index

/-- `FileDescriptor::messages` (api.rs:611-618); `join_name` is `pushScope`. -/
def Pool.fileMessages (p : Pool) (i : Nat) : Res (List Nat) := do
  let f ← p.fileProto i
  mapR (fun m => unwrapR (p.messageByName (pushScope f.package m.name))) f.messages

/-- `FileDescriptor::enums` (api.rs:623-630). -/
def Pool.fileEnums (p : Pool) (i : Nat) : Res (List Nat) := do
  let f ← p.fileProto i
  mapR (fun m => unwrapR (p.enumByName (pushScope f.package m.name))) f.enums

/-- `FileDescriptor::extensions` (api.rs:635-642). -/
def Pool.fileExtensions (p : Pool) (i : Nat) : Res (List Nat) := do
  let f ← p.fileProto i
  mapR (fun m => unwrapR (p.extensionByName (pushScope f.package m.name))) f.exts

/-- `FileDescriptor::services` (api.rs:645-652). -/
def Pool.fileServices (p : Pool) (i : Nat) : Res (List Nat) := do
  let f ← p.fileProto i
  mapR (fun m => unwrapR (p.serviceByName (pushScope f.package m.name))) f.services

/-- `FileDescriptor::dependencies` (api.rs:588-594). -/
def Pool.fileDeps (p : Pool) (i : Nat) : Res (List Nat) := do
  let f ← p.fileProto i
  mapR (fun n => unwrapR (p.fileByName n)) f.deps

/-- `raw.dependency[index as usize]` for an `i32` index. -/
def getI {α : Type} (l : List α) (i : Int) : Option α :=
  if 0 ≤ i then l[i.toNat]? else none

/-- `FileDescriptor::public_dependencies` (api.rs:599-606). -/
def Pool.filePublicDeps (p : Pool) (i : Nat) : Res (List Nat) := do
  let f ← p.fileProto i
  mapR (fun j => unwrapR ((getI f.deps j).bind p.fileByName)) f.publicDeps

/-- `MessageDescriptor::descriptor_proto` (api.rs:756-758). -/
def Pool.messageProto (p : Pool) (k : Nat) : Res MsgP := do
  let m ← getR p.messages k
  let f ← getR p.files m.id.file
  unwrapR (findMsg f.prost m.id.path)

/-- `MessageDescriptor::is_map_entry` (api.rs:896-902). -/
def Pool.isMapEntry (p : Pool) (k : Nat) : Res Bool := do
  let m ← getR p.messages k
  let f ← getR p.files m.id.file
  let mp ← unwrapR (findMsg f.raw m.id.path)
  .ok (match mp.options with
    | some o => o == some true
    | none => false)

/-- `MessageDescriptor::fields` (api.rs:770-778). -/
def MsgD.fieldList (m : MsgD) : List Nat := m.fieldNumbers.map (·.2)

/-- `MessageDescriptor::get_field` (api.rs:852-860). -/
def MsgD.field? (m : MsgD) (n : Nat) : Option Nat := SMap.get? m.fieldNumbers n

/-- `MessageDescriptor::get_field_by_name` (api.rs:863-871). -/
def MsgD.fieldByName? (m : MsgD) (n : Name) : Option Nat := lookupN m.fieldNames n

/-- `MessageDescriptor::get_field_by_json_name` (api.rs:874-882). -/
def MsgD.fieldByJson? (m : MsgD) (n : Name) : Option Nat := lookupN m.fieldJsonNames n

/-- `FieldDescriptor::field_descriptor_proto` (api.rs:1021-1023). -/
def Pool.fieldProto (p : Pool) (k i : Nat) : Res FieldP := do
  let m ← getR p.messages k
  let f ← getR m.fields i
  let mp ← p.messageProto k
  let j ← unwrapR f.id.path.getLast?
  getR mp.fields j

/-- `OneofDescriptor::oneof_descriptor_proto` (api.rs:1645-1647). -/
def Pool.oneofProto (p : Pool) (k i : Nat) : Res OneofP := do
  let mp ← p.messageProto k
  getR mp.oneofs i

/-- `EnumDescriptor::enum_descriptor_proto` (api.rs:1434-1446). -/
def Pool.enumProto (p : Pool) (k : Nat) : Res EnumP := do
  let e ← getR p.enums k
  let f ← getR p.files e.id.file
  unwrapR (findEnum f.prost e.id.path)

/-- `EnumValueDescriptor::enum_value_descriptor_proto` (api.rs:1574-1576). -/
def Pool.valueProto (p : Pool) (k i : Nat) : Res EnumValueP := do
  let e ← p.enumProto k
  getR e.values i

/-- `ServiceDescriptor::service_descriptor_proto` (api.rs:1757-1761). -/
def Pool.serviceProto (p : Pool) (k : Nat) : Res ServiceP := do
  let s ← getR p.services k
  let f ← getR p.files s.id.file
  let j ← unwrapR s.id.path.getLast?
  getR f.prost.services j

/-- `MethodDescriptor::method_descriptor_proto` (api.rs:1858-1860). -/
def Pool.methodProto (p : Pool) (k i : Nat) : Res MethodP := do
  let s ← p.serviceProto k
  getR s.methods i

/-- `ExtensionDescriptor::field_descriptor_proto` (api.rs:1226-1238). -/
def findExt (f : FileP) (p : Path) : Option FieldP :=
  match p with
  | [_, i] => f.exts[i]?
  | _ =>
    match findMsg f (p.take (p.length - 2)) with
    | some m => (p.getLast?).bind (fun i => m.exts[i]?)
    | none => none

def Pool.extensionProto (p : Pool) (k : Nat) : Res FieldP := do
  let e ← getR p.extensions k
  let f ← getR p.files e.id.file
  unwrapR (findExt f.prost e.id.path)

/-- `self.extensions().find(|ext| ..)` (api.rs:948-960). -/
def findExtension (p : Pool) (test : ExtD → Bool) : List Nat → Res (Option Nat)
  | [] => .ok none
  | i :: r =>
    match p.extensions[i]? with
    | none => .error .index
    | some e => if test e then .ok (some i) else findExtension p test r

/-- `MessageDescriptor::get_extension` (api.rs:948-950). -/
def Pool.extension? (p : Pool) (k n : Nat) : Res (Option Nat) := do
  let m ← getR p.messages k
  findExtension p (fun e => e.number == n) m.extensions

/-- `MessageDescriptor::get_extension_by_full_name` (api.rs:953-955). -/
def Pool.extensionByFullName? (p : Pool) (k : Nat) (n : Name) : Res (Option Nat) := do
  let m ← getR p.messages k
  findExtension p (fun e => e.id.fullName == n) m.extensions

/-- `EnumDescriptor::get_value` (api.rs:1481-1490). -/
def EnumD.value? (env : Env) (e : EnumD) (n : Int) : Res (Option Nat) :=
  match env.search e.valueNumbers n with
  | (false, _) => .ok none
  | (true, i) =>
    match e.valueNumbers[i]? with
    | some (_, j) => .ok (some j)
    | none => .error .index

/-- `EnumDescriptor::values` (api.rs:1493-1501). -/
def EnumD.valueList (e : EnumD) : List Nat := e.valueNumbers.map (·.2)

/-- `EnumDescriptor::get_value_by_name` (api.rs:1467-1475). -/
def EnumD.valueByName? (e : EnumD) (n : Name) : Option Nat := lookupN e.valueNames n

/-- `MessageDescriptor::map_entry_key_field` (api.rs:909-913), release build. -/
def Pool.mapKeyField (p : Pool) (k : Nat) : Res Nat := do
  let m ← getR p.messages k
  unwrapR (m.field? 1)

/-- `MessageDescriptor::map_entry_value_field` (api.rs:920-924), release build. -/
def Pool.mapValueField (p : Pool) (k : Nat) : Res Nat := do
  let m ← getR p.messages k
  unwrapR (m.field? 2)

end Verif.Pool
