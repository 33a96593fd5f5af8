import Verif.Pool.Visit
/-!
The contents of a descriptor pool: model of the `*Inner` structures of
`descriptor/mod.rs`, and the error values of the builder.
-/
set_option autoImplicit false
namespace Verif.Pool
open Verif.Dyn

/-- Ways in which the Rust code stops without returning. -/
inductive Panic where
  /-- slice or `Vec` index out of bounds, or an unknown path element -/
  | index
  /-- arithmetic overflow with overflow checks on -/
  | overflow
  /-- string slice not on a character boundary -/
  | slice
  /-- unbounded recursion: the stack is exhausted -/
  | stack
  deriving DecidableEq, Repr

abbrev Res (α : Type) := Except Panic α

/-- `v[i]`. -/
def getR {α : Type} (l : List α) (i : Nat) : Res α :=
  match l[i]? with
  | some a => .ok a
  | none => .error .index

/-- `v[i] = f(v[i])`. -/
def modR {α : Type} (l : List α) (i : Nat) (f : α → α) : Res (List α) :=
  if i < l.length then .ok (l.modify i f) else .error .index

/-- `Option::unwrap` and friends on a computed place. -/
def unwrapR {α : Type} : Option α → Res α
  | some a => .ok a
  | none => .error .index

/-! `HashMap<Box<str>, _>`: only `get`, `insert` and `retain` are used, never iteration. -/

def lookupN {α : Type} : List (Name × α) → Name → Option α
  | [], _ => none
  | (k, v) :: r, n => if k = n then some v else lookupN r n

/-- `HashMap::insert`. -/
def insertN {α : Type} (n : Name) (a : α) : List (Name × α) → List (Name × α)
  | [] => [(n, a)]
  | (k, v) :: r => if k = n then (k, a) :: r else (k, v) :: insertN n a r

/-- `Identity` (descriptor/mod.rs:140-146). -/
structure Ident where
  file : Nat
  path : Path
  fullName : Name
  nameIndex : Nat

/-- `Identity::new` (descriptor/mod.rs:319-331). -/
def Ident.mk' (file : Nat) (path : Path) (full name : Name) : Ident :=
  { file := file, path := path, fullName := full, nameIndex := full.length - name.length }

/-- `Identity::name` (descriptor/mod.rs:337-339). -/
def Ident.name (i : Ident) : Name := i.fullName.drop i.nameIndex

/-- `DefinitionKind` (descriptor/mod.rs:155-166). -/
inductive DefKind where
  | package
  | message (i : Nat)
  | field (msg : Nat)
  | oneof (msg : Nat)
  | service (i : Nat)
  | method (svc : Nat)
  | enum (i : Nat)
  | enumValue (enum : Nat)
  | extension (i : Nat)
  deriving DecidableEq, Repr

/-- `DefinitionKind::is_parent` (descriptor/mod.rs:394-407). -/
def DefKind.isParent : DefKind → Bool
  | .package | .message _ | .service _ | .enum _ => true
  | _ => false

/-- `Definition` (descriptor/mod.rs:148-153). -/
structure Def where
  file : Nat
  path : Path
  kind : DefKind

/-- `Syntax` (descriptor/mod.rs:42-48). -/
inductive Syn where
  | proto2 | proto3
  deriving DecidableEq, Repr

/-- `FieldDescriptorInner` (descriptor/mod.rs:224-235).  `KindIndex::Group(i)` is
`kind = message i` with `group = true`. -/
structure FieldD where
  id : Ident
  number : Nat
  jsonName : Name
  kind : Kind
  group : Bool
  oneof : Option Nat
  packed : Bool
  presence : Bool
  card : Card
  default : Option Value

/-- `OneofDescriptorInner` (descriptor/mod.rs:211-215). -/
structure OneofD where
  id : Ident
  fields : List Nat

/-- `MessageDescriptorInner` (descriptor/mod.rs:192-202). -/
structure MsgD where
  id : Ident
  parent : Option Nat
  extensions : List Nat
  fields : List FieldD
  fieldNumbers : SMap Nat
  fieldNames : List (Name × Nat)
  fieldJsonNames : List (Name × Nat)
  oneofs : List OneofD

/-- `ExtensionDescriptorInner` (descriptor/mod.rs:244-255). -/
structure ExtD where
  id : Ident
  parent : Option Nat
  number : Nat
  jsonName : Name
  extendee : Nat
  kind : Kind
  group : Bool
  packed : Bool
  card : Card
  default : Option Value

/-- `EnumValueDescriptorInner` (descriptor/mod.rs:281-285). -/
structure ValueD where
  id : Ident
  number : Int

/-- `EnumDescriptorInner` (descriptor/mod.rs:264-272). -/
structure EnumD where
  id : Ident
  parent : Option Nat
  values : List ValueD
  valueNumbers : List (Int × Nat)
  valueNames : List (Name × Nat)
  allowAlias : Bool

/-- `MethodDescriptorInner` (descriptor/mod.rs:307-312). -/
structure MethodD where
  id : Ident
  input : Nat
  output : Nat

/-- `ServiceDescriptorInner` (descriptor/mod.rs:294-298). -/
structure SvcD where
  id : Ident
  methods : List MethodD

/-- `FileDescriptorInner` (descriptor/mod.rs:175-182).  `prost` is the copy handed out to
users, filled in when the addition has succeeded. -/
structure FileD where
  syn : Syn
  raw : FileP
  prost : FileP
  deps : List Nat
  /-- `transitive_dependencies`, a `HashSet` of which only `insert` and `contains` are used. -/
  trans : List Nat

/-- `DescriptorPoolInner` (descriptor/mod.rs:129-138). -/
structure Pool where
  names : List (Name × Def)
  fileNames : List (Name × Nat)
  files : List FileD
  messages : List MsgD
  enums : List EnumD
  extensions : List ExtD
  services : List SvcD

/-- `DescriptorPool::new` (api.rs:164-166). -/
def Pool.empty : Pool := ⟨[], [], [], [], [], [], []⟩

/-- `DescriptorErrorKind` (descriptor/error.rs), without the labels. -/
inductive ErrKind where
  | unknownSyntax
  | duplicateFileName (n : Name)
  | duplicateName (n : Name)
  | duplicateCamelCase
  | emptyEnum
  | proto3EnumDefault
  | fileNotFound (n : Name)
  | importIndex
  | fieldNumber (n : Int)
  | numberReserved (n : Int)
  | numberInExtensionRange (n : Int)
  | extensionOutOfRange (n : Int)
  | notFound (n : Name)
  | notImported (n : Name)
  | shadowed (n : Name)
  | invalidType (n : Name)
  | oneofIndex
  | duplicateFieldNumber
  | duplicateJsonName
  | invalidDefault
  | missingRequired
  | duplicateEnumNumber
  | enumNumberReserved
  | option
  deriving DecidableEq, Repr

/-- State of a pass: the pool being built and `errors`. -/
structure St where
  pool : Pool
  errors : List ErrKind

def St.push (st : St) (e : ErrKind) : St := { st with errors := st.errors ++ [e] }

/-- `Label::new` (descriptor/error.rs:776-807): reads `files[file]`. -/
def label (st : St) (file : Nat) : Res Unit :=
  if file < st.pool.files.length then .ok () else .error .index

/-- Report an error located in `file`. -/
def St.report (st : St) (file : Nat) (e : ErrKind) : Res St := do
  label st file
  .ok (st.push e)

/-- Run a pass: the callbacks in order. -/
def runPass (step : St → Event → Res St) : St → List Event → Res St
  | st, [] => .ok st
  | st, e :: es =>
    match step st e with
    | .ok st' => runPass step st' es
    | .error p => .error p

end Verif.Pool
