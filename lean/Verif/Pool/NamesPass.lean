import Verif.Pool.Inner
/-!
First pass of the builder: model of `descriptor/build/names.rs`.
-/
set_option autoImplicit false
namespace Verif.Pool
open Verif.Dyn

/-- The parts of a package name before each of its dots
(`file.package().match_indices('.')`, names.rs:86-94). -/
def dotPrefixes : Name → List Name
  | [] => []
  | c :: r =>
    let t := (dotPrefixes r).map (c :: ·)
    if c = '.' then [] :: t else t

/-- `NameVisitor::add_name` (names.rs:318-361). -/
def addName (st : St) (file : Nat) (name : Name) (path : Path) (kind : DefKind) : Res St :=
  match lookupN st.pool.names name with
  | none => .ok { st with pool := { st.pool with
      names := st.pool.names ++ [(name, { file := file, path := path, kind := kind })] } }
  | some entry =>
    if kind = .package ∧ entry.kind = .package then .ok st
    else do
      label st entry.file
      st.report file (.duplicateName name)

/-- The names a package introduces: every prefix, then the package itself. -/
def packageNames (pkg : Name) : List Name :=
  if pkg = [] then [] else dotPrefixes pkg ++ [pkg]

/-- The loop over the package prefixes (names.rs:85-103). -/
def addPackages (file : Nat) (path : Path) : St → List Name → Res St
  | st, [] => .ok st
  | st, n :: ns =>
    match addName st file n path .package with
    | .ok st' => addPackages file path st' ns
    | .error p => .error p

/-- `file.syntax` (names.rs:54-69). -/
def parseSyn (s : Option Name) : Option Syn :=
  if s = none ∨ s = some "proto2".toList then some .proto2
  else if s = some "proto3".toList then some .proto3
  else none

/-- `to_lower_without_underscores` (names.rs:409-416). -/
def toLowerWithoutUnderscores (n : Name) : Name := (n.filter (· ≠ '_')).map Char.toLower

/-- `check_message_field_camel_case_names` (names.rs:363-406). -/
def checkCamelCase (file : Nat) : St → List Name → List FieldP → Res St
  | st, _, [] => .ok st
  | st, seen, f :: fs =>
    let key := toLowerWithoutUnderscores f.name
    if seen.contains key then
      match st.report file .duplicateCamelCase with
      | .ok st' => checkCamelCase file st' seen fs
      | .error p => .error p
    else checkCamelCase file st (key :: seen) fs

/-- A message with no fields yet (names.rs:121-130). -/
def MsgD.fresh (id : Ident) (parent : Option Nat) : MsgD :=
  { id := id, parent := parent, extensions := [], fields := [], fieldNumbers := [],
    fieldNames := [], fieldJsonNames := [], oneofs := [] }

/-- An enum with no values yet (names.rs:254-261). -/
def EnumD.fresh (id : Ident) (parent : Option Nat) (alias : Bool) : EnumD :=
  { id := id, parent := parent, values := [], valueNumbers := [], valueNames := [],
    allowAlias := alias }

/-- The checks of the first value of an enum (names.rs:242-258). -/
def checkFirst (st : St) (file : Nat) (vs : List EnumValueP) : Res St :=
  match vs with
  | [] => st.report file .emptyEnum
  | v :: _ => do
    let fd ← getR st.pool.files file
    if fd.syn ≠ .proto2 ∧ v.number ≠ 0 then st.report file .proto3EnumDefault else .ok st

/-- `NameVisitor` (names.rs:49-315). -/
def namesStep (st : St) : Event → Res St
  | .file path index f =>
    match parseSyn f.syn with
    | none => st.report index .unknownSyntax
    | some syn => do
      let st :=
        if (lookupN st.pool.fileNames f.name).isSome then st.push (.duplicateFileName f.name)
        else st
      let st := { st with pool := { st.pool with
        fileNames := insertN f.name index st.pool.fileNames
        files := st.pool.files ++
          [{ syn := syn, raw := f, prost := {}, deps := [], trans := [] }] } }
      addPackages index path st (packageNames f.package)
  | .message path full file parent index m => do
    let st ← addName st file full path (.message index)
    let st := { st with pool := { st.pool with
      messages := st.pool.messages ++ [MsgD.fresh (Ident.mk' file path full m.name) parent] } }
    let fd ← getR st.pool.files file
    if fd.syn = .proto2 then .ok st else checkCamelCase file st [] m.fields
  | .field path full file msg _ _ => addName st file full path (.field msg)
  | .oneof path full file msg _ o => do
    let st ← addName st file full path (.oneof msg)
    let ms ← modR st.pool.messages msg fun m =>
      { m with oneofs := m.oneofs ++ [{ id := Ident.mk' file path full o.name, fields := [] }] }
    .ok { st with pool := { st.pool with messages := ms } }
  | .service path full file index _ => addName st file full path (.service index)
  | .method path full file svc _ _ => addName st file full path (.method svc)
  | .enum path full file parent index e => do
    let st ← addName st file full path (.enum index)
    let st ← checkFirst st file e.values
    .ok { st with pool := { st.pool with
      enums := st.pool.enums ++ [EnumD.fresh (Ident.mk' file path full e.name) parent e.allowAlias] } }
  | .enumValue path full file enum _ v => do
    let st ← addName st file full path (.enumValue enum)
    let es ← modR st.pool.enums enum fun e =>
      { e with values := e.values ++ [{ id := Ident.mk' file path full v.name, number := v.number }] }
    .ok { st with pool := { st.pool with enums := es } }
  | .extension path full file _ index _ => addName st file full path (.extension index)

end Verif.Pool
