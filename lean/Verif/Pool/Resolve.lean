import Verif.Pool.Default
import Verif.Pool.Locate
/-!
Second pass of the builder: model of `descriptor/build/resolve.rs`.
-/
set_option autoImplicit false
namespace Verif.Pool
open Verif.Wire Verif.Dyn

/-- The surroundings of the builder. -/
structure Env where
  /-- float parsing of the standard library -/
  fp : FloatParse
  /-- `slice::binary_search_by` of the standard library, on `(number, index)` pairs:
  position and whether it is a match -/
  search : List (Int × Nat) → Int → Bool × Nat
  /-- arithmetic overflow checks on (debug builds) -/
  checks : Bool
  /-- how deep the stack allows `resolve_public_dependencies` to recurse -/
  stack : Nat
  /-- third pass (options.rs): does resolving the options of this declaration report an
  error; may panic -/
  optErr : Pool → Event → Res Bool
  /-- third pass: the `map_entry` option in the re-encoded options of a message -/
  msgOpt : Pool → Event → Option Bool
  /-- third pass: the `packed` option in the re-encoded options of a field -/
  fieldOpt : Pool → Event → Option Bool

/-- Inner loop of `resolve_public_dependencies` (resolve.rs:420-429). -/
def publicLoop (fileNames : List (Name × Nat)) (pub : List Int)
    (rec : List Nat → Nat → Res (List Nat)) : Nat → List Name → List Nat → Res (List Nat)
  | _, [], ds => .ok ds
  | i, d :: r, ds =>
    match lookupN fileNames d with
    | some di =>
      if pub.contains (i : Int) then
        if ds.contains di then
          match rec ds di with
          | .ok ds' => publicLoop fileNames pub rec (i + 1) r ds'
          | .error p => .error p
        else publicLoop fileNames pub rec (i + 1) r (di :: ds)
      else publicLoop fileNames pub rec (i + 1) r ds
    | none => publicLoop fileNames pub rec (i + 1) r ds

/-- `resolve_public_dependencies` (resolve.rs:418-430).  The code recurses when the file
was already in the set (`!dependencies.insert(..)`). -/
def resolvePublic (files : List FileD) (fileNames : List (Name × Nat)) :
    Nat → List Nat → Nat → Res (List Nat)
  | 0, _, _ => .error .stack
  | fuel + 1, ds, index =>
    match files[index]? with
    | some f => publicLoop fileNames f.raw.publicDeps (resolvePublic files fileNames fuel) 0
        f.raw.deps ds
    | none => .error .index

/-- The loop over the imports of a file (resolve.rs:57-77): state, direct dependencies and
the visible set. -/
def depLoop (env : Env) (index : Nat) : List Name → St → List Nat → Res (St × List Nat)
  | [], st, tr => .ok (st, tr)
  | d :: r, st, tr =>
    match lookupN st.pool.fileNames d with
    | some di => do
      let fs ← modR st.pool.files index fun f => { f with deps := f.deps ++ [di] }
      let st := { st with pool := { st.pool with files := fs } }
      let tr := if tr.contains di then tr else di :: tr
      let tr ← resolvePublic st.pool.files st.pool.fileNames env.stack tr di
      depLoop env index r st tr
    | none => do
      let st ← st.report index (.fileNotFound d)
      depLoop env index r st tr

/-- The checks of public and weak import indices (resolve.rs:81-90). -/
def checkImports (n : Nat) : St → List Int → St
  | st, [] => st
  | st, i :: r =>
    checkImports n (if 0 ≤ i ∧ i < n then st else st.push .importIndex) r

/-- `visit_file` (resolve.rs:53-91). -/
def resolveFile (env : Env) (st : St) (index : Nat) (f : FileP) : Res St := do
  let (st, tr) ← depLoop env index f.deps st [index]
  let fs ← modR st.pool.files index fun fd => { fd with trans := tr }
  let st := { st with pool := { st.pool with files := fs } }
  .ok (checkImports f.deps.length (checkImports f.deps.length st f.publicDeps) f.weakDeps)

/-- Field number range (descriptor/mod.rs:26-27). -/
def numberOk (n : Int) : Bool :=
  (1 ≤ n ∧ n < 536870912) && !(19000 ≤ n ∧ n < 20000)

def inRange (n : Int) (r : Int × Int) : Bool := r.1 ≤ n ∧ n < r.2

/-- Report one error per matching reserved range (resolve.rs:459-479). -/
def reservedLoop (mfile file : Nat) (n : Int) : St → List (Int × Int) → Res St
  | st, [] => .ok st
  | st, r :: rs =>
    if inRange n r then do
      label st mfile
      let st ← st.report file (.numberReserved n)
      reservedLoop mfile file n st rs
    else reservedLoop mfile file n st rs

/-- The range check (resolve.rs:439-452). -/
def checkValid (st : St) (n : Int) (file : Nat) : Res St :=
  if numberOk n then .ok st else st.report file (.fieldNumber n)

/-- `check_field_number` (resolve.rs:432-520). -/
def checkNumber (st : St) (msg : Nat) (f : FieldP) (file : Nat) : Res St := do
  let st ← checkValid st f.number file
  let m ← getR st.pool.messages msg
  let fd ← getR st.pool.files m.id.file
  let mp ← unwrapR (findMsg fd.raw m.id.path)
  let st ← reservedLoop m.id.file file f.number st mp.reserved
  match f.extendee, mp.extRanges.any (inRange f.number) with
  | none, false => .ok st
  | some _, true => .ok st
  | none, true => do
    label st m.id.file
    st.report file (.numberInExtensionRange f.number)
  | some _, false => st.report file (.extensionOutOfRange f.number)

/-- Report one error per matching reserved range of an enum (resolve.rs:532-552). -/
def enumReservedLoop (efile file : Nat) (n : Int) : St → List (Int × Int) → Res St
  | st, [] => .ok st
  | st, r :: rs =>
    if r.1 ≤ n ∧ n ≤ r.2 then do
      label st efile
      let st ← st.report file .enumNumberReserved
      enumReservedLoop efile file n st rs
    else enumReservedLoop efile file n st rs

/-- `check_enum_number` (resolve.rs:522-553). -/
def checkEnumNumber (st : St) (enum : Nat) (v : EnumValueP) (file : Nat) : Res St := do
  let e ← getR st.pool.enums enum
  let fd ← getR st.pool.files e.id.file
  let ep ← unwrapR (findEnum fd.raw e.id.path)
  enumReservedLoop e.id.file file v.number st ep.reserved

/-- Write back a modified file descriptor. -/
def setRaw (st : St) (file : Nat) (g : FileP → Option FileP) : Res St := do
  let fd ← getR st.pool.files file
  let raw ← unwrapR (g fd.raw)
  .ok { st with pool := { st.pool with files := st.pool.files.set file { fd with raw := raw } } }

/-- `ResolveNameResult::into_result` (build/mod.rs:237-296): the reported error. -/
def RR.report (st : St) (file : Nat) (name : Name) : RR → Res St
  | .found _ _ => .ok st
  | .invalidType n d => do
    label st file
    label st d.file
    .ok (st.push (.invalidType n))
  | .notImported n f => do
    label st f
    st.report file (.notImported n)
  | .notFound => st.report file (.notFound name)
  | .shadowed n => st.report file (.shadowed n)

/-- Where `resolve_name` writes the resolved name back to (`set_type_name`,
resolve.rs:886-920). -/
inductive Target where
  | typeName | extendee | input | output
  deriving DecidableEq, Repr

/-- `set_type_name` (resolve.rs:886-920). -/
def setTypeName (path : Path) (t : Target) (name : Name) (isMsg : Bool) (f : FileP) :
    Option FileP :=
  match t with
  | .typeName => modField (fun fp => { fp with
      typeName := name
      ty := if fp.ty = .group then .group else if isMsg then .message else .enum }) f path
  | .extendee => modField (fun fp => { fp with extendee := some name }) f path
  | .input => modMethod (fun m => { m with input := name }) f path
  | .output => modMethod (fun m => { m with output := name }) f path

def DefKind.isMessage : DefKind → Bool
  | .message _ => true
  | _ => false

/-- `ResolveVisitor::resolve_name` (resolve.rs:719-759). -/
def resolveIn (st : St) (scope name : Name) (file : Nat) (path : Path) (t : Target)
    (filter : Filter) : Res (St × Option Def) := do
  let fd ← getR st.pool.files file
  match resolveName fd.trans st.pool.names scope name filter with
  | .found n d => do
    let st ← setRaw st file (setTypeName path t ('.' :: n) d.kind.isMessage)
    .ok (st, some d)
  | res => do
    let st ← res.report st file name
    .ok (st, none)

/-- `find_message` (resolve.rs:701-717). -/
def findMessage (st : St) (scope name : Name) (file : Nat) (path : Path) (t : Target) :
    Res (St × Option Nat) := do
  let (st, d) ← resolveIn st scope name file path t .message
  match d with
  | none => .ok (st, none)
  | some d =>
    match d.kind with
    | .message i => .ok (st, some i)
    | _ => .error .index

/-- The scalar types (resolve.rs:577-592). -/
def scalarKind : PType → Option Kind
  | .double => some .double
  | .float => some .float
  | .int64 => some .int64
  | .uint64 => some .uint64
  | .int32 => some .int32
  | .fixed64 => some .fixed64
  | .fixed32 => some .fixed32
  | .bool => some .bool
  | .string => some .string
  | .bytes => some .bytes
  | .uint32 => some .uint32
  | .sfixed32 => some .sfixed32
  | .sfixed64 => some .sfixed64
  | .sint32 => some .sint32
  | .sint64 => some .sint64
  | .group | .message | .enum => none

/-- `resolve_field_type` (resolve.rs:569-625): kind and group flag. -/
def resolveType (st : St) (f : FieldP) (scope : Name) (file : Nat) (path : Path) :
    Res (St × Option (Kind × Bool)) :=
  if f.typeName = [] then
    match scalarKind f.ty with
    | some k => .ok (st, some (k, false))
    | none => do
      let st ← st.report file .missingRequired
      .ok (st, none)
  else do
    let (st, d) ← resolveIn st scope f.typeName file path .typeName .fieldType
    match d with
    | none => .ok (st, none)
    | some d =>
      match d.kind with
      | .message i => .ok (st, some (.message i, decide (f.ty = .group)))
      | .enum i => .ok (st, some (.enum i, false))
      | _ => .error .index

/-- `to_json_name` (build/mod.rs:298-314). -/
def toJsonName : Bool → Name → Name
  | _, [] => []
  | up, c :: r =>
    if c = '_' then toJsonName true r
    else if up then c.toUpper :: toJsonName false r
    else c :: toJsonName false r

/-- `resolve_field_json_name` (resolve.rs:555-567). -/
def resolveJsonName (st : St) (f : FieldP) (file : Nat) (path : Path) : Res (St × Name) :=
  match f.jsonName with
  | some n => .ok (st, n)
  | none => do
    let j := toJsonName false f.name
    let st ← setRaw st file fun raw => modField (fun fp => { fp with jsonName := some j }) raw path
    .ok (st, j)

/-- `parse_field_default_value` (resolve.rs:627-699). -/
def parseDefault (env : Env) (st : St) (kind : Kind) (dflt : Option Name) (file : Nat) :
    Res (St × Option Value) :=
  match dflt with
  | none => .ok (st, none)
  | some s =>
    match kind with
    | .message _ => do
      let st ← st.report file .invalidDefault
      .ok (st, none)
    | .enum e => do
      let ed ← getR st.pool.enums e
      match ed.values.find? (fun v => v.id.name == s) with
      | some v => .ok (st, some (.enum (BitVec.ofInt 32 v.number)))
      | none => do
        let st ← st.report file .invalidDefault
        .ok (st, none)
    | k => do
      match ← parseSimple env.fp env.checks k s with
      | some v => .ok (st, some v)
      | none => do
        let st ← st.report file .invalidDefault
        .ok (st, none)

/-- Default for an optionally resolved kind (resolve.rs:133-135). -/
def parseDefaultOpt (env : Env) (st : St) (kind : Option (Kind × Bool)) (dflt : Option Name)
    (file : Nat) : Res (St × Option Value) :=
  match kind with
  | none => .ok (st, none)
  | some (k, _) => parseDefault env st k dflt file

/-- `is_packed` (resolve.rs:121-126, 381-386). -/
def isPacked (syn : Syn) (f : FieldP) (kind : Option (Kind × Bool)) : Bool :=
  f.label == .repeated && (match kind with
    | some (k, _) => k.packable
    | none => false) &&
  (match f.options with
    | none => decide (syn = .proto3)
    | some p => p == some true)

/-- `supports_presence` (resolve.rs:128-131). -/
def supportsPresence (syn : Syn) (f : FieldP) (kind : Option (Kind × Bool)) : Bool :=
  f.proto3Optional || f.oneofIndex.isSome ||
    (f.label != .repeated && ((match kind with
      | some (.message _, _) => true
      | _ => false) || decide (syn = .proto2)))

/-- `number as u32`. -/
def asU32 (n : Int) : Nat := (n % 2 ^ 32).toNat

/-- Kind stored when the type could not be resolved (resolve.rs:151, `Double`). -/
def kindOrDouble (kind : Option (Kind × Bool)) : Kind × Bool :=
  match kind with
  | some k => k
  | none => (.double, false)

/-- The oneof membership of a field (resolve.rs:139-147). -/
def oneofStep (st : St) (m : MsgD) (idx : Option Int) (index : Nat) : St × MsgD × Option Nat :=
  match idx with
  | none => (st, m, none)
  | some i =>
    if i < 0 ∨ (m.oneofs.length : Int) ≤ i then (st.push .oneofIndex, m, none)
    else (st, { m with oneofs := m.oneofs.modify i.toNat fun o =>
      { o with fields := o.fields ++ [index] } }, some i.toNat)

/-- Report a duplicate of an earlier field (resolve.rs:159-219). -/
def reportDup (st : St) (m : MsgD) (file : Nat) (existing : Option Nat) (e : ErrKind) : Res St :=
  match existing with
  | none => .ok st
  | some i => do
    let _ ← getR m.fields i
    st.report file e

/-- `visit_field` (resolve.rs:93-221). -/
def resolveField (env : Env) (st : St) (path : Path) (full : Name) (file msg index : Nat)
    (f : FieldP) : Res St := do
  let fd ← getR st.pool.files file
  let st ← checkNumber st msg f file
  let (st, kind) ← resolveType st f full file path
  let (st, json) ← resolveJsonName st f file path
  let (st, dflt) ← parseDefaultOpt env st kind f.default file
  let m ← getR st.pool.messages msg
  let (st, m, oneof) := oneofStep st m f.oneofIndex index
  let num := asU32 f.number
  let field : FieldD := {
    id := Ident.mk' file path full f.name
    number := num
    jsonName := json
    kind := (kindOrDouble kind).1
    group := (kindOrDouble kind).2
    oneof := oneof
    packed := isPacked fd.syn f kind
    presence := supportsPresence fd.syn f kind
    card := f.label
    default := dflt }
  let m' : MsgD := { m with
    fields := m.fields ++ [field]
    fieldNumbers := SMap.insert num index m.fieldNumbers
    fieldNames := insertN f.name index m.fieldNames
    fieldJsonNames := insertN json index m.fieldJsonNames }
  let st ← reportDup st m' file (SMap.get? m.fieldNumbers num) .duplicateFieldNumber
  let st ← reportDup st m' file (lookupN m.fieldNames f.name) (.duplicateName full)
  let st ← reportDup st m' file (lookupN m.fieldJsonNames json) .duplicateJsonName
  .ok { st with pool := { st.pool with messages := st.pool.messages.set msg m' } }

/-- `MessageIndex::MAX`. -/
def indexMax : Nat := 2 ^ 32 - 1

def orMax : Option Nat → Nat
  | some i => i
  | none => indexMax

/-- `visit_service` (resolve.rs:223-237). -/
def resolveService (st : St) (path : Path) (full : Name) (file : Nat) (s : ServiceP) : St :=
  { st with pool := { st.pool with services := st.pool.services ++
      [{ id := Ident.mk' file path full s.name, methods := [] }] } }

/-- `visit_method` (resolve.rs:239-279). -/
def resolveMethod (st : St) (path : Path) (full : Name) (file svc : Nat) (m : MethodP) :
    Res St := do
  let (st, input) ← findMessage st full m.input file path .input
  let (st, output) ← findMessage st full m.output file path .output
  let ss ← modR st.pool.services svc fun s =>
    { s with methods := s.methods ++
      [{ id := Ident.mk' file path full m.name, input := orMax input, output := orMax output }] }
  .ok { st with pool := { st.pool with services := ss } }

/-- `Vec::insert`. -/
def insertAt {α : Type} (i : Nat) (a : α) (l : List α) : List α := l.take i ++ a :: l.drop i

/-- Report a duplicate enum number unless aliases are allowed (resolve.rs:299-318). -/
def reportAlias (st : St) (e : EnumD) (file : Nat) (hit : Bool × Nat) : Res St :=
  if hit.1 ∧ ¬ e.allowAlias then do
    let (_, vi) ← getR e.valueNumbers hit.2
    let _ ← getR e.values vi
    st.report file .duplicateEnumNumber
  else .ok st

/-- Report a duplicate value name (resolve.rs:328-347). -/
def reportValueName (st : St) (e : EnumD) (file : Nat) (full : Name) (existing : Option Nat) :
    Res St :=
  match existing with
  | none => .ok st
  | some i => do
    let _ ← getR e.values i
    st.report file (.duplicateName full)

/-- `visit_enum_value` (resolve.rs:281-348). -/
def resolveEnumValue (env : Env) (st : St) (full : Name) (file enum index : Nat)
    (v : EnumValueP) : Res St := do
  let st ← checkEnumNumber st enum v file
  let e ← getR st.pool.enums enum
  let hit := env.search e.valueNumbers v.number
  let st ← reportAlias st e file hit
  let st ← reportValueName st e file full (lookupN e.valueNames v.name)
  let e' := { e with
    valueNumbers := insertAt hit.2 (v.number, index) e.valueNumbers
    valueNames := insertN v.name index e.valueNames }
  .ok { st with pool := { st.pool with enums := st.pool.enums.set enum e' } }

/-- Register an extension with its extendee (resolve.rs:369-373). -/
def extendeeStep (st : St) (extendee : Option Nat) (index : Nat) (f : FieldP) (file : Nat) :
    Res St :=
  match extendee with
  | none => .ok st
  | some i => do
    let ms ← modR st.pool.messages i fun m => { m with extensions := m.extensions ++ [index] }
    checkNumber { st with pool := { st.pool with messages := ms } } i f file

/-- `field.extendee()`. -/
def FieldP.extendeeName (f : FieldP) : Name :=
  match f.extendee with
  | some n => n
  | none => []

/-- `visit_extension` (resolve.rs:350-414). -/
def resolveExtension (env : Env) (st : St) (path : Path) (full : Name) (file : Nat)
    (parent : Option Nat) (index : Nat) (f : FieldP) : Res St := do
  let (st, extendee) ← findMessage st full f.extendeeName file path .extendee
  let st ← extendeeStep st extendee index f file
  let fd ← getR st.pool.files file
  let (st, kind) ← resolveType st f full file path
  let (st, _) ← resolveJsonName st f file path
  let (st, dflt) ← parseDefaultOpt env st kind f.default file
  let ext : ExtD := {
    id := Ident.mk' file path full f.name
    parent := parent
    number := asU32 f.number
    jsonName := '[' :: full ++ [']']
    extendee := orMax extendee
    kind := (kindOrDouble kind).1
    group := (kindOrDouble kind).2
    packed := isPacked fd.syn f kind
    card := f.label
    default := dflt }
  .ok { st with pool := { st.pool with extensions := st.pool.extensions ++ [ext] } }

/-- `ResolveVisitor` (resolve.rs:52-415). -/
def resolveStep (env : Env) (st : St) : Event → Res St
  | .file _ index f => resolveFile env st index f
  | .message .. => .ok st
  | .field path full file msg index f => resolveField env st path full file msg index f
  | .oneof .. => .ok st
  | .service path full file _ s => .ok (resolveService st path full file s)
  | .method path full file svc _ m => resolveMethod st path full file svc m
  | .enum .. => .ok st
  | .enumValue _ full file enum index v => resolveEnumValue env st full file enum index v
  | .extension path full file parent index f =>
    resolveExtension env st path full file parent index f

end Verif.Pool
