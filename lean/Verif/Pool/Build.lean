import Verif.Pool.Resolve
/-!
Adding files to a pool: model of `descriptor/build/mod.rs:62-150` and of the third pass,
`descriptor/build/options.rs:28-66`.

Simplified: resolving the options of one declaration (decoding them with the pool's own
`google.protobuf.*Options`, interpreting uninterpreted options, re-encoding) is a
parameter of the model; applying the results is modelled.  Option bytes themselves are
the subject of a separate model (C29).
-/
set_option autoImplicit false
namespace Verif.Pool
open Verif.Wire Verif.Dyn

/-- `DescriptorPoolOffsets::new` (build/mod.rs:63-71). -/
def Pool.offs (p : Pool) : Offs :=
  { file := p.files.length, message := p.messages.length, enum := p.enums.length,
    service := p.services.length, extension := p.extensions.length }

/-- `s.starts_with(p)` and the next byte is absent or a dot (build/mod.rs:81-86). -/
def pkgCovers (pkg name : Name) : Bool :=
  name.isPrefixOf pkg && (match pkg[name.length]? with
    | none => true
    | some c => c == '.')

/-- The `retain` predicate of the roll-back (build/mod.rs:79-95). -/
def keepName (o : Offs) (files : List FileD) (name : Name) (d : Def) : Bool :=
  match d.kind with
  | .package => files.any fun f => pkgCovers f.prost.package name
  | .message i | .field i | .oneof i => decide (i < o.message)
  | .service i | .method i => decide (i < o.service)
  | .enum i | .enumValue i => decide (i < o.enum)
  | .extension i => decide (i < o.extension)

/-- `DescriptorPoolOffsets::rollback` (build/mod.rs:73-100).  The last loop compares
extension indices with the *message* offset, as the code does (build/mod.rs:97-99). -/
def rollback (o : Offs) (p : Pool) : Pool :=
  let files := p.files.take o.file
  { files := files
    messages := (p.messages.take o.message).map fun m =>
      { m with extensions := m.extensions.filter fun e => decide (e < o.message) }
    enums := p.enums.take o.enum
    extensions := p.extensions.take o.extension
    services := p.services.take o.service
    names := p.names.filter fun e => keepName o files e.1 e.2
    fileNames := p.fileNames.filter fun e => decide (e.2 < o.file) }

/-- Errors of the third pass: the callbacks run on an unchanging pool. -/
def optErrs (env : Env) (p : Pool) : List Event → Res (List ErrKind)
  | [] => .ok []
  | e :: es =>
    match env.optErr p e with
    | .error x => .error x
    | .ok b =>
      match optErrs env p es with
      | .error x => .error x
      | .ok r => .ok (if b then .option :: r else r)

/-- The update the third pass makes for one declaration that has options
(options.rs:48-52, `set_file_option`). -/
def applyOpt (env : Env) (p : Pool) (st : St) : Event → Res St
  | .message path full file parent index m =>
    match m.options with
    | none => .ok st
    | some _ => setRaw st file fun raw => modMsg (fun mp => { mp with
        options := some (env.msgOpt p (.message path full file parent index m)) }) raw path
  | .field path full file msg index f =>
    match f.options with
    | none => .ok st
    | some _ => setRaw st file fun raw => modField (fun fp => { fp with
        options := some (env.fieldOpt p (.field path full file msg index f)) }) raw path
  | .extension path full file parent index f =>
    match f.options with
    | none => .ok st
    | some _ => setRaw st file fun raw => modField (fun fp => { fp with
        options := some (env.fieldOpt p (.extension path full file parent index f)) }) raw path
  | _ => .ok st

/-- `file.prost = file.raw.to_prost()` for the new files (build/mod.rs:144-146). -/
def sealFiles (from_ : Nat) (fs : List FileD) : List FileD :=
  fs.take from_ ++ (fs.drop from_).map fun f => { f with prost := f.raw }

/-- Result of an addition that returned: the pool afterwards and the reported errors
(`[]` means `Ok`). -/
structure Built where
  pool : Pool
  errors : List ErrKind

/-- `build_files_deduped` (build/mod.rs:123-150), without the roll-back. -/
def buildDeduped (env : Env) (o : Offs) (p : Pool) (files : List FileP) : Res Built := do
  let evs := visit o files
  let st ← runPass namesStep ⟨p, []⟩ evs
  if st.errors ≠ [] then .ok ⟨st.pool, st.errors⟩
  else
    let st ← runPass (resolveStep env) ⟨st.pool, []⟩ evs
    if st.errors ≠ [] then .ok ⟨st.pool, st.errors⟩
    else
      let errs ← optErrs env st.pool evs
      if errs ≠ [] then .ok ⟨st.pool, errs⟩
      else
        let st' ← runPass (applyOpt env st.pool) ⟨st.pool, []⟩ evs
        .ok ⟨{ st'.pool with files := sealFiles o.file st'.pool.files }, []⟩

/-- `build_files` (build/mod.rs:104-121). -/
def buildFiles (env : Env) (p : Pool) (files : List FileP) : Res Built :=
  let o := p.offs
  let fresh := files.filter fun f => (lookupN p.fileNames f.name).isNone
  if fresh = [] then .ok ⟨p, []⟩
  else
    match buildDeduped env o p fresh with
    | .error x => .error x
    | .ok b => if b.errors ≠ [] then .ok ⟨rollback o b.pool, b.errors⟩ else .ok b

/-- Pools reachable by any history of additions, successful or rejected. -/
inductive Reach (env : Env) : Pool → Prop where
  | empty : Reach env Pool.empty
  | add (p : Pool) (fs : List FileP) (b : Built) :
      Reach env p → buildFiles env p fs = .ok b → Reach env b.pool

end Verif.Pool
