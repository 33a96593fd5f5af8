import Verif.Pool.NamesPass
/-!
Resolution of type names: model of `resolve_name` and its helpers
(`descriptor/build/mod.rs:152-393`).
-/
set_option autoImplicit false
namespace Verif.Pool
open Verif.Dyn

/-- `ResolveNameFilter` (build/mod.rs:33-38). -/
inductive Filter where
  | message | extension | fieldType
  deriving DecidableEq, Repr

/-- `ResolveNameFilter::is_match` (build/mod.rs:152-164). -/
def Filter.isMatch : Filter → DefKind → Bool
  | .message, .message _ => true
  | .extension, .extension _ => true
  | .fieldType, .message _ => true
  | .fieldType, .enum _ => true
  | _, _ => false

/-- `ResolveNameResult` (build/mod.rs:40-60). -/
inductive RR where
  | found (name : Name) (d : Def)
  | invalidType (name : Name) (d : Def)
  | notImported (name : Name) (file : Nat)
  | shadowed (name : Name)
  | notFound

/-- `ResolveNameResult::new` (build/mod.rs:177-200). -/
def RR.new (deps : List Nat) (names : List (Name × Def)) (name : Name) (filter : Filter) : RR :=
  match lookupN names name with
  | some d =>
    if ¬ deps.contains d.file then .notImported name d.file
    else if ¬ filter.isMatch d.kind then .invalidType name d
    else .found name d
  | none => .notFound

def RR.isNotFound : RR → Bool
  | .notFound => true
  | _ => false

/-- `resolve_relative_candidate_parents` (build/mod.rs:382-386). -/
def candidateParents (scope : Name) : List Name := scope :: ((dotPrefixes scope).reverse ++ [[]])

/-- `relative_name.split('.').next()` (build/mod.rs:338). -/
def firstPart (n : Name) : Name := n.takeWhile (· ≠ '.')

/-- The loop of `resolve_relative_name` (build/mod.rs:340-379). -/
def relLoop (deps : List Nat) (names : List (Name × Def)) (rel : Name) (filter : Filter) :
    RR → List Name → RR
  | err, [] => err
  | err, p :: ps =>
    let cand := pushScope p (firstPart rel)
    if (firstPart rel).length = rel.length then
      match RR.new deps names cand filter with
      | .found n d => .found n d
      | res => relLoop deps names rel filter (if err.isNotFound then res else err) ps
    else
      match lookupN names cand with
      | some d =>
        if d.kind.isParent then
          match RR.new deps names (pushScope p rel) filter with
          | .notFound => .shadowed rel
          | res => res
        else relLoop deps names rel filter err ps
      | none => relLoop deps names rel filter err ps

/-- `resolve_name` (build/mod.rs:316-328). -/
def resolveName (deps : List Nat) (names : List (Name × Def)) (scope name : Name)
    (filter : Filter) : RR :=
  match name with
  | '.' :: full => RR.new deps names full filter
  | _ =>
    if scope = [] then RR.new deps names name filter
    else relLoop deps names name filter .notFound (candidateParents scope)

end Verif.Pool
