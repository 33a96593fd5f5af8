import Verif.Dyn.Value
/-!
The derive macro `ReflectMessage` (prost-reflect-derive/src/lib.rs) on attributes that `syn` has parsed.
-/
set_option autoImplicit false
namespace Verif.Derive
open Verif.Dyn

/-- What stands after `=` in an argument: a string literal, another literal, or something else (or no `=`). -/
inductive Val where
  | str (s : Name)
  | lit (s : Name)
  | none
  deriving DecidableEq

/-- `#[path(key = value, ..)]`; a `#[derive(..)]` counts by its text only. -/
inductive Attr where
  | derive
  | args (path : Name) (as : List (Name × Val))
  deriving DecidableEq

/-- What is derived for (derive/src/lib.rs:31-35). -/
inductive Data where
  | struct
  | enum
  | union
  deriving DecidableEq

/-- Where the generated `descriptor()` looks (derive/src/lib.rs:106-124). -/
inductive Source where
  /-- an expression that gives a pool -/
  | pool (expr : Name)
  /-- the global pool, to which the set is added first -/
  | bytes (expr : Name)
  deriving DecidableEq

/-- The generated `impl`: the pool, and the literal for the name. -/
structure Impl where
  source : Source
  name : Val
  deriving DecidableEq

inductive MacroErr where
  | noAttribute
  | unknownArgument (key : Name)
  | badValue (key : Name)
  | badExpr
  | noPool
  | noName
  deriving DecidableEq

/-- `Args` (derive/src/lib.rs:23-28) -/
structure Args where
  name : Option Val := none
  pool : Option Name := none
  bytes : Option Name := none
  deriving DecidableEq

@[irreducible] def attrName : Name := "prost_reflect".toList
@[irreducible] def poolKey : Name := "descriptor_pool".toList
@[irreducible] def bytesKey : Name := "file_descriptor_set_bytes".toList
@[irreducible] def nameKey : Name := "message_name".toList

/-- One argument (derive/src/lib.rs:83-100). -/
def Args.put (a : Args) : Name × Val → Except MacroErr Args
  | (k, v) =>
    if k = poolKey then
      match v with
      | .str s => .ok { a with pool := some s }
      | _ => .error (.badValue k)
    else if k = bytesKey then
      match v with
      | .str s => .ok { a with bytes := some s }
      | _ => .error (.badValue k)
    else if k = nameKey then
      match v with
      | .none => .error (.badValue k)
      | v => .ok { a with name := some v }
    else .error (.unknownArgument k)

def Args.putAll (a : Args) : List (Name × Val) → Except MacroErr Args
  | [] => .ok a
  | x :: l =>
    match a.put x with
    | .ok a => a.putAll l
    | .error e => .error e

/-- The arguments of the `prost_reflect` attributes, in order (derive/src/lib.rs:60-63). -/
def mine : List Attr → List (List (Name × Val))
  | [] => []
  | .args p as :: l => if p = attrName then as :: mine l else mine l
  | .derive :: l => mine l

/-- `Args::parse` (derive/src/lib.rs:59-104) -/
def Args.parse (l : List Attr) : Except MacroErr Args :=
  if mine l = [] then .error .noAttribute else Args.putAll {} (mine l).flatten

/-- `Args::descriptor_pool` (derive/src/lib.rs:106-124); `isExpr`: `syn` can read the text as an expression. -/
def Args.source (isExpr : Name → Bool) (a : Args) : Except MacroErr Source :=
  match a.pool with
  | some e => if isExpr e then .ok (.pool e) else .error .badExpr
  | none =>
    match a.bytes with
    | some e => if isExpr e then .ok (.bytes e) else .error .badExpr
    | none => .error .noPool

/-- `reflect_message_impl` (derive/src/lib.rs:30-52): the `impl` it makes, if any. -/
def expand (isExpr : Name → Bool) (d : Data) (l : List Attr) : Except MacroErr (Option Impl) :=
  match d with
  | .enum => .ok none
  | .union => .ok none
  | .struct =>
    match Args.parse l with
    | .error e => .error e
    | .ok a =>
      match a.source isExpr with
      | .error e => .error e
      | .ok s =>
        match a.name with
        | none => .error .noName
        | some n => .ok (some ⟨s, n⟩)

end Verif.Derive
