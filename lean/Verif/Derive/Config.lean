import Verif.Derive.Macro
import Verif.Pool.Query
/-!
`Builder::configure` (prost-reflect-build/src/lib.rs:141-178), which tells `prost_build` what attributes to
put on the types it generates, and what comes of these attributes.

How `prost_build` matches types and how Rust reads a string literal follow their documentation.
-/
set_option autoImplicit false
namespace Verif.Derive
open Verif.Dyn Verif.Pool

/-! ### `prost_build` -/

/-- The parts of a path after each of its dots: `.a.b.C` gives `a.b.C`, `b.C` and `C`. -/
def suffixes : Name → List Name
  | [] => []
  | c :: l => if c = '.' then l :: suffixes l else suffixes l

/-- The parts before each of its dots, and itself: `.a.b.C` gives the empty one, `.a`, `.a.b` and `.a.b.C`. -/
def prefixes : Name → List Name
  | [] => [[]]
  | c :: l => (if c = '.' then [[]] else []) ++ (prefixes l).map (c :: ·)

/-- Whether an attribute for `path` is for the type with this fully-qualified name: `.` is for all, a path
with a leading dot for what lies in it, others for names that end so. -/
def pathMatches (path fq : Name) : Bool :=
  path = ['.'] || (path.head? = some '.' && (prefixes fq).contains path) || (suffixes fq).contains path

/-- `Config::type_attribute` in order of the calls: path and text. -/
abbrev Config := List (Name × Name)

/-- The texts that go before a type. -/
def Config.texts (c : Config) (fq : Name) : List Name :=
  (c.filter fun x => pathMatches x.1 fq).map (·.2)

/-! ### `configure` -/

/-- `Builder` (build/src/lib.rs:47-51) without the path of the set -/
structure Builder where
  pool : Option Name := none
  bytes : Option Name := none

@[irreducible] def deriveText : Name := "#[derive(::prost_reflect::ReflectMessage)]".toList

@[irreducible] def attrOpen : Name := "#[prost_reflect(".toList
@[irreducible] def argOpen : Name := " = \"".toList
@[irreducible] def attrClose : Name := ")]".toList

/-- `#[prost_reflect(key = "value")]` (build/src/lib.rs:155, 157-159, 172) -/
def argText (key value : Name) : Name :=
  attrOpen ++ (key ++ (argOpen ++ (value ++ '"' :: attrClose)))

/-- The attribute for the pool (build/src/lib.rs:154-164). -/
def Builder.poolText (b : Builder) : Option Name :=
  match b.pool with
  | some e => some (argText poolKey e)
  | none =>
    match b.bytes with
    | some e => some (argText bytesKey e)
    | none => none

/-- The three attributes of one message (build/src/lib.rs:167-174). -/
def attrsFor (poolText n : Name) : Config :=
  [(n, deriveText), (n, argText nameKey n), (n, poolText)]

/-- The loop over `all_messages` (build/src/lib.rs:166-175), after the set has been read into a pool;
`none` is the error of build/src/lib.rs:161-163. -/
def Builder.configure (b : Builder) (c : Config) (p : Pool) : Option Config :=
  match b.poolText with
  | none => none
  | some t => some (c ++ (p.messages.map fun m => attrsFor t m.id.fullName).flatten)

/-! ### Reading the attributes -/

/-- The rest of a string literal: what it says, and what follows its end. Escapes other than the one-letter
ones are left out. -/
def readLit : Name → Option (Name × Name)
  | [] => none
  | '"' :: r => some ([], r)
  | '\\' :: c :: r =>
    match (if c = 'n' then some '\n' else if c = 'r' then some '\r' else if c = 't' then some '\t'
      else if c = '0' then some '\x00' else if c = '\\' ∨ c = '"' ∨ c = '\'' then some c else none) with
    | none => none
    | some x => (readLit r).map fun (s, q) => (x :: s, q)
  | '\\' :: [] => none
  | '\r' :: _ => none
  | c :: r => (readLit r).map fun (s, q) => (c :: s, q)

/-- The text after a given beginning. -/
def after (b : Name) (s : Name) : Option Name :=
  match b, s with
  | [], s => some s
  | _ :: _, [] => none
  | c :: b, d :: s => if c = d then after b s else none

/-- The attributes `configure` writes, read as `syn` does: one argument with a string. Other texts are left
out (`none`). -/
def readAttr (t : Name) : Option Attr :=
  if t = deriveText then some .derive
  else
    match after attrOpen t with
    | none => none
    | some r =>
      let key := r.takeWhile fun c => c.isAlpha || c = '_'
      match after argOpen (r.drop key.length) with
      | none => none
      | some r =>
        match readLit r with
        | some (v, rest) => if rest = attrClose then some (.args attrName [(key, .str v)]) else none
        | none => none

def readAttrs : List Name → Option (List Attr)
  | [] => some []
  | t :: l =>
    match readAttr t, readAttrs l with
    | some a, some as => some (a :: as)
    | _, _ => none

/-- What the compiler makes of a type with these attributes: one `impl` if it says `derive` once; none if it
does not; two are refused. -/
def compile (isExpr : Name → Bool) (d : Data) (ts : List Name) : Option (Option Impl) :=
  match readAttrs ts with
  | none => none
  | some l =>
    match (l.filter (· = .derive)).length with
    | 0 => some none
    | 1 =>
      match expand isExpr d l with
      | .ok i => some i
      | .error _ => none
    | _ => if d = .struct then none else some none

end Verif.Derive
