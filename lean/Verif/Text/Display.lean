import Verif.Text.Format
/-!
The `Display` implementations: `{}` is compact, `{:#}` (`alt`) pretty.
-/
set_option autoImplicit false
namespace Verif.Text
open Verif.Wire Verif.Dyn Verif.Pool

/-- `FormatOptions::new().pretty(f.alternate())` (dynamic/mod.rs:1140, 1160; unknown.rs:214). -/
def displayOpts (alt : Bool) : FOpts := { FOpts.default with pretty := alt }

/-- `Display for DynamicMessage` (dynamic/mod.rs:1139-1142). -/
def displayMsg (env : TEnv) (S : Schema) (alt : Bool) (k : Nat) (m : DynMsg) : Option (List Char) :=
  toText env S (displayOpts alt) k m

/-- `Display for Value` (dynamic/mod.rs:1159-1162): the kind is not known. -/
def displayValue (env : TEnv) (S : Schema) (alt : Bool) (k : Nat) (v : Value) : Option (List Char) :=
  fmtVal env S (displayOpts alt) k 0 v none

/-- `Display for UnknownField` (unknown.rs:213-216). -/
def displayUnknown (alt : Bool) (k : Nat) (u : UField) : Option (List Char) :=
  fmtUnknown (displayOpts alt) k 0 u

end Verif.Text
