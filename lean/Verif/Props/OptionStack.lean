import Verif.Opt.OneStack
import Verif.Props.Options
/-!
C29: what options resolve to does not depend on the stack.
-/
set_option autoImplicit false
namespace Verif.Props
open Verif.Wire Verif.Dyn Verif.Opt Verif.Text

/-- **C29, the stack.** Two environments that differ only in how deep the stack is resolve options to the same bytes or
the same error, unless the text of an aggregate value overflows one of the stacks. -/
theorem C29_stack (env : OEnv) (S : Schema) (k : Nat) (d : Nat) (b : Bytes) (us : List Uninterp)
    (h : resolveOptions env S d b us ≠ .option (.message .stack))
    (h' : resolveOptions { env with stack := k } S d b us ≠ .option (.message .stack)) :
    resolveOptions env S d b us = resolveOptions { env with stack := k } S d b us := by
  rcases Nat.le_total env.stack k with hk | hk
  · exact ((resolveOptions_firm (k := k) hk d b us).resolve_left h).symm
  · exact (resolveOptions_firm (env := { env with stack := k }) (k := env.stack) hk d b us).resolve_left h'

/-- `sub = {c: 9}` needs no stack beyond the outermost message. -/
example : resolveOptions optEnv optSchema 0 [] [{ parts := plain ["sub"], agg := some "c:9".toList }] =
      .ok [0x1a, 0x02, 0x18, 0x09] ∧
    resolveOptions { optEnv with stack := 0 } optSchema 0 [] [{ parts := plain ["sub"], agg := some "c:9".toList }] =
      .ok [0x1a, 0x02, 0x18, 0x09] := by
  decide +kernel

end Verif.Props
