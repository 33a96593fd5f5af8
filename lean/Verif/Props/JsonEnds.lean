import Verif.Json.Ends
import Verif.Props.JsonSafe
import Verif.Props.TextTotal
/-!
C59: writing JSON ends.  `C59_stack_false` says that no stack is deep enough for all messages; here, that for every
message some stack is, and that the result is the same on every stack that is deep enough.
-/
set_option autoImplicit false
namespace Verif.Props
open Verif.Wire Verif.Dyn Verif.Pool Verif.Json Verif.Text

/-- **C59, it ends.** On a stack that is deep enough, writing a conforming message gives JSON, always the same, or
always an `Err`; `Any`s inside `Any`s do not make it run forever, if `google.protobuf.Any` is as in `any.proto`. -/
theorem C59_ends (env : JEnv) {S : Schema} (hS : S.wf = true) (hlike : anysLike S = true) (o : SOpts) {m : DynMsg}
    (hm : confMsg S m = true) :
    ∃ k0, (∃ j, ∀ k, k0 ≤ k → toJson env S o k m = .ok j) ∨ ∀ k, k0 ≤ k → toJson env S o k m = .error .err := by
  obtain ⟨md, hC⟩ := confMsg_iff.1 hm
  obtain ⟨k0, h0⟩ := (toJson_ends (env := env) (o := o) hS hlike _ m md hC (Nat.lt_succ_self _)).2
  have hc := h0 k0 (Nat.le_refl _)
  have hl : ∀ k, k0 ≤ k → toJson env S o k m = toJson env S o k0 m := fun k hk => toJson_lasts env S o m hk hc
  refine ⟨k0, ?_⟩
  rcases C59_total env hS o k0 hm with ⟨j, hj⟩ | hj | hj
  · exact .inl ⟨j, fun k hk => (hl k hk).trans hj⟩
  · exact .inr fun k hk => (hl k hk).trans hj
  · exact absurd hj hc

/-- **C59, one result.** How deep the stack is does not change what is written: two stacks that are deep enough give
the same JSON or the same `Err`, for any message at all. -/
theorem C59_one (env : JEnv) (S : Schema) (o : SOpts) (m : DynMsg) (k k' : Nat)
    (h : toJson env S o k m ≠ .error .stack) (h' : toJson env S o k' m ≠ .error .stack) :
    toJson env S o k m = toJson env S o k' m := by
  rcases Nat.le_total k k' with hk | hk
  · exact (toJson_lasts env S o m hk h).symm
  · exact toJson_lasts env S o m hk h'

/-- An `Any` in an `Any` is written; on no stack it is not. -/
example : outerSchema.wf = true ∧ anysLike outerSchema = true ∧ confMsg outerSchema twice = true := by decide +kernel
example : (toJson jEnv outerSchema .default 4 twice).isOk = true ∧ (toJson jEnv outerSchema .default 9 twice).isOk = true ∧
    (match toJson jEnv outerSchema .default 0 twice with
      | .error .stack => true
      | _ => false) = true := by
  decide +kernel

end Verif.Props
