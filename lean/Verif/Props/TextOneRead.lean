import Verif.Text.OneParse
import Verif.Props.TextSafe
/-!
C52: what is parsed does not depend on the stack, once the stack is as deep as the text opens brackets.
-/
set_option autoImplicit false
namespace Verif.Props
open Verif.Wire Verif.Dyn Verif.Pool Verif.Text

/-- **C52, one result.** How deep the stack is does not change what merging a text does: two stacks that do not
overflow give the same message or the same error, for any schema, message and text. -/
theorem C52_one (env : TEnv) (S : Schema) (m : DynMsg) (text : List Char) (k k' : Nat)
    (h : mergeText env S k m text ≠ .error .stack) (h' : mergeText env S k' m text ≠ .error .stack) :
    mergeText env S k m text = mergeText env S k' m text := by
  rcases Nat.le_total k k' with hk | hk
  · exact ((mergeText_steady env S m text hk).resolve_left h).symm
  · exact (mergeText_steady env S m text hk).resolve_left h'

/-- **C52, it ends.** On every stack deeper than the text opens brackets, merging the text gives one and the same
conforming message, or one and the same error, which is no panic.  Partial: the schema is `textSafe`, see `C52_apart_false`. -/
theorem C52_ends_partial {env : TEnv} (hp : ParsesFloats env.parse64) {S : Schema} (hS : S.wf = true) (hA : textSafe S = true)
    {m : DynMsg} (hm : confMsg S m = true) (text : List Char) :
    (∃ m', confMsg S m' = true ∧ m'.desc = m.desc ∧
      ∀ k, (lex env.parse64 text).countP opens < k → mergeText env S k m text = .ok m') ∨
    ∃ e, e ≠ .panic ∧ e ≠ .stack ∧ e ≠ .fuel ∧
      ∀ k, (lex env.parse64 text).countP opens < k → mergeText env S k m text = .error e := by
  have calm := fun k hk => C52_depth hp hS hA (k := k) hm (text := text) hk
  have same := fun k hk => C52_one env S m text k _ (calm k hk) (calm _ (Nat.lt_succ_self _))
  rcases C52_total hp hS hA ((lex env.parse64 text).countP opens + 1) hm text with ⟨m', h, hc, hd⟩ | ⟨e, h, he, hf⟩
  · exact .inl ⟨m', hc, hd, fun k hk => (same k hk).trans h⟩
  · refine .inr ⟨e, he, ?_, hf, fun k hk => (same k hk).trans h⟩
    rintro rfl
    exact calm _ (Nat.lt_succ_self _) h

/-- A text that is too deep for one stack and not for the next. -/
example : mergeText exEnv Ex.schema 1 Ex.small "child{child{a:2}}".toList = .error .stack ∧
    (mergeText exEnv Ex.schema 2 (DynMsg.empty 0) "child{child{a:2}}".toList).isOk = true ∧
    (mergeText exEnv Ex.schema 9 (DynMsg.empty 0) "child{child{a:2}}".toList).isOk = true := by
  decide +kernel

end Verif.Props
