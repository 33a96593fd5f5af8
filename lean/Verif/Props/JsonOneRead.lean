import Verif.Json.OneRead
import Verif.Props.JsonSafe
/-!
C58: what is read from JSON does not depend on the stack, once the stack is as deep as the JSON value.
-/
set_option autoImplicit false
namespace Verif.Props
open Verif.Wire Verif.Dyn Verif.Pool Verif.Json

/-- **C58, one result.** How deep the stack is does not change what is read: two stacks that do not overflow give the
same message or the same error, for any schema and any JSON value. -/
theorem C58_one (env : JEnv) (S : Schema) (o : DOpts) (d : Nat) (j : Json) (k k' : Nat)
    (h : fromJson env S o k d j ≠ .error .stack) (h' : fromJson env S o k' d j ≠ .error .stack) :
    fromJson env S o k d j = fromJson env S o k' d j := by
  rcases Nat.le_total k k' with hk | hk
  · exact (fromJson_lasts env S o d j hk h).symm
  · exact fromJson_lasts env S o d j hk h'

/-- **C58, it ends.** On every stack as deep as the JSON value, reading gives one and the same message, which the
setters accept, or always an `Err`.  Partial: the extensions of a message have distinct numbers, see
`C58_dup_false`. -/
theorem C58_ends_partial {env : JEnv} (hO : OrderOk env) {S : Schema} (hS : S.wf = true) (hX : extsApart S = true)
    (o : DOpts) {d : Nat} {md : MsgDesc} (hd : S.msg? d = some md) (j : Json) :
    (∃ m, accepted S m = true ∧ m.desc = d ∧ ∀ k, j.depth ≤ k + 1 → fromJson env S o k d j = .ok m) ∨
    ∀ k, j.depth ≤ k + 1 → fromJson env S o k d j = .error .err := by
  have calm : ∀ k, j.depth ≤ k + 1 → fromJson env S o k d j ≠ .error .stack := by
    intro k hk he
    rcases C58_safe_partial hO hS hX o k hd j with ⟨m, h, _⟩ | h | ⟨_, h⟩
    · rw [he] at h; exact nomatch h
    · rw [he] at h; exact nomatch h
    · omega
  rcases C58_safe_partial hO hS hX o j.depth hd j with ⟨m, h, ha, hm⟩ | h | ⟨_, h⟩
  · exact .inl ⟨m, ha, hm, fun k hk => (C58_one env S o d j k _ (calm k hk) (calm _ (by omega))).trans h⟩
  · exact .inr fun k hk => (C58_one env S o d j k _ (calm k hk) (calm _ (by omega))).trans h
  · omega

/-- **C58, it ends**, with a conforming message.  Partial: the schema is `jsonSafe`, see `C58_null_false` and
`C58_ext_false`. -/
theorem C58_settles_partial {env : JEnv} (hO : OrderOk env) {S : Schema} (hS : S.wf = true) (hJ : jsonSafe S = true)
    (o : DOpts) {d : Nat} {md : MsgDesc} (hd : S.msg? d = some md) (j : Json) :
    (∃ m, confMsg S m = true ∧ m.desc = d ∧ ∀ k, j.depth ≤ k + 1 → fromJson env S o k d j = .ok m) ∨
    ∀ k, j.depth ≤ k + 1 → fromJson env S o k d j = .error .err := by
  have calm := fun k hk => C58_depth_partial hO hS hJ o (k := k) hd (j := j) hk
  have same := fun k hk => C58_one env S o d j k _ (calm k hk) (calm j.depth (by omega))
  rcases C58_total_partial hO hS hJ o j.depth hd j with ⟨m, h, hm, he⟩ | h | h
  · exact .inl ⟨m, hm, he, fun k hk => (same k hk).trans h⟩
  · exact .inr fun k hk => (same k hk).trans h
  · exact absurd h (calm _ (by omega))

/-- Depth 4: a stack of 3 is enough, one of 1 is not. -/
example : extsApart Ex.schema = true ∧ Ex.schema.wf = true ∧ (Ex.schema.msg? 0).isSome = true := by decide +kernel
example : (fromJson jEnv Ex.schema .default 3 0 exJson).isOk = true ∧
    fromJson jEnv Ex.schema .default 1 0 exJson = .error .stack := by decide +kernel

end Verif.Props
