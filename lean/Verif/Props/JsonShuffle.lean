import Verif.Json.Shuffle
import Verif.Props.JsonSafe
/-!
C106: the order of the entries of a JSON object does not matter.
-/
set_option autoImplicit false
namespace Verif.Props
open Verif.Wire Verif.Dyn Verif.Pool Verif.Json

/-- **C106.** A JSON object whose keys name different fields, in any two orders, is read as the same message, or
rejected in both orders.  Members of one oneof may both be named: at most one of them then has a value. -/
theorem C106_order (env : JEnv) {S : Schema} (hS : S.wf = true) (o : DOpts) (k : Nat) {d : Nat} {md : MsgDesc}
    (hd : S.msg? d = some md) (hn : wkt? md.name = none) {es es' : List (Name × Json)} (hp : es.Perm es')
    (ha : es.Pairwise (KeysApart md)) (m : DynMsg) :
    fromJson env S o k d (.obj es) = .ok m ↔ fromJson env S o k d (.obj es') = .ok m := by
  have hw := Schema.wf_msg hS hd
  have e : ∀ l, fromJson env S o k d (.obj l) = deEntries S o (deVal env S o k) md (DynMsg.empty d) l := by
    intro l
    unfold fromJson deMsg
    simp only [hd, hn]
  rw [e, e]
  exact ⟨deEntries_perm hw hp rfl ha, deEntries_perm hw hp.symm rfl (hp.pairwise ha fun h => h.symm)⟩

/-- **C106, the whole result.** On a stack that is deep enough both orders give the same message or the same error,
if the extensions of a message have distinct numbers (otherwise reading may panic, see `C58_dup_false`). -/
theorem C106_errors {env : JEnv} (hO : OrderOk env) {S : Schema} (hS : S.wf = true) (hX : extsApart S = true)
    (o : DOpts) (k : Nat) {d : Nat} {md : MsgDesc} (hd : S.msg? d = some md) (hn : wkt? md.name = none)
    {es es' : List (Name × Json)} (hp : es.Perm es') (ha : es.Pairwise (KeysApart md))
    (hk : (Json.obj es).depth ≤ k + 1) (hk' : (Json.obj es').depth ≤ k + 1) :
    fromJson env S o k d (.obj es) = fromJson env S o k d (.obj es') := by
  have c := C106_order env hS o k hd hn hp ha
  rcases C58_safe_partial hO hS hX o k hd (.obj es) with ⟨m, h, _⟩ | h | ⟨_, h⟩
  · rw [h, (c m).1 h]
  · rcases C58_safe_partial hO hS hX o k hd (.obj es') with ⟨m, h', _⟩ | h' | ⟨_, h'⟩
    · rw [(c m).2 h', h']
    · rw [h, h']
    · omega
  · omega

/-- Four entries, in two orders. -/
def shuffled : List (Name × Json) := [("o1".toList, .null), ("t.ext".toList, .str "5".toList),
  ("child".toList, .obj [("a".toList, .uint 2)]), ("a".toList, .uint 1)]

example : Ex.schema.wf = true ∧ extsApart Ex.schema = true ∧ (Ex.schema.msg? 0).isSome = true := by decide +kernel
example : fromJson jEnv Ex.schema .default 5 0 (.obj shuffled) = fromJson jEnv Ex.schema .default 5 0 (.obj shuffled.reverse) ∧
    (fromJson jEnv Ex.schema .default 5 0 (.obj shuffled)).isOk = true := by decide +kernel

instance (md : MsgDesc) (p q : Name × Json) : Decidable (KeysApart md p q) :=
  decidable_of_iff (∀ f ∈ keyNames md p.1, ∀ g ∈ keyNames md q.1, f.number ≠ g.number)
    ⟨fun h f g a b => h f a g b, fun h f a g b => h f g a b⟩

example : ∀ md, Ex.schema.msg? 0 = some md → wkt? md.name = none ∧ shuffled.Pairwise (KeysApart md) ∧
    shuffled.all (fun p => (keyNames md p.1).isSome) = true := by
  intro md h
  cases h
  decide +kernel

/-- C106 needs different fields: of two entries for one field the last one counts. -/
theorem C106_false : ¬ ∀ (env : JEnv) (S : Schema) (o : DOpts) (k d : Nat) (es es' : List (Name × Json)) (m : DynMsg),
    S.wf = true → es.Perm es' → fromJson env S o k d (.obj es) = .ok m → fromJson env S o k d (.obj es') = .ok m := by
  intro h
  have h1 := h jEnv Ex.schema .default 5 0 [("a".toList, .uint 1), ("a".toList, .uint 2)]
    [("a".toList, .uint 2), ("a".toList, .uint 1)] ⟨0, [(1, .val (.i32 2))]⟩ (by decide +kernel) (.swap _ _ _)
    (by decide +kernel)
  exact absurd h1 (by decide +kernel)

end Verif.Props
