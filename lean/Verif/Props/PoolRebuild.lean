import Verif.Pool.Rebuild4
import Verif.Props.PoolSplit
/-!
C96: a pool can be rebuilt from the descriptors it hands out.
-/
set_option autoImplicit false
namespace Verif.Props
open Verif.Wire Verif.Dyn Verif.Pool

section
variable {env : Env} (hsr : SearchOk env.search) {acc : List FileP} {p : Pool}
include hsr

/-- **C96.** After any history of additions, the file descriptors a pool hands out are accepted by an empty
pool in one addition, and the pool they make has the same descriptors.  The hypotheses: options hold nothing
uninterpreted, names of declarations are proper, public imports have no cycle and the stack holds a call for
every file. -/
theorem C96_rebuild_partial (hkp : KeepsPacked env) (h : Hist env acc p) (hw : WellNamed acc)
    (hcyc : ∀ i, ¬ PublicPlus acc i i) (hstack : acc.length ≤ env.stack)
    (hopt : ∀ q, ∀ e ∈ visit {} p.protos, env.optErr q e = .ok false) :
    ∃ q, buildFiles env Pool.empty p.protos = .ok ⟨q, []⟩ ∧ SamePool p q := by
  obtain ⟨q, hb, hq⟩ := h.rebuild hsr hkp hw hcyc hstack hopt
  exact ⟨q, hb, samePool_of (h.resettled hsr hkp hw) (hq.settled hsr) (wellNamed_alike (h.desc hsr).protos hw)⟩

/-- Whatever pool the descriptors make, in however many additions and next to whatever rejected ones, it has
the same descriptors. -/
theorem C96_same_partial (hkp : KeepsPacked env) (h : Hist env acc p) (hw : WellNamed acc) {q : Pool}
    (hq : Hist env p.protos q) : SamePool p q :=
  samePool_of (h.resettled hsr hkp hw) (hq.settled hsr) (wellNamed_alike (h.desc hsr).protos hw)

end

/-! ### Examples -/

theorem rebuild_ex {bs : List (List FileP)} (h : (runNew Pool.empty bs).isSome = true)
    (hw : wellNamed bs.flatten = true) (hp : ∀ f ∈ bs.flatten, f.publicDeps = [])
    (hl : bs.flatten.length ≤ env0.stack) :
    ∃ p q, Accepts env0 bs.flatten p ∧ buildFiles env0 Pool.empty p.protos = .ok ⟨q, []⟩ ∧ SamePool p q := by
  obtain ⟨p, ha⟩ := split_ex bs h
  obtain ⟨q, h1, h2⟩ := C96_rebuild_partial linearSearch_ok env0_packed ha.hist (wellNamed_ok hw)
    (no_public_plus hp) hl fun q e _ => rfl
  exact ⟨p, q, ha, h1, h2⟩

/-- The premises are met: two files with a nested message, an enum, a oneof, a service, an extension, and
names relative to the scope. -/
example : ∃ p q, Accepts env0 [fileA, fileB] p ∧ buildFiles env0 Pool.empty p.protos = .ok ⟨q, []⟩ ∧
    SamePool p q ∧ q.messages.length = 3 := by
  obtain ⟨p, q, h1, h2, h3⟩ := rebuild_ex (bs := [[fileA], [fileB]]) (by decide +kernel) (by decide +kernel)
    (by decide +kernel) (by decide +kernel)
  refine ⟨p, q, h1, h2, h3, ?_⟩
  rw [← h3.messageCount]
  have : p.offs.message = p.messages.length := rfl
  rw [← this, (h1.hist.desc linearSearch_ok).offs]
  decide +kernel

end Verif.Props
