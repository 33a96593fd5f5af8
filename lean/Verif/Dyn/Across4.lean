import Verif.Dyn.Across3
import Verif.Dyn.Observe
/-! Iteration and extension accessors under the renumbering of `Dyn/Across`. -/
set_option autoImplicit false
namespace Verif.Dyn
open Verif.Wire

section
variable {S T : Schema} {ρ σ : Nat → Nat} {R : Nat → Prop}

theorem Across.iterBy (h : Across S T ρ σ R) {look look' : Nat → Option FieldDesc}
    (hl : ∀ n, look' n = (look n).map (renField ρ σ)) (hi : ∀ n f, look n = some f → InAcross S T σ R f) :
    ∀ {fs : FieldSet}, WithinSlots R fs → iterBy T look' (renSlots ρ fs) =
      (iterBy S look fs).map (List.map fun p => (renField ρ σ p.1, renVal ρ p.2))
  | [], _ => rfl
  | (n, .taken) :: r, hw => by
    simp only [renSlots, Dyn.iterBy]
    exact h.iterBy hl hi (by simpa only [WithinSlots] using hw)
  | (n, .unknown us) :: r, hw => by
    simp only [renSlots, Dyn.iterBy]
    exact h.iterBy hl hi (by simpa only [WithinSlots] using hw)
  | (n, .val v) :: r, hw => by
    simp only [WithinSlots] at hw
    have ih := h.iterBy hl hi (fs := r) hw.2
    simp only [renSlots, Dyn.iterBy, hl]
    cases hn : look n with
    | none => simpa only [Option.map_none] using ih
    | some f =>
      simp only [Option.map_some]
      rw [h.hasVal (hi n f hn) hw.1, ih]
      cases Dyn.hasVal S f v with
      | none => rfl
      | some b =>
        cases Dyn.iterBy S look r with
        | none => cases b <;> rfl
        | some l => cases b <;> rfl

theorem iterUnknown_ren : ∀ fs : FieldSet, iterUnknown (renSlots ρ fs) = iterUnknown fs
  | [] => rfl
  | (n, .taken) :: r => by simp only [renSlots, iterUnknown, iterUnknown_ren r]
  | (n, .unknown us) :: r => by simp only [renSlots, iterUnknown, iterUnknown_ren r]
  | (n, .val v) :: r => by simp only [renSlots, iterUnknown, iterUnknown_ren r]

theorem setExt_ren (m : DynMsg) (f : FieldDesc) (v : Value) :
    DynMsg.setExt (renMsg ρ m) (renField ρ σ f) (renVal ρ v) = renMsg ρ (DynMsg.setExt m f v) := by
  unfold DynMsg.setExt FieldSet.set
  show DynMsg.mk _ (SMap.insert f.number (.val (renVal ρ v)) (FieldSet.clearAll [] (renSlots ρ m.fields))) = _
  rw [clearAll_renSlots]
  have := insert_renSlots (ρ := ρ) f.number (Slot.val v) (FieldSet.clearAll [] m.fields)
  simp only [renSlot] at this
  rw [this]
  rfl

end

end Verif.Dyn
