import Verif.Dyn.Alike
import Verif.Dyn.DepthBound
/-!
Iterating over a conforming message never fails, and what it yields nests no deeper than the
message.
-/
set_option autoImplicit false
namespace Verif.Dyn
open Verif.Wire

theorem has_isSome {S : Schema} {f : FieldDesc} (hf : FieldWf S f) (fs : FieldSet) :
    ∃ b, FieldSet.has S fs f = some b := by
  unfold FieldSet.has
  split
  · exact hasVal_isSome hf _
  · exact ⟨_, rfl⟩

theorem get_isSome {S : Schema} (hS : S.wf = true) {f : FieldDesc} (hf : FieldWf S f) (fs : FieldSet) :
    ∃ v, FieldSet.get S fs f = some v := by
  unfold FieldSet.get
  split
  · exact ⟨_, rfl⟩
  · obtain ⟨v, hv, -⟩ := fieldDefault_conf hS hf
    exact ⟨v, hv⟩

theorem iterFieldPart_total {S : Schema} (hS : S.wf = true) (incl : Bool) (fs : FieldSet) :
    ∀ ds : List (Nat × FieldDesc), (∀ p ∈ ds, FieldWf S p.2) → ∃ its, iterFieldPart S incl fs ds = some its := by
  intro ds
  induction ds with
  | nil => intro _; exact ⟨_, rfl⟩
  | cons p r ih =>
    obtain ⟨n, f⟩ := p
    intro h
    obtain ⟨its, hi⟩ := ih (fun p hp => h p (List.mem_cons_of_mem _ hp))
    obtain ⟨b, hb⟩ := has_isSome (h (n, f) (by simp)) fs
    obtain ⟨v, hv⟩ := get_isSome hS (h (n, f) (by simp)) fs
    simp only [iterFieldPart, hb, hi, hv]
    by_cases hc : (if incl = true then !f.presence || b else b) = true
    · rw [if_pos hc]; exact ⟨_, rfl⟩
    · rw [if_neg hc]; exact ⟨_, rfl⟩

theorem iterExtPart_total {S : Schema} {md : MsgDesc} (h : ∀ f ∈ md.extensions, FieldWf S f) :
    ∀ fs : FieldSet, ∃ its, iterExtPart S md fs = some its := by
  intro fs
  induction fs with
  | nil => exact ⟨_, rfl⟩
  | cons p r ih =>
    obtain ⟨n, s⟩ := p
    obtain ⟨its, hi⟩ := ih
    cases s with
    | taken => exact ⟨its, hi⟩
    | unknown u => exact ⟨.unknown u :: its, by simp [iterExtPart, hi]⟩
    | val v =>
      simp only [iterExtPart]
      cases hx : md.getExtension n with
      | none => exact ⟨its, hi⟩
      | some f =>
        obtain ⟨b, hb⟩ := hasVal_isSome (h f (getExtension_mem hx).1) v
        simp only [hb, hi]
        cases b <;> exact ⟨_, rfl⟩

/-- Listed values nest no deeper than the message. -/
theorem Listing.depth {S : Schema} (hS : S.wf = true) {d : Nat} {md : MsgDesc} {fs : FieldSet}
    (hm : S.msg? d = some md) {L : List Ent} (h : Listing S d md fs L) {e : Ent} (he : e ∈ L) :
    depthVal e.v ≤ depthSlots fs := by
  have hg := h.get e he
  unfold FieldSet.get FieldSet.getValue at hg
  split at hg
  · rename_i v hv
    cases hg
    split at hv
    · rename_i w hw
      cases hv
      exact depth_get (Nat.le_refl _) hw
    · cases hv
  · rename_i hv
    have hfw := h.wf hS hm he
    have hpr : e.f.presence = false := by
      rcases h.has e he with h | h
      · simp only [FieldSet.has, FieldSet.getValue, hv] at h
        cases h
      · exact h
    have : depthVal e.v = 0 := by
      generalize e.v = x at hg
      unfold fieldDefault at hg
      split at hg
      · cases hg; rfl
      · split at hg
        · cases hg; rfl
        · rename_i h1 h2
          have hc : e.f.card ≠ .repeated := by
            intro hc
            simp [isList, hc] at h1
            exact h2 h1
          split at hg
          · rename_i v hd
            cases hg
            exact scalar_depth (hfw.dflt _ hd)
          · unfold kindDefault at hg
            split at hg
            · rename_i hk
              exact absurd (hfw.msg hc (by rw [hk]; rfl)) (by simp [hpr])
            · obtain ⟨x, -, hx⟩ := Option.map_eq_some_iff.1 hg
              rw [← hx]; rfl
            all_goals cases hg; rfl
    omega

end Verif.Dyn
