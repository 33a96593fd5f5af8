import Verif.Dyn.Alike
/-!
Conditions on every `float` and every message inside a message.
-/
set_option autoImplicit false
namespace Verif.Dyn
open Verif.Wire

mutual
/-- Every `float` in the value satisfies `Q` and every message in it satisfies `P`. -/
def keepVal (Q : BitVec 32 → Prop) (P : DynMsg → Prop) : Value → Prop
  | .msg d fs => P ⟨d, fs⟩ ∧ keepSlots Q P fs
  | .list vs => keepVals Q P vs
  | .map kvs => keepMap Q P kvs
  | .f32 v => Q v
  | _ => True
def keepVals (Q : BitVec 32 → Prop) (P : DynMsg → Prop) : List Value → Prop
  | [] => True
  | v :: r => keepVal Q P v ∧ keepVals Q P r
def keepMap (Q : BitVec 32 → Prop) (P : DynMsg → Prop) : List (MapKey × Value) → Prop
  | [] => True
  | (_, v) :: r => keepVal Q P v ∧ keepMap Q P r
def keepSlots (Q : BitVec 32 → Prop) (P : DynMsg → Prop) : List (Nat × Slot) → Prop
  | [] => True
  | (_, .val v) :: r => keepVal Q P v ∧ keepSlots Q P r
  | (_, _) :: r => keepSlots Q P r
end

theorem keepVals_mem {Q : BitVec 32 → Prop} {P : DynMsg → Prop} {vs : List Value} (h : keepVals Q P vs) {v : Value} (hv : v ∈ vs) :
    keepVal Q P v := by
  induction vs with
  | nil => cases hv
  | cons x r ih =>
    simp only [keepVals] at h
    rcases List.mem_cons.1 hv with rfl | hv
    · exact h.1
    · exact ih h.2 hv

theorem keepMap_mem {Q : BitVec 32 → Prop} {P : DynMsg → Prop} {kvs : List (MapKey × Value)} (h : keepMap Q P kvs)
    {p : MapKey × Value} (hp : p ∈ kvs) : keepVal Q P p.2 := by
  induction kvs with
  | nil => cases hp
  | cons x r ih =>
    obtain ⟨k, v⟩ := x
    simp only [keepMap] at h
    rcases List.mem_cons.1 hp with rfl | hp
    · exact h.1
    · exact ih h.2 hp

theorem keepSlots_get {Q : BitVec 32 → Prop} {P : DynMsg → Prop} {fs : List (Nat × Slot)} (h : keepSlots Q P fs) {n : Nat} {v : Value}
    (hg : SMap.get? fs n = some (.val v)) : keepVal Q P v := by
  induction fs with
  | nil => cases hg
  | cons x r ih =>
    obtain ⟨m, s⟩ := x
    have hr : keepSlots Q P r := by
      cases s <;> simp only [keepSlots] at h <;> first | exact h.2 | exact h
    simp only [SMap.get?] at hg
    split at hg
    · cases hg
      simp only [keepSlots] at h
      exact h.1
    · exact ih hr hg

/-- Listed values keep. -/
theorem listing_keep {Q : BitVec 32 → Prop} {P : DynMsg → Prop} {S : Schema} (h0 : Q 0#32) (hS : S.wf = true) {d : Nat} {md : MsgDesc}
    {fs : FieldSet} (hm : S.msg? d = some md) (hp : plainDefaults md = true) {L : List Ent}
    (h : Listing S d md fs L) (hk : keepSlots Q P fs) {e : Ent} (he : e ∈ L) : keepVal Q P e.v := by
  have hg := h.get e he
  have hl := h.look e he
  unfold FieldSet.get FieldSet.getValue at hg
  split at hg
  · rename_i v hv
    cases hg
    split at hv
    · rename_i w hw
      cases hv
      exact keepSlots_get hk hw
    · cases hv
  · rename_i hv
    have hfw := h.wf hS hm he
    have hpr : e.f.presence = false := by
      rcases h.has e he with h | h
      · simp only [FieldSet.has, FieldSet.getValue, hv] at h
        cases h
      · exact h
    have hd : e.f.default = none := by
      have hmem : e.f ∈ md.fields ++ md.extensions := by
        split at hl
        · exact List.mem_append.2 (.inr (getExtension_mem hl).1)
        · exact List.mem_append.2 (.inl (getField_mem hl).1)
      simp only [plainDefaults, List.all_eq_true] at hp
      have := hp e.f hmem
      simpa [hpr] using this
    generalize e.v = x at hg
    unfold fieldDefault at hg
    split at hg
    · cases hg; trivial
    · split at hg
      · cases hg; trivial
      · rename_i h1 h2
        have hc : e.f.card ≠ .repeated := by
          intro hc
          simp [isList, hc] at h1
          exact h2 h1
        rw [hd] at hg
        simp only [kindDefault] at hg
        split at hg
        · rename_i hk
          exact absurd (hfw.msg hc (by rw [hk]; rfl)) (by simp [hpr])
        · obtain ⟨x, -, hx⟩ := Option.map_eq_some_iff.1 hg
          rw [← hx]; trivial
        all_goals cases hg; first | trivial | exact h0

end Verif.Dyn
