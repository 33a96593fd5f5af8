import Verif.Dyn.Conf
import Verif.Dyn.Total
/-!
Conforming messages pass the validity checks of the setters at every level.
-/
set_option autoImplicit false
namespace Verif.Dyn
open Verif.Wire

theorem isValid_of_confElem {S : Schema} {f : FieldDesc} {v : Value} (hc : f.card ≠ .repeated)
    (h : confVal S f v = true) : v.isValid f.kind = true := by
  have h3 : isList S f = false := isList_of_ne hc
  have h5 : isMap S f = false := isMap_of_ne hc
  cases v with
  | msg d fs => rw [(confMsg_of_confVal h).2.1]; rfl
  | list vs => simp only [confVal, h3, Bool.false_and] at h; cases h
  | map vs => simp only [confVal, h5, Bool.false_and] at h; cases h
  | _ => simp only [confVal, Bool.and_eq_true] at h; exact scalarOk_isValid h.2

mutual
theorem conf_accepted {S : Schema} (hS : S.wf = true) : (v : Value) → (f : FieldDesc) →
    confVal S f v = true → validFor S f v = some true ∧ acceptedIn S v = true
  | .msg d fs, f, h => by
    have h' := h
    simp only [confVal, Bool.and_eq_true, bne_iff_ne, beq_iff_eq] at h'
    refine ⟨validFor_of_isValid (isValid_of_confElem h'.1.1 h), ?_⟩
    simp only [acceptedIn, Bool.and_eq_true]
    obtain ⟨md, hmd, _⟩ := (oneofOk_iff h'.2.1.1).1 h'.2.1.2
    exact ⟨by rw [hmd]; rfl, confSlots_accepted hS fs d h'.2.2⟩
  | .list vs, f, h => by
    simp only [confVal, Bool.and_eq_true] at h
    have := confVals_accepted hS vs f.elem elem_card h.2
    refine ⟨?_, this.2⟩
    simp only [validFor, h.1, if_true, Option.some.injEq, List.all_eq_true]
    exact this.1
  | .map kvs, f, h => by
    simp only [confVal, Bool.and_eq_true] at h
    obtain ⟨hm, h⟩ := h
    cases hk : f.kind with
    | message i =>
      rw [hk] at h
      simp only at h
      cases hkv : S.mapKV i with
      | none => rw [hkv] at h; cases h
      | some p =>
        obtain ⟨kd, vd⟩ := p
        rw [hkv] at h
        simp only [Bool.and_eq_true] at h
        have := confMap_accepted hS kvs kd vd h.2
        simp only [validFor, hk, hm, if_true, hkv]
        exact this
    | _ => rw [hk] at h; cases h
  | .bool _, f, h => ⟨validFor_of_isValid (by simp only [confVal, Bool.and_eq_true] at h; exact scalarOk_isValid h.2), rfl⟩
  | .i32 _, f, h => ⟨validFor_of_isValid (by simp only [confVal, Bool.and_eq_true] at h; exact scalarOk_isValid h.2), rfl⟩
  | .i64 _, f, h => ⟨validFor_of_isValid (by simp only [confVal, Bool.and_eq_true] at h; exact scalarOk_isValid h.2), rfl⟩
  | .u32 _, f, h => ⟨validFor_of_isValid (by simp only [confVal, Bool.and_eq_true] at h; exact scalarOk_isValid h.2), rfl⟩
  | .u64 _, f, h => ⟨validFor_of_isValid (by simp only [confVal, Bool.and_eq_true] at h; exact scalarOk_isValid h.2), rfl⟩
  | .f32 _, f, h => ⟨validFor_of_isValid (by simp only [confVal, Bool.and_eq_true] at h; exact scalarOk_isValid h.2), rfl⟩
  | .f64 _, f, h => ⟨validFor_of_isValid (by simp only [confVal, Bool.and_eq_true] at h; exact scalarOk_isValid h.2), rfl⟩
  | .str _, f, h => ⟨validFor_of_isValid (by simp only [confVal, Bool.and_eq_true] at h; exact scalarOk_isValid h.2), rfl⟩
  | .bytes _, f, h => ⟨validFor_of_isValid (by simp only [confVal, Bool.and_eq_true] at h; exact scalarOk_isValid h.2), rfl⟩
  | .enum _, f, h => ⟨validFor_of_isValid (by simp only [confVal, Bool.and_eq_true] at h; exact scalarOk_isValid h.2), rfl⟩
theorem confVals_accepted {S : Schema} (hS : S.wf = true) : (vs : List Value) → (f : FieldDesc) →
    f.card ≠ .repeated → confVals S f vs = true →
    (∀ v ∈ vs, v.isValid f.kind = true) ∧ acceptedVals S vs = true
  | [], _, _, _ => ⟨(by intro v hv; cases hv), rfl⟩
  | v :: r, f, hc, h => by
    simp only [confVals, Bool.and_eq_true] at h
    have h1 := conf_accepted hS v f h.1
    have h2 := confVals_accepted hS r f hc h.2
    refine ⟨?_, ?_⟩
    · intro x hx
      rcases List.mem_cons.1 hx with rfl | hx
      · exact isValid_of_confElem hc h.1
      · exact h2.1 x hx
    · simp only [acceptedVals, Bool.and_eq_true]; exact ⟨h1.2, h2.2⟩
theorem confMap_accepted {S : Schema} (hS : S.wf = true) : (kvs : List (MapKey × Value)) →
    (kd vd : FieldDesc) → confMap S kd vd kvs = true →
    validMap S kd vd kvs = some true ∧ acceptedMap S kvs = true
  | [], _, _, _ => ⟨rfl, rfl⟩
  | (k, v) :: r, kd, vd, h => by
    simp only [confMap, Bool.and_eq_true] at h
    have h1 := conf_accepted hS v vd h.1.2
    have h2 := confMap_accepted hS r kd vd h.2
    have hk : k.isValid kd.kind = true := by
      have := h.1.1
      cases k <;> simp only [keyOk, Bool.and_eq_true] at this <;> first
        | exact this
        | exact this.1
    refine ⟨?_, ?_⟩
    · simp only [validMap, hk, if_true, h1.1, h2.1]
    · simp only [acceptedMap, Bool.and_eq_true]; exact ⟨h1.2, h2.2⟩
theorem confSlots_accepted {S : Schema} (hS : S.wf = true) : (fs : List (Nat × Slot)) → (d : Nat) →
    confSlots S d fs = true → acceptedSlots S d fs = true
  | [], _, _ => rfl
  | (n, .taken) :: r, d, h => by
    simp only [confSlots] at h
    simp only [acceptedSlots]; exact confSlots_accepted hS r d h
  | (n, .unknown u) :: r, d, h => by
    simp only [confSlots, Bool.and_eq_true, unknownOk] at h
    simp only [acceptedSlots, Bool.and_eq_true]
    exact ⟨h.1.2.2, confSlots_accepted hS r d h.2⟩
  | (n, .val v) :: r, d, h => by
    simp only [confSlots, Bool.and_eq_true] at h
    simp only [acceptedSlots, Bool.and_eq_true]
    refine ⟨?_, confSlots_accepted hS r d h.2⟩
    cases hf : S.field? d n with
    | some f =>
      have h1 := h.1
      rw [hf] at h1
      have h2 := conf_accepted hS v f h1
      have he : S.ext? d n = none := by
        cases he : S.ext? d n with
        | none => rfl
        | some g => have := (Schema.wf_ext hS he).2.2.1; rw [hf] at this; cases this
      simp [he, h2.1, h2.2]
    | none =>
      have h1 := h.1
      rw [hf] at h1
      simp only at h1
      cases he : S.ext? d n with
      | none => rw [he] at h1; cases h1
      | some f =>
        rw [he] at h1
        have h2 := conf_accepted hS v f h1
        simp [h2.1, h2.2]
end

theorem confMsg_accepted {S : Schema} (hS : S.wf = true) {m : DynMsg} (h : confMsg S m = true) :
    accepted S m = true := by
  simp only [confMsg, Bool.and_eq_true] at h
  exact confSlots_accepted hS _ _ h.2

end Verif.Dyn
