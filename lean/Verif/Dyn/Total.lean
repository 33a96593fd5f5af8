import Verif.Dyn.Len
/-!
Values that passed the validity checks can be encoded: no panic, whatever the history.
-/
set_option autoImplicit false
namespace Verif.Dyn
open Verif.Wire

theorem unlessDefault_total {α : Type} {S : Schema} {f : FieldDesc} (hf : FieldWf S f) {v : Value}
    {z : α} {k : Option α} (hk : ∃ b, k = some b) : ∃ b, unlessDefault S f v z k = some b := by
  obtain ⟨h, hh⟩ := hasVal_isSome hf v
  cases h
  · exact ⟨z, unlessDefault_absent hh⟩
  · rw [unlessDefault_present hh]; exact hk

theorem validFor_of_isValid {S : Schema} {f : FieldDesc} {v : Value} (h : v.isValid f.kind = true) :
    validFor S f v = some true := by
  cases v <;> simp only [validFor] <;> first
    | (rw [h])
    | (simp [Value.isValid] at h)

theorem scalar_total {S : Schema} {f : FieldDesc} {v : Value} (hf : FieldWf S f)
    (hm : ∀ d fs, v ≠ .msg d fs) (hv : v.isValid f.kind = true) :
    (∃ b, unlessDefault S f v []
      ((scalarEnc f.kind v).map (encodeKey f.number f.kind.wireType ++ ·)) = some b) ∧
    ∃ l, unlessDefault S f v 0 ((scalarLen f.kind v).map (keyLen f.number + ·)) = some l := by
  have hk : f.kind.isMessage = false := by
    cases hk : f.kind <;> try rfl
    rw [hk] at hv
    cases v <;> simp [Value.isValid] at hv
    exact absurd rfl (hm _ _)
  have h1 := scalarEnc_isSome hk v
  have h2 := scalarLen_isSome hk v
  rw [hv] at h1 h2
  obtain ⟨b, hb⟩ := Option.isSome_iff_exists.1 h1
  obtain ⟨l, hl⟩ := Option.isSome_iff_exists.1 h2
  exact ⟨unlessDefault_total hf ⟨_, by rw [hb]; rfl⟩, unlessDefault_total hf ⟨_, by rw [hl]; rfl⟩⟩

theorem packed_total {k : Kind} (hk : k.packable = true) : ∀ (vs : List Value),
    (∀ v ∈ vs, v.isValid k = true) →
    (∃ b, packedEncAll k vs = some b) ∧ ∃ l, packedLenAll k vs = some l := by
  have hm : k.isMessage = false := by cases k <;> first | rfl | cases hk
  intro vs
  induction vs with
  | nil => intro _; exact ⟨⟨_, rfl⟩, ⟨_, rfl⟩⟩
  | cons v r ih =>
    intro h
    obtain ⟨⟨b, hb⟩, l, hl⟩ := ih (fun v hv => h v (List.mem_cons_of_mem _ hv))
    have hv := h v List.mem_cons_self
    have h1 := scalarEnc_isSome hm v
    have h2 := scalarLen_isSome hm v
    rw [hv] at h1 h2
    obtain ⟨b', hb'⟩ := Option.isSome_iff_exists.1 h1
    obtain ⟨l', hl'⟩ := Option.isSome_iff_exists.1 h2
    simp only [packedEncAll, packedLenAll, packedEnc_eq hk, packedLen_eq hk, hb, hl, hb', hl']
    exact ⟨⟨_, rfl⟩, ⟨_, rfl⟩⟩

theorem key_total {f : FieldDesc} {k : MapKey} (hd : ∃ k0, MapKey.default f.kind = some k0)
    (hk : k.isValid f.kind = true) : (∃ b, encKey f k = some b) ∧ ∃ l, lenKey f k = some l := by
  obtain ⟨k0, hk0⟩ := hd
  have hm := (mapKeyDefault_kind hk0).1
  have h1 := scalarEnc_isSome hm k.toValue
  have h2 := scalarLen_isSome hm k.toValue
  rw [← mapKey_isValid, hk] at h1 h2
  obtain ⟨b', hb'⟩ := Option.isSome_iff_exists.1 h1
  obtain ⟨l', hl'⟩ := Option.isSome_iff_exists.1 h2
  unfold encKey lenKey
  simp only [hb', hl', hk0, Option.map_some]
  refine ⟨?_, ?_⟩
  · split
    · exact ⟨_, rfl⟩
    · split <;> exact ⟨_, rfl⟩
  · split
    · exact ⟨_, rfl⟩
    · split <;> exact ⟨_, rfl⟩

mutual
theorem encVal_total {S : Schema} (hS : S.wf = true) : (v : Value) → (f : FieldDesc) →
    FieldWf S f → validFor S f v = some true → acceptedIn S v = true →
    (∃ b, encVal S f v = some b) ∧ ∃ l, lenVal S f v = some l
  | .msg d fs, f, hf, hv, ha => by
    simp only [acceptedIn, Bool.and_eq_true] at ha
    obtain ⟨⟨p, hp⟩, l, hl⟩ := encSlots_total hS fs d ha.2
    simp only [validFor, Option.some.injEq] at hv
    have hk : ∃ i, f.kind = .message i := by
      cases hk : f.kind <;> rw [hk] at hv <;> simp [Value.isValid] at hv
      exact ⟨_, rfl⟩
    obtain ⟨i, hi⟩ := hk
    simp only [encVal, lenVal, hi, hp, hl]
    refine ⟨unlessDefault_total hf ?_, unlessDefault_total hf ?_⟩
    · split <;> exact ⟨_, rfl⟩
    · split <;> exact ⟨_, rfl⟩
  | .list vs, f, hf, hv, ha => by
    simp only [acceptedIn] at ha
    simp only [validFor] at hv
    split at hv
    · rename_i hL
      simp only [Option.some.injEq, List.all_eq_true] at hv
      simp only [encVal, lenVal, hL, if_true]
      by_cases hp : f.packed = true
      · have hk := (hf.packed hp).2
        obtain ⟨⟨b, hb⟩, l, hl⟩ := packed_total hk vs hv
        refine ⟨unlessDefault_total hf ?_, unlessDefault_total hf ?_⟩
        · simp [hp, encPackedList, hk, hb, hl]
        · simp [hp, lenPackedList, hk, hl]
      · obtain ⟨h1, h2⟩ := encVals_total hS vs f hf hv ha
        refine ⟨unlessDefault_total hf ?_, unlessDefault_total hf ?_⟩
        · rw [if_neg hp]; exact h1
        · rw [if_neg hp]; exact h2
    · simp at hv
  | .map kvs, f, hf, hv, ha => by
    simp only [acceptedIn] at ha
    simp only [validFor] at hv
    split at hv
    · rename_i i hi
      split at hv
      · rename_i hm
        obtain ⟨_, j, hj, hje⟩ := isMap_iff.1 hm
        rw [hi] at hj; cases hj
        obtain ⟨kd, vd, hE⟩ := Schema.wf_entry hS hje
        rw [hE.kv] at hv
        simp only at hv
        obtain ⟨h1, h2⟩ := encMap_total hS kvs f.number kd vd hE.key.2.2.2 hE.val.1 hv ha
        simp only [encVal, lenVal, hi, hm, if_true, hE.kv]
        exact ⟨unlessDefault_total hf h1, unlessDefault_total hf h2⟩
      · simp at hv
    · simp at hv
  | .bool x, f, hf, hv, _ => by
    simp only [validFor, Option.some.injEq] at hv; simp only [encVal, lenVal]
    exact scalar_total hf (fun _ _ h => by cases h) hv
  | .i32 x, f, hf, hv, _ => by
    simp only [validFor, Option.some.injEq] at hv; simp only [encVal, lenVal]
    exact scalar_total hf (fun _ _ h => by cases h) hv
  | .i64 x, f, hf, hv, _ => by
    simp only [validFor, Option.some.injEq] at hv; simp only [encVal, lenVal]
    exact scalar_total hf (fun _ _ h => by cases h) hv
  | .u32 x, f, hf, hv, _ => by
    simp only [validFor, Option.some.injEq] at hv; simp only [encVal, lenVal]
    exact scalar_total hf (fun _ _ h => by cases h) hv
  | .u64 x, f, hf, hv, _ => by
    simp only [validFor, Option.some.injEq] at hv; simp only [encVal, lenVal]
    exact scalar_total hf (fun _ _ h => by cases h) hv
  | .f32 x, f, hf, hv, _ => by
    simp only [validFor, Option.some.injEq] at hv; simp only [encVal, lenVal]
    exact scalar_total hf (fun _ _ h => by cases h) hv
  | .f64 x, f, hf, hv, _ => by
    simp only [validFor, Option.some.injEq] at hv; simp only [encVal, lenVal]
    exact scalar_total hf (fun _ _ h => by cases h) hv
  | .str x, f, hf, hv, _ => by
    simp only [validFor, Option.some.injEq] at hv; simp only [encVal, lenVal]
    exact scalar_total hf (fun _ _ h => by cases h) hv
  | .bytes x, f, hf, hv, _ => by
    simp only [validFor, Option.some.injEq] at hv; simp only [encVal, lenVal]
    exact scalar_total hf (fun _ _ h => by cases h) hv
  | .enum x, f, hf, hv, _ => by
    simp only [validFor, Option.some.injEq] at hv; simp only [encVal, lenVal]
    exact scalar_total hf (fun _ _ h => by cases h) hv
theorem encVals_total {S : Schema} (hS : S.wf = true) : (vs : List Value) → (f : FieldDesc) →
    FieldWf S f → (∀ v ∈ vs, v.isValid f.kind = true) → acceptedVals S vs = true →
    (∃ b, encVals S f vs = some b) ∧ ∃ l, lenVals S f vs = some l
  | [], f, _, _, _ => ⟨⟨_, rfl⟩, ⟨_, rfl⟩⟩
  | v :: r, f, hf, hv, ha => by
    simp only [acceptedVals, Bool.and_eq_true] at ha
    obtain ⟨⟨b, hb⟩, l, hl⟩ :=
      encVal_total hS v f hf (validFor_of_isValid (hv v List.mem_cons_self)) ha.1
    obtain ⟨⟨b', hb'⟩, l', hl'⟩ :=
      encVals_total hS r f hf (fun v h => hv v (List.mem_cons_of_mem _ h)) ha.2
    simp only [encVals, lenVals, hb, hl, hb', hl']
    exact ⟨⟨_, rfl⟩, ⟨_, rfl⟩⟩
theorem encMap_total {S : Schema} (hS : S.wf = true) : (kvs : List (MapKey × Value)) → (n : Nat) →
    (kd vd : FieldDesc) → (∃ k0, MapKey.default kd.kind = some k0) → FieldWf S vd →
    validMap S kd vd kvs = some true → acceptedMap S kvs = true →
    (∃ b, encMapEntries S n kd vd kvs = some b) ∧ ∃ l, lenMapEntries S n kd vd kvs = some l
  | [], n, kd, vd, _, _, _, _ => ⟨⟨_, rfl⟩, ⟨_, rfl⟩⟩
  | (k, v) :: r, n, kd, vd, hk, hf, hv, ha => by
    simp only [acceptedMap, Bool.and_eq_true] at ha
    simp only [validMap] at hv
    split at hv
    · rename_i hkv
      split at hv
      · rename_i hvv
        obtain ⟨⟨b, hb⟩, l, hl⟩ := encVal_total hS v vd hf hvv ha.1
        obtain ⟨⟨c, hc⟩, m, hm⟩ := key_total hk hkv
        obtain ⟨⟨b', hb'⟩, l', hl'⟩ := encMap_total hS r n kd vd hk hf hv ha.2
        simp only [encMapEntries, lenMapEntries, hb, hl, hc, hm, hb', hl']
        exact ⟨⟨_, rfl⟩, ⟨_, rfl⟩⟩
      · rename_i hne
        rw [hv] at hne
        exact absurd rfl hne
    · simp at hv
theorem encSlots_total {S : Schema} (hS : S.wf = true) : (fs : List (Nat × Slot)) → (d : Nat) →
    acceptedSlots S d fs = true →
    (∃ b, encSlots S d fs = some b) ∧ ∃ l, lenSlots S d fs = some l
  | [], d, _ => ⟨⟨_, rfl⟩, ⟨_, rfl⟩⟩
  | (n, .taken) :: r, d, ha => by
    simp only [acceptedSlots] at ha
    simp only [encSlots, lenSlots]
    exact encSlots_total hS r d ha
  | (n, .unknown u) :: r, d, ha => by
    simp only [acceptedSlots, Bool.and_eq_true] at ha
    obtain ⟨⟨b', hb'⟩, l', hl'⟩ := encSlots_total hS r d ha.2
    simp only [encSlots, lenSlots, hb', hl']
    exact ⟨⟨_, rfl⟩, ⟨_, rfl⟩⟩
  | (n, .val v) :: r, d, ha => by
    simp only [acceptedSlots, Bool.and_eq_true] at ha
    obtain ⟨⟨b', hb'⟩, l', hl'⟩ := encSlots_total hS r d ha.2
    have part : ∀ (o : Option FieldDesc), (∀ f, o = some f → FieldWf S f ∧ validFor S f v = some true) →
        (∃ b, ifPresent S o v [] (fun f => encVal S f v) = some b) ∧
        ∃ l, ifPresent S o v 0 (fun f => lenVal S f v) = some l := by
      intro o ho
      cases o with
      | none => exact ⟨⟨_, rfl⟩, ⟨_, rfl⟩⟩
      | some f =>
        obtain ⟨hf, hv⟩ := ho f rfl
        obtain ⟨h, hh⟩ := hasVal_isSome hf v
        simp only [ifPresent, hh]
        cases h
        · exact ⟨⟨_, rfl⟩, ⟨_, rfl⟩⟩
        · exact encVal_total hS v f hf hv ha.1.2
    obtain ⟨⟨b1, hb1⟩, l1, hl1⟩ := part (S.field? d n) (fun f hf => by
      have := ha.1.1.1
      rw [hf] at this
      exact ⟨(Schema.wf_field hS hf).1, by simpa using this⟩)
    obtain ⟨⟨b2, hb2⟩, l2, hl2⟩ := part (S.ext? d n) (fun f hf => by
      have := ha.1.1.2
      rw [hf] at this
      exact ⟨(Schema.wf_ext hS hf).1, by simpa using this⟩)
    simp only [encSlots, lenSlots, hb1, hb2, hl1, hl2, hb', hl']
    exact ⟨⟨_, rfl⟩, ⟨_, rfl⟩⟩
end

/-- Encoding an accepted message does not panic. -/
theorem encMsg_total {S : Schema} (hS : S.wf = true) (m : DynMsg) (ha : accepted S m = true) :
    (∃ b, encMsg S m = some b) ∧ ∃ l, lenMsg S m = some l := by
  obtain ⟨⟨⟨x, y⟩, h⟩, l, hl⟩ := encSlots_total hS m.fields m.desc ha
  refine ⟨⟨x ++ y, ?_⟩, l, hl⟩
  simp [encMsg, h]

end Verif.Dyn
