import Verif.Dyn.Same
import Verif.Dyn.Len
/-!
The canonical form of a message is encoded like the message.
-/
set_option autoImplicit false
namespace Verif.Dyn
open Verif.Wire

theorem unless_msg {α : Type} {S : Schema} {f : FieldDesc} (hf : FieldWf S f) {d e : Nat}
    (hk : f.kind = .message d) {fs : List (Nat × Slot)} {z : α} {k : Option α} :
    unlessDefault S f (.msg e fs) z k = k := by
  unfold unlessDefault
  split
  · rfl
  · next hp =>
    have hc : f.card = .repeated := by
      by_cases hc : f.card = .repeated
      · exact hc
      · exact absurd (hf.msg hc (by rw [hk]; rfl)) hp
    have : isDefault S f (.msg e fs) = some false := by
      unfold isDefault fieldDefault
      cases hm : isMap S f with
      | true => simp [isList, hm, Value.beq]
      | false => simp [isList, hm, hc, Value.beq]
    rw [this]

theorem unless_list {α : Type} {S : Schema} {f : FieldDesc} (hl : isList S f = true) {vs ws : List Value}
    (h : ws.length = vs.length) {z : α} {k : Option α} :
    unlessDefault S f (.list ws) z k = unlessDefault S f (.list vs) z k := by
  unfold unlessDefault
  have : isDefault S f (.list ws) = isDefault S f (.list vs) := by
    cases vs <;> cases ws <;> simp_all [isDefault, fieldDefault, Value.beq, beqVals]
  rw [this]

theorem unless_map {α : Type} {S : Schema} {f : FieldDesc} (hl : isMap S f = true) {vs ws : List (MapKey × Value)}
    (h : ws.length = vs.length) {z : α} {k : Option α} :
    unlessDefault S f (.map ws) z k = unlessDefault S f (.map vs) z k := by
  unfold unlessDefault
  have hl' : isList S f = false := by unfold isList; rw [hl]; simp
  have : isDefault S f (.map ws) = isDefault S f (.map vs) := by
    cases vs <;> cases ws <;> simp_all [isDefault, fieldDefault, Value.beq, beqMap]
  rw [this]

/-- A value that is equal to something is equal to itself, if it is a scalar. -/
theorem beq_self_of_beq {v w : Value} (hw : ∀ d fs, w ≠ .msg d fs) (hl : ∀ vs, w ≠ .list vs)
    (hm : ∀ vs, w ≠ .map vs) (h : v.beq w = true) : w.beq w = true := by
  cases w <;> cases v <;> simp only [Value.beq, beq_self_eq_true, Bool.false_eq_true] at h ⊢
  · simp only [f32Eq, Bool.and_eq_true] at h ⊢; simp_all
  · simp only [f64Eq, Bool.and_eq_true] at h ⊢; simp_all
  · exact absurd rfl (hw _ _)
  · exact absurd rfl (hl _)
  · exact absurd rfl (hm _)

theorem entry_default {S : Schema} {vd : FieldDesc} (hf : FieldWf S vd) (hcard : vd.card ≠ .repeated)
    {v w : Value} (hh : ¬ hasVal S vd v = some true) (hw : fieldDefault S vd = some w) :
    unlessDefault S vd v ([] : Bytes) none = some [] ∧ unlessDefault S vd v (0 : Nat) none = some 0 ∧
    encVal S vd w = some [] ∧ encVal S vd v = some [] ∧ lenVal S vd w = some 0 ∧ lenVal S vd v = some 0 := by
  have hp : vd.presence = false := by
    cases hp : vd.presence with
    | false => rfl
    | true => exact absurd (by unfold hasVal; rw [if_pos hp]) hh
  have hb := beq_default hh hw
  have hm : isMap S vd = false := by unfold isMap; simp [hcard]
  have hl : isList S vd = false := by unfold isList; simp [hcard]
  have hkind : ∀ i, vd.kind ≠ .message i := by
    intro i hi
    have := hf.msg hcard (by rw [hi]; rfl)
    rw [hp] at this; cases this
  have hwk : scalarOk vd.kind w = true := by
    unfold fieldDefault at hw
    rw [hl, hm] at hw
    simp only [Bool.false_eq_true, if_false] at hw
    split at hw
    · next x hx => cases hw; exact hf.dflt _ hx
    · cases hk : vd.kind <;> rw [hk] at hw <;> simp only [kindDefault, Option.some.injEq, Option.map_eq_some_iff] at hw
      all_goals first
        | (subst hw; rfl)
        | (obtain ⟨_, _, rfl⟩ := hw; rfl)
        | exact absurd hk (hkind _)
  have hself : w.beq w = true := by
    refine beq_self_of_beq ?_ ?_ ?_ hb <;> intros <;> intro e <;> subst e <;>
      cases hk : vd.kind <;> rw [hk] at hwk <;> simp [scalarOk, Value.isValid] at hwk
  have hv : isDefault S vd v = some true := by unfold isDefault; rw [hw]; simp [hb]
  have hw' : isDefault S vd w = some true := by unfold isDefault; rw [hw]; simp [hself]
  have u1 : ∀ {α : Type} (z : α) k, unlessDefault S vd v z k = some z := by
    intro α z k; unfold unlessDefault; simp [hp, hv]
  have u2 : ∀ {α : Type} (z : α) k, unlessDefault S vd w z k = some z := by
    intro α z k; unfold unlessDefault; simp [hp, hw']
  refine ⟨u1 _ _, u1 _ _, ?_, ?_, ?_, ?_⟩
  · cases w <;> simp only [encVal, u2]
  · cases v <;> simp only [encVal, u1]
  · cases w <;> simp only [lenVal, u2]
  · cases v <;> simp only [lenVal, u1]

theorem hasVal_cases {S : Schema} (hS : S.wf = true) {f : FieldDesc} (hf : FieldWf S f) {v : Value} :
    hasVal S f v = some true ∨ hasVal S f v = some false := by
  obtain ⟨w, hw, -⟩ := fieldDefault_conf hS hf
  unfold hasVal isDefault
  rw [hw]
  split
  · exact .inl rfl
  · cases h : v.beq w <;> simp

mutual
theorem encVal_canon {S : Schema} (hS : S.wf = true) : (v : Value) → (f f' : FieldDesc) → FieldWf S f →
    (f' = f ∨ f' = f.elem) → confVal S f' v = true →
    encVal S f (canonVal S f' v) = encVal S f v ∧ lenVal S f (canonVal S f' v) = lenVal S f v
  | .msg d fs, f, f', hf, hff, hc => by
    obtain ⟨-, hk, hcm⟩ := confMsg_of_confVal hc
    have hk' : f.kind = .message d := by rcases hff with rfl | rfl <;> exact hk
    simp only [confMsg, Bool.and_eq_true] at hcm
    obtain ⟨e1, e2⟩ := encSlots_canon hS fs d hcm.2
    simp only [canonVal, encVal, lenVal, unless_msg hf hk', e1, e2, and_self]
  | .list vs, f, f', hf, hff, hc => by
    simp only [confVal, Bool.and_eq_true] at hc
    have hfe : f' = f := by
      rcases hff with h | h
      · exact h
      · subst h; simp [isList, FieldDesc.elem] at hc
    subst hfe
    obtain ⟨e1, e2⟩ := encVals_canon hS vs f' f'.elem hf (.inr rfl) hc.2
    simp only [canonVal, encVal, lenVal, unless_list hc.1 (canonVals_length (S := S) (f := f'.elem) vs), e1, e2]
    have hp : f'.packed = true → canonVals S f'.elem vs = vs := by
      intro hp
      have hpk := (hf.packed hp).2
      have hno : ∀ v, confVal S f'.elem v = true → canonVal S f'.elem v = v := by
        intro v hv
        cases v with
        | msg d fs =>
          have := (confMsg_of_confVal hv).2.1
          change f'.kind = _ at this
          rw [this] at hpk; cases hpk
        | list vs => simp [confVal, isList, FieldDesc.elem] at hv
        | map kvs => simp [confVal, isMap, FieldDesc.elem] at hv
        | _ => simp only [canonVal]
      have : ∀ ws : List Value, confVals S f'.elem ws = true → canonVals S f'.elem ws = ws := by
        intro ws
        induction ws with
        | nil => intro _; simp [canonVals]
        | cons w r ih =>
          intro h
          simp only [confVals, Bool.and_eq_true] at h
          simp only [canonVals, hno w h.1, ih h.2]
      exact this vs hc.2
    by_cases hp' : f'.packed = true
    · rw [hp hp']; exact ⟨rfl, rfl⟩
    · simp only [hp', Bool.false_eq_true, if_false, and_self]
  | .map kvs, f, f', hf, hff, hc => by
    simp only [confVal, Bool.and_eq_true] at hc
    have hfe : f' = f := by
      rcases hff with h | h
      · exact h
      · subst h; simp [isMap, FieldDesc.elem] at hc
    subst hfe
    have hi : ∃ i, f'.kind = .message i := by
      have hm := hc.1
      unfold isMap at hm
      cases hk : f'.kind <;> simp [hk] at hm ⊢
    obtain ⟨i, hk⟩ := hi
    · rw [hk] at hc
      simp only at hc
      have hc2 := hc.2
      cases hkv : S.mapKV i with
      | none => rw [hkv] at hc2; cases hc2
      | some q =>
        obtain ⟨kd, vd⟩ := q
        rw [hkv] at hc2
        simp only [Bool.and_eq_true] at hc2
        have hcard : vd.card ≠ .repeated := by
          have hm := hc.1
          unfold isMap at hm
          simp only [hk, Bool.and_eq_true] at hm
          unfold Schema.isMapEntry at hm
          split at hm
          · next md hmd =>
            have := (Schema.wf_msg hS hmd).entry hm.2
            unfold entryWf at this
            rw [hkv] at this
            simp only [Bool.and_eq_true, bne_iff_ne] at this
            exact this.2
          · exact absurd hm.2 (by simp)
        obtain ⟨e1, e2⟩ := encMap_canon hS kvs f'.number kd vd (wf_mapKV hS hkv) hcard hc2.2
        simp only [canonVal, encVal, lenVal, hk, hkv, unless_map hc.1 (canonMap_length (S := S) (f := vd) kvs), e1, e2, and_self]
  | .bool x, _, _, _, _, _ => by simp only [canonVal, and_self]
  | .i32 x, _, _, _, _, _ => by simp only [canonVal, and_self]
  | .i64 x, _, _, _, _, _ => by simp only [canonVal, and_self]
  | .u32 x, _, _, _, _, _ => by simp only [canonVal, and_self]
  | .u64 x, _, _, _, _, _ => by simp only [canonVal, and_self]
  | .f32 x, _, _, _, _, _ => by simp only [canonVal, and_self]
  | .f64 x, _, _, _, _, _ => by simp only [canonVal, and_self]
  | .str x, _, _, _, _, _ => by simp only [canonVal, and_self]
  | .bytes x, _, _, _, _, _ => by simp only [canonVal, and_self]
  | .enum x, _, _, _, _, _ => by simp only [canonVal, and_self]
theorem encVals_canon {S : Schema} (hS : S.wf = true) : (vs : List Value) → (f f' : FieldDesc) → FieldWf S f →
    (f' = f ∨ f' = f.elem) → confVals S f' vs = true →
    encVals S f (canonVals S f' vs) = encVals S f vs ∧ lenVals S f (canonVals S f' vs) = lenVals S f vs
  | [], _, _, _, _, _ => by simp only [canonVals, and_self]
  | v :: r, f, f', hf, hff, hc => by
    simp only [confVals, Bool.and_eq_true] at hc
    obtain ⟨a1, a2⟩ := encVal_canon hS v f f' hf hff hc.1
    obtain ⟨b1, b2⟩ := encVals_canon hS r f f' hf hff hc.2
    simp only [canonVals, encVals, lenVals, a1, a2, b1, b2, and_self]
theorem encMap_canon {S : Schema} (hS : S.wf = true) : (kvs : List (MapKey × Value)) → (n : Nat) →
    (kd vd : FieldDesc) → FieldWf S vd → vd.card ≠ .repeated → confMap S kd vd kvs = true →
    encMapEntries S n kd vd (canonMap S vd kvs) = encMapEntries S n kd vd kvs ∧
    lenMapEntries S n kd vd (canonMap S vd kvs) = lenMapEntries S n kd vd kvs
  | [], _, _, _, _, _, _ => by simp only [canonMap, and_self]
  | (k, v) :: r, n, kd, vd, hf, hcard, hc => by
    simp only [confMap, Bool.and_eq_true] at hc
    obtain ⟨a1, a2⟩ := encVal_canon hS v vd vd hf (.inl rfl) hc.1.2
    obtain ⟨b1, b2⟩ := encMap_canon hS r n kd vd hf hcard hc.2
    obtain ⟨w, hw, -⟩ := fieldDefault_conf hS hf
    simp only [canonMap, encMapEntries, lenMapEntries, b1, b2]
    by_cases hh : hasVal S vd v = some true
    · simp only [hh, if_true, a1, a2, and_self]
    · obtain ⟨-, -, c1, c2, c3, c4⟩ := entry_default hf hcard hh hw
      simp only [hh, if_false, hw, c1, c2, c3, c4, and_self]
theorem encSlots_canon {S : Schema} (hS : S.wf = true) : (fs : List (Nat × Slot)) → (d : Nat) →
    confSlots S d fs = true →
    encSlots S d (canonSlots S d fs) = encSlots S d fs ∧ lenSlots S d (canonSlots S d fs) = lenSlots S d fs
  | [], _, _ => by simp only [canonSlots, and_self]
  | (n, .taken) :: r, d, hc => by
    simp only [confSlots] at hc
    obtain ⟨b1, b2⟩ := encSlots_canon hS r d hc
    simp only [canonSlots, encSlots, lenSlots, b1, b2, and_self]
  | (n, .unknown u) :: r, d, hc => by
    simp only [confSlots, Bool.and_eq_true] at hc
    obtain ⟨b1, b2⟩ := encSlots_canon hS r d hc.2
    simp only [canonSlots, encSlots, lenSlots, b1, b2, and_self]
  | (n, .val v) :: r, d, hc => by
    simp only [confSlots, Bool.and_eq_true] at hc
    obtain ⟨b1, b2⟩ := encSlots_canon hS r d hc.2
    have hc1 := hc.1
    cases hf : S.field? d n with
    | some f =>
      rw [hf] at hc1
      have hwf := (Schema.wf_field hS hf).1
      have hx : S.ext? d n = none := by
        cases hx : S.ext? d n with
        | none => rfl
        | some g => rw [(Schema.wf_ext hS hx).2.2.1] at hf; cases hf
      obtain ⟨a1, a2⟩ := encVal_canon hS v f f hwf (.inl rfl) hc1
      rcases hasVal_cases hS hwf (v := v) with hh | hh
      · have hh' := hasVal_canon hwf hc1 hh
        simp only [canonSlots, hf, hh, if_true, encSlots, lenSlots, hx, ifPresent, hh', a1, a2, b1, b2, and_self]
      · simp only [canonSlots, hf, hh, Option.some.injEq, Bool.false_eq_true, if_false, encSlots, lenSlots, hx,
          ifPresent, b1, b2]
        constructor
        · cases encSlots S d r <;> rfl
        · cases lenSlots S d r <;> simp
    | none =>
      rw [hf] at hc1
      cases hx : S.ext? d n with
      | none => rw [hx] at hc1; cases hc1
      | some f =>
        rw [hx] at hc1
        have hwf := (Schema.wf_ext hS hx).1
        obtain ⟨a1, a2⟩ := encVal_canon hS v f f hwf (.inl rfl) hc1
        rcases hasVal_cases hS hwf (v := v) with hh | hh
        · have hh' := hasVal_canon hwf hc1 hh
          simp only [canonSlots, hf, hh, if_true, encSlots, lenSlots, hx, ifPresent, hh', a1, a2, b1, b2, and_self]
        · simp only [canonSlots, hf, hh, Option.some.injEq, Bool.false_eq_true, if_false, encSlots, lenSlots, hx,
            ifPresent, b1, b2]
          constructor
          · cases encSlots S d r <;> rfl
          · cases lenSlots S d r <;> simp
end

/-- Decoding what was encoded and encoding it again writes the same bytes. -/
theorem encMsg_canon {S : Schema} (hS : S.wf = true) {m : DynMsg} (hm : confMsg S m = true) :
    encMsg S (canonMsg S m) = encMsg S m := by
  simp only [confMsg, Bool.and_eq_true] at hm
  simp only [encMsg, canonMsg, (encSlots_canon hS m.fields m.desc hm.2).1]

end Verif.Dyn
