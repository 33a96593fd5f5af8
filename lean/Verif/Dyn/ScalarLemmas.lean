import Verif.Dyn.Typing
set_option autoImplicit false
namespace Verif.Dyn
open Verif.Wire

/-! ### Zig-zag and sign extension -/

private theorem neg_and_one {w : Nat} (u : BitVec w) (i : Nat) :
    (-(u &&& 1)).getLsbD i = (decide (i < w) && u.getLsbD 0) := by
  have h : u &&& 1 = if u.getLsbD 0 then 1 else 0 := by
    apply BitVec.eq_of_getLsbD_eq
    intro j hj
    by_cases h0 : j = 0
    · subst h0; cases hu : u.getLsbD 0
      · simp only [BitVec.getLsbD_and, hu]; simp
      · simp only [BitVec.getLsbD_and, hu]; simp
    · cases hu : u.getLsbD 0 <;> simp [h0]
  rw [h]
  cases hu : u.getLsbD 0
  · simp
  · simp [BitVec.neg_one_eq_allOnes]

private theorem zz (w : Nat) (hw : 1 < w) (v : BitVec w) :
    ((((v <<< 1) ^^^ (v.sshiftRight (w - 1))) >>> 1) ^^^
      (-(((v <<< 1) ^^^ (v.sshiftRight (w - 1))) &&& 1))) = v := by
  apply BitVec.eq_of_getLsbD_eq
  intro i hi
  rw [BitVec.getLsbD_xor, neg_and_one]
  simp only [BitVec.getLsbD_ushiftRight, BitVec.getLsbD_xor, BitVec.getLsbD_shiftLeft,
    BitVec.getLsbD_sshiftRight]
  have hm : v.getLsbD (w - 1) = v.msb := by simp [BitVec.msb_eq_getLsbD_last]
  by_cases h : 1 + i < w
  · have h2 : ¬ (w - 1 + (1 + i) < w) := by omega
    have h5 : ¬ w ≤ 1 + i := by omega
    have h6 : ¬ w ≤ 0 := by omega
    simp only [h, h2, h5, h6, hi, if_false, Nat.add_zero, hm]
    simp
  · have hi' : i = w - 1 := by omega
    have h5 : w ≤ 1 + i := by omega
    have h6 : ¬ w ≤ 0 := by omega
    simp only [h, h5, h6, hi, Nat.add_zero, hm]
    simp [hi', hm]

theorem unzigzag32_zigzag32 (v : BitVec 32) : unzigzag32 (zigzag32 v) = v := zz 32 (by omega) v
theorem unzigzag64_zigzag64 (v : BitVec 64) : unzigzag64 (zigzag64 v) = v := zz 64 (by omega) v

theorem signExtend_trunc (v : BitVec 32) : BitVec.ofNat 32 (v.signExtend 64).toNat = v := by
  rw [BitVec.ofNat_toNat]
  apply BitVec.eq_of_getLsbD_eq
  intro i hi
  rw [BitVec.getLsbD_setWidth, BitVec.getLsbD_signExtend]
  simp [hi, show i < 64 by omega]

/-! ### Scalars -/

theorem ofNat_toNat32 (v : BitVec 32) : BitVec.ofNat 32 v.toNat = v := by simp
theorem ofNat_toNat64 (v : BitVec 64) : BitVec.ofNat 64 v.toNat = v := by simp

/-- A scalar written by the encoder is read back, whatever follows it. -/
theorem scalarDec_enc {k : Kind} {v : Value} {p : Bytes} (h : scalarEnc k v = some p)
    (hu : ∀ b, v = .str b → utf8Valid b = true) (hl : p.length < 2 ^ 64) (t : Bytes) :
    scalarDec k k.wireType (p ++ t) = .ok (v, t) := by
  have l32 : ∀ x : BitVec 32, x.toNat < 2 ^ 64 := fun x => by have := x.isLt; omega
  have l32' : ∀ x : BitVec 32, x.toNat < 256 ^ 4 := fun x => by have := x.isLt; omega
  have l64 : ∀ x : BitVec 64, x.toNat < 2 ^ 64 := fun x => x.isLt
  have l64' : ∀ x : BitVec 64, x.toNat < 256 ^ 8 := fun x => by have := x.isLt; omega
  cases k <;> cases v <;> simp only [scalarEnc, Option.some.injEq, reduceCtorEq] at h <;> subst h <;>
    simp only [scalarDec, Kind.wireType, ne_eq, not_true_eq_false, if_false]
  case bool.bool b =>
    rw [decode_encode_varint (by cases b <;> simp)]
    cases b <;> rfl
  case string.str b =>
    rw [List.append_assoc, getLenDelim_encode (by rw [List.length_append] at hl; omega)]
    simp [hu b rfl]
  case bytes.bytes b =>
    rw [List.append_assoc, getLenDelim_encode (by rw [List.length_append] at hl; omega)]
  all_goals first
    | (rw [decode_encode_varint (l64 _)]; simp only [signExtend_trunc, ofNat_toNat64, unzigzag64_zigzag64])
    | (rw [decode_encode_varint (l32 _)]; simp only [ofNat_toNat32, unzigzag32_zigzag32])
    | (rw [getLE_putLE (l32' _)]; simp only [ofNat_toNat32])
    | (rw [getLE_putLE (l64' _)]; simp only [ofNat_toNat64])

theorem scalarLen_eq {k : Kind} {v : Value} {p : Bytes} (h : scalarEnc k v = some p)
    (hl : p.length < 2 ^ 64) : scalarLen k v = some p.length := by
  have l32 : ∀ x : BitVec 32, x.toNat < 2 ^ 64 := fun x => by have := x.isLt; omega
  have l64 : ∀ x : BitVec 64, x.toNat < 2 ^ 64 := fun x => x.isLt
  cases k <;> cases v <;> simp only [scalarEnc, Option.some.injEq, reduceCtorEq] at h <;> subst h <;>
    simp only [scalarLen, Option.some.injEq]
  case bool.bool b => cases b <;> rfl
  case string.str b =>
    rw [List.length_append] at hl
    rw [List.length_append, encodedLenVarint_eq (by omega)]
  case bytes.bytes b =>
    rw [List.length_append] at hl
    rw [List.length_append, encodedLenVarint_eq (by omega)]
  all_goals first
    | rw [encodedLenVarint_eq (l64 _)]
    | rw [encodedLenVarint_eq (l32 _)]
    | rw [putLE_length]

theorem packedEnc_eq {k : Kind} (hk : k.packable = true) (v : Value) : packedEnc k v = scalarEnc k v := by
  cases k <;> cases v <;> first | rfl | cases hk

theorem packedLen_eq {k : Kind} (hk : k.packable = true) (v : Value) : packedLen k v = scalarLen k v := by
  cases k <;> cases v <;> first | rfl | cases hk | skip
  case bool.bool b => cases b <;> rfl

theorem scalarEnc_ne_nil {k : Kind} {v : Value} {p : Bytes} (h : scalarEnc k v = some p) : p ≠ [] := by
  cases k <;> cases v <;> simp only [scalarEnc, Option.some.injEq, reduceCtorEq] at h <;> subst h <;>
    first
      | exact encodeVarint_ne_nil _
      | (intro h; have := congrArg List.length h; simp [putLE_length] at this; done)
      | simp [encodeVarint_ne_nil]

/-- The encoder of a non-message kind accepts exactly the values of that kind. -/
theorem scalarEnc_isSome {k : Kind} (hk : k.isMessage = false) (v : Value) :
    (scalarEnc k v).isSome = v.isValid k := by
  cases k <;> cases v <;> first | rfl | cases hk

theorem scalarLen_isSome {k : Kind} (hk : k.isMessage = false) (v : Value) :
    (scalarLen k v).isSome = v.isValid k := by
  cases k <;> cases v <;> first | rfl | cases hk

theorem Kind.wireType_ne_end (k : Kind) : k.wireType ≠ .endGroup := by
  cases k <;> simp [Kind.wireType]

theorem scalarOk_isValid {k : Kind} {v : Value} (h : scalarOk k v = true) : v.isValid k = true := by
  cases k <;> cases v <;> simp_all [scalarOk, Value.isValid]

theorem scalarOk_utf8 {k : Kind} {b : Bytes} (h : scalarOk k (.str b) = true) : utf8Valid b = true := by
  cases k <;> simp_all [scalarOk]

theorem scalarOk_notMessage {k : Kind} {v : Value} (h : scalarOk k v = true) : k.isMessage = false := by
  cases k <;> simp_all [scalarOk, Kind.isMessage]

/-! #### The scalar decoder -/

theorem good_scalarDec (k : Kind) (w : WireType) : Good (scalarDec k w) := by
  intro b v r h
  cases k <;> simp only [scalarDec, ne_eq, ite_not] at h <;> first
    | (cases h; done)
    | (split at h; rotate_left; cases h)
  all_goals
    rename_i hw
    split at h
    · cases h
    · rename_i n r' hd
      first
      | (cases h
         have hg := good_decodeVarint _ _ _ hd
         obtain ⟨c, hc, ht⟩ := hg
         exact ⟨c, hc, fun t => by simp only [scalarDec, hw, ne_eq, not_true_eq_false, if_false, ht]⟩)
      | (cases h
         have hg := good_getLE _ _ _ _ hd
         obtain ⟨c, hc, ht⟩ := hg
         exact ⟨c, hc, fun t => by simp only [scalarDec, hw, ne_eq, not_true_eq_false, if_false, ht]⟩)
      | (cases h
         have hg := good_getLenDelim _ _ _ hd
         obtain ⟨c, hc, ht⟩ := hg
         exact ⟨c, hc, fun t => by simp only [scalarDec, hw, ne_eq, not_true_eq_false, if_false, ht]⟩)
      | (split at h
         · rename_i hu
           cases h
           have hg := good_getLenDelim _ _ _ hd
           obtain ⟨c, hc, ht⟩ := hg
           exact ⟨c, hc, fun t => by
             simp only [scalarDec, hw, ne_eq, not_true_eq_false, if_false, ht, hu, if_true]⟩
         · cases h)

theorem strict_scalarDec (k : Kind) (w : WireType) : Strict (scalarDec k w) := by
  intro b v r h
  cases k <;> simp only [scalarDec, ne_eq, ite_not] at h <;> first
    | (cases h; done)
    | (split at h; rotate_left; cases h)
  all_goals
    split at h
    · cases h
    · rename_i n r' hd
      first
      | (cases h; exact strict_decodeVarint _ _ _ hd)
      | (cases h; exact strict_getLE (by omega) _ _ _ hd)
      | (cases h; exact strict_getLenDelim _ _ _ hd)
      | (split at h
         · cases h; exact strict_getLenDelim _ _ _ hd
         · cases h)

theorem noFuel_scalarDec (k : Kind) (w : WireType) : NoFuel (scalarDec k w) := by
  intro b h
  cases k <;> simp only [scalarDec, ne_eq, ite_not] at h <;> first
    | (cases h; done)
    | (split at h; rotate_left; cases h)
  all_goals
    split at h
    · rename_i hd
      cases h
      first
      | exact noFuel_decodeVarint _ hd
      | exact noFuel_getLE _ _ hd
      | exact noFuel_getLenDelim _ hd
    · first
      | (cases h; done)
      | (split at h <;> cases h)

theorem scalarDec_safe {k : Kind} (hk : k.isMessage = false) (w : WireType) (b : Bytes) :
    Safe (scalarDec k w b) := by
  intro e h
  cases k <;> simp only [scalarDec, ne_eq, ite_not] at h <;> first
    | (cases hk; done)
    | (split at h; rotate_left; · cases h; rfl)
  all_goals
    split at h
    · rename_i hd
      cases h
      first
      | exact decodeVarint_safe _ _ hd
      | exact getLE_safe _ _ _ hd
      | exact getLenDelim_safe _ _ hd
    · first
      | (cases h; done)
      | (split at h <;> cases h; rfl)

theorem scalarDec_ok {k : Kind} {w : WireType} {b : Bytes} {v : Value} {r : Bytes}
    (h : scalarDec k w b = .ok (v, r)) : scalarOk k v = true := by
  cases k <;> simp only [scalarDec, ne_eq, ite_not] at h <;> first
    | (cases h; done)
    | (split at h; rotate_left; cases h)
  all_goals
    split at h
    · cases h
    · first
      | (cases h; rfl)
      | (split at h
         · rename_i hu; cases h; simpa [scalarOk, Value.isValid] using hu
         · cases h)

/-- The only accepted wire type is that of the kind. -/
theorem scalarDec_wireType {k : Kind} {w : WireType} {b : Bytes} {v : Value} {r : Bytes}
    (h : scalarDec k w b = .ok (v, r)) : w = k.wireType := by
  cases k <;> simp only [scalarDec, ne_eq, ite_not] at h <;> first
    | (cases h; done)
    | (split at h; (rename_i hw; exact hw); cases h)

/-! #### Map keys -/

theorem toMapKey_toValue (k : MapKey) : k.toValue.toMapKey = some k := by cases k <;> rfl

theorem toValue_toMapKey {v : Value} {k : MapKey} (h : v.toMapKey = some k) : k.toValue = v := by
  cases v <;> simp only [Value.toMapKey, Option.some.injEq, reduceCtorEq] at h <;> subst h <;> rfl

theorem mapKey_isValid (k : MapKey) (kd : Kind) : k.isValid kd = k.toValue.isValid kd := by
  cases k <;> cases kd <;> rfl

theorem keyOk_eq (k : MapKey) {kd : Kind} (hk : kd.isMessage = false) :
    keyOk kd k = scalarOk kd k.toValue := by
  cases k <;> cases kd <;> first | rfl | cases hk

/-- Kinds with a map key default are the legal key kinds. -/
theorem mapKeyDefault_kind {kd : Kind} {k : MapKey} (h : MapKey.default kd = some k) :
    kd.isMessage = false ∧ keyOk kd k = true ∧
      ∀ v, scalarOk kd v = true → ∃ k', v.toMapKey = some k' ∧ keyOk kd k' = true := by
  cases kd <;> simp only [MapKey.default, Option.some.injEq, reduceCtorEq] at h <;> subst h <;>
    refine ⟨rfl, by decide, ?_⟩ <;> intro v hv <;> cases v <;>
    first
      | (simp [scalarOk, Value.isValid] at hv; done)
      | exact ⟨_, rfl, rfl⟩
      | exact ⟨_, rfl, by simpa [keyOk, scalarOk, MapKey.isValid, Value.isValid] using hv⟩

end Verif.Dyn
