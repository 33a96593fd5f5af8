import Verif.Dyn.TypingLemmas
/-!
`encoded_len` is the number of bytes `encode` writes.
-/
set_option autoImplicit false
namespace Verif.Dyn
open Verif.Wire

theorem unlessDefault_cases {α : Type} {S : Schema} {f : FieldDesc} {v : Value} {z : α}
    {k : Option α} {b : α} (h : unlessDefault S f v z k = some b) :
    (hasVal S f v = some true ∧ k = some b) ∨ (hasVal S f v = some false ∧ b = z) := by
  unfold unlessDefault at h
  unfold hasVal
  split at h
  · rename_i hp; rw [if_pos hp]; exact .inl ⟨rfl, h⟩
  · rename_i hp
    rw [if_neg hp]
    split at h
    · cases h
    · rename_i hd; rw [hd]; cases h; exact .inr ⟨rfl, rfl⟩
    · rename_i hd; rw [hd]; exact .inl ⟨rfl, h⟩

theorem packedLenAll_eq {k : Kind} (hk : k.packable = true) : ∀ (vs : List Value) (b : Bytes),
    packedEncAll k vs = some b → b.length < 2 ^ 64 → packedLenAll k vs = some b.length := by
  intro vs
  induction vs with
  | nil => intro b h _; simp [packedEncAll] at h; subst h; rfl
  | cons v r ih =>
    intro b h hl
    unfold packedEncAll at h
    split at h
    · rename_i x y h1 h2
      cases h
      rw [List.length_append] at hl
      unfold packedLenAll
      rw [packedEnc_eq hk] at h1
      rw [packedLen_eq hk, scalarLen_eq h1 (by omega), ih y h2 (by omega), List.length_append]
    · cases h

theorem encKey_len {f : FieldDesc} (hn : f.number < 2 ^ 29) {k : MapKey} {b : Bytes}
    (h : encKey f k = some b) (hl : b.length < 2 ^ 64) : lenKey f k = some b.length := by
  have body : ∀ b : Bytes, b.length < 2 ^ 64 →
      (scalarEnc f.kind k.toValue).map (encodeKey f.number f.kind.wireType ++ ·) = some b →
      (scalarLen f.kind k.toValue).map (keyLen f.number + ·) = some b.length := by
    intro b hl h
    obtain ⟨p, hp, rfl⟩ := Option.map_eq_some_iff.1 h
    rw [List.length_append] at hl
    rw [scalarLen_eq hp (by omega), Option.map_some, List.length_append,
      keyLen_eq hn f.kind.wireType]
  unfold encKey at h
  unfold lenKey
  simp only at h ⊢
  split at h
  · rename_i hp; rw [if_pos hp]; exact body b hl h
  · rename_i hp
    rw [if_neg hp]
    split at h
    · cases h
    · split at h
      · rename_i hk; cases h; rw [if_pos hk]; rfl
      · rename_i hk; rw [if_neg hk]; exact body b hl h

theorem lenScalar_eq {S : Schema} {f : FieldDesc} {v : Value} {b : Bytes}
    (h : unlessDefault S f v []
      ((scalarEnc f.kind v).map (encodeKey f.number f.kind.wireType ++ ·)) = some b)
    (hn : f.number < 2 ^ 29) (hl : b.length < 2 ^ 64) :
    unlessDefault S f v 0 ((scalarLen f.kind v).map (keyLen f.number + ·)) = some b.length := by
  rcases unlessDefault_cases h with ⟨hv, h⟩ | ⟨hv, rfl⟩
  · rw [unlessDefault_present hv]
    obtain ⟨p, hp, rfl⟩ := Option.map_eq_some_iff.1 h
    rw [List.length_append] at hl
    rw [scalarLen_eq hp (by omega), Option.map_some, List.length_append,
      keyLen_eq hn f.kind.wireType]
  · rw [unlessDefault_absent hv]; rfl

mutual
theorem lenVal_eq {S : Schema} (hS : S.wf = true) : (v : Value) → (f : FieldDesc) → (b : Bytes) →
    f.number < 2 ^ 29 → acceptedIn S v = true → encVal S f v = some b → b.length < 2 ^ 64 →
    lenVal S f v = some b.length
  | .msg d fs, f, b, hn, ha, h, hl => by
    simp only [acceptedIn, Bool.and_eq_true] at ha
    simp only [encVal] at h
    simp only [lenVal]
    rcases unlessDefault_cases h with ⟨hv, h⟩ | ⟨hv, rfl⟩
    · rw [unlessDefault_present hv]
      split at h
      · rename_i i hi
        split at h
        · cases h
        · rename_i x y hs
          split at h
          · rename_i hg
            cases h
            have hl' := hl
            simp only [List.length_append] at hl'
            rw [lenSlots_eq hS fs d x y ha.2 hs (by rw [List.length_append]; omega)]
            simp only [hg, if_true, List.length_append, ← keyLen_eq hn .startGroup,
              ← keyLen_eq hn .endGroup, Option.some.injEq]
            omega
          · rename_i hg
            split at h
            · cases h
            · rename_i l hlen
              cases h
              have hl' := hl
              simp only [List.length_append] at hl'
              have := lenSlots_eq hS fs d x y ha.2 hs (by rw [List.length_append]; omega)
              rw [this] at hlen
              cases hlen
              simp only [hg, List.length_append, ← keyLen_eq hn .lengthDelimited]
              rw [encodedLenVarint_eq (by omega)]
              simp; omega
      · cases h
    · rw [unlessDefault_absent hv]; rfl
  | .list vs, f, b, hn, ha, h, hl => by
    simp only [acceptedIn] at ha
    simp only [encVal] at h
    simp only [lenVal]
    rcases unlessDefault_cases h with ⟨hv, h⟩ | ⟨hv, rfl⟩
    · rw [unlessDefault_present hv]
      split at h
      · rename_i hL
        rw [if_pos hL]
        split at h
        · rename_i hp
          rw [if_pos hp]
          unfold encPackedList at h
          unfold lenPackedList
          split at h
          · rename_i hk
            rw [if_pos hk]
            split at h
            · rename_i l c h1 h2
              cases h
              have hl' := hl
              simp only [List.length_append] at hl'
              rw [packedLenAll_eq hk vs c h2 (by omega)] at h1 ⊢
              cases h1
              simp only [Option.map_some, List.length_append, ← keyLen_eq hn .lengthDelimited]
              rw [encodedLenVarint_eq (by omega)]
              simp; omega
            · cases h
          · cases h
        · rename_i hp
          rw [if_neg hp]
          exact lenVals_eq hS vs f b hn ha h hl
      · cases h
    · rw [unlessDefault_absent hv]; rfl
  | .map kvs, f, b, hn, ha, h, hl => by
    simp only [acceptedIn] at ha
    simp only [encVal] at h
    simp only [lenVal]
    rcases unlessDefault_cases h with ⟨hv, h⟩ | ⟨hv, rfl⟩
    · rw [unlessDefault_present hv]
      split at h
      · rename_i i hi
        split at h
        · rename_i hm
          rw [if_pos hm]
          split at h
          · cases h
          · rename_i kd vd hkv
            have h1 := Schema.wf_field hS (mapKV_some hkv).1
            have h2 := Schema.wf_field hS (mapKV_some hkv).2
            exact lenMapEntries_eq hS kvs f.number kd vd b hn h1.1.num.2 h2.1.num.2 ha h hl
        · cases h
      · cases h
    · rw [unlessDefault_absent hv]; rfl
  | .bool x, f, b, hn, _, h, hl => by
    simp only [encVal] at h; simp only [lenVal]; exact lenScalar_eq h hn hl
  | .i32 x, f, b, hn, _, h, hl => by
    simp only [encVal] at h; simp only [lenVal]; exact lenScalar_eq h hn hl
  | .i64 x, f, b, hn, _, h, hl => by
    simp only [encVal] at h; simp only [lenVal]; exact lenScalar_eq h hn hl
  | .u32 x, f, b, hn, _, h, hl => by
    simp only [encVal] at h; simp only [lenVal]; exact lenScalar_eq h hn hl
  | .u64 x, f, b, hn, _, h, hl => by
    simp only [encVal] at h; simp only [lenVal]; exact lenScalar_eq h hn hl
  | .f32 x, f, b, hn, _, h, hl => by
    simp only [encVal] at h; simp only [lenVal]; exact lenScalar_eq h hn hl
  | .f64 x, f, b, hn, _, h, hl => by
    simp only [encVal] at h; simp only [lenVal]; exact lenScalar_eq h hn hl
  | .str x, f, b, hn, _, h, hl => by
    simp only [encVal] at h; simp only [lenVal]; exact lenScalar_eq h hn hl
  | .bytes x, f, b, hn, _, h, hl => by
    simp only [encVal] at h; simp only [lenVal]; exact lenScalar_eq h hn hl
  | .enum x, f, b, hn, _, h, hl => by
    simp only [encVal] at h; simp only [lenVal]; exact lenScalar_eq h hn hl
theorem lenVals_eq {S : Schema} (hS : S.wf = true) : (vs : List Value) → (f : FieldDesc) →
    (b : Bytes) → f.number < 2 ^ 29 → acceptedVals S vs = true → encVals S f vs = some b →
    b.length < 2 ^ 64 → lenVals S f vs = some b.length
  | [], f, b, _, _, h, _ => by simp [encVals] at h; subst h; rfl
  | v :: r, f, b, hn, ha, h, hl => by
    simp only [acceptedVals, Bool.and_eq_true] at ha
    simp only [encVals] at h
    split at h
    · rename_i x y h1 h2
      cases h
      rw [List.length_append] at hl
      simp only [lenVals]
      rw [lenVal_eq hS v f x hn ha.1 h1 (by omega), lenVals_eq hS r f y hn ha.2 h2 (by omega),
        List.length_append]
    · cases h
theorem lenMapEntries_eq {S : Schema} (hS : S.wf = true) : (kvs : List (MapKey × Value)) →
    (n : Nat) → (kd vd : FieldDesc) → (b : Bytes) → n < 2 ^ 29 → kd.number < 2 ^ 29 →
    vd.number < 2 ^ 29 → acceptedMap S kvs = true → encMapEntries S n kd vd kvs = some b →
    b.length < 2 ^ 64 → lenMapEntries S n kd vd kvs = some b.length
  | [], n, kd, vd, b, _, _, _, _, h, _ => by simp [encMapEntries] at h; subst h; rfl
  | (k, v) :: r, n, kd, vd, b, hn, hk, hv, ha, h, hl => by
    simp only [acceptedMap, Bool.and_eq_true] at ha
    simp only [encMapEntries] at h
    split at h
    · rename_i la lb x y z h1 h2 h3 h4 h5
      cases h
      have hl' := hl
      simp only [List.length_append] at hl'
      simp only [lenMapEntries]
      rw [encKey_len hk h3 (by omega)] at h1 ⊢
      rw [lenVal_eq hS v vd y hv ha.1 h4 (by omega)] at h2 ⊢
      cases h1; cases h2
      rw [lenMapEntries_eq hS r n kd vd z hn hk hv ha.2 h5 (by omega)]
      simp only [List.length_append, ← keyLen_eq hn .lengthDelimited, Option.some.injEq]
      rw [encodedLenVarint_eq (by omega)]
      omega
    · cases h
theorem lenSlots_eq {S : Schema} (hS : S.wf = true) : (fs : List (Nat × Slot)) → (d : Nat) →
    (x y : Bytes) → acceptedSlots S d fs = true → encSlots S d fs = some (x, y) →
    (x ++ y).length < 2 ^ 64 → lenSlots S d fs = some (x ++ y).length
  | [], d, x, y, _, h, _ => by simp [encSlots] at h; obtain ⟨rfl, rfl⟩ := h; rfl
  | (n, .taken) :: r, d, x, y, ha, h, hl => by
    simp only [acceptedSlots] at ha
    simp only [encSlots] at h
    simp only [lenSlots]
    exact lenSlots_eq hS r d x y ha h hl
  | (n, .unknown u) :: r, d, x, y, ha, h, hl => by
    simp only [acceptedSlots, Bool.and_eq_true] at ha
    simp only [encSlots] at h
    simp only [lenSlots]
    split at h
    · cases h
    · rename_i a c hs
      cases h
      rw [lenSlots_eq hS r d x c ha.2 hs (by simp only [List.length_append] at hl ⊢; omega)]
      rw [lenUSet_eq u ((USet.wf_iff u).1 ha.1)]
      simp only [Option.map_some, List.length_append, Option.some.injEq]
      omega
  | (n, .val v) :: r, d, x, y, ha, h, hl => by
    simp only [acceptedSlots, Bool.and_eq_true] at ha
    simp only [encSlots] at h
    simp only [lenSlots]
    have part : ∀ (o : Option FieldDesc), (∀ f, o = some f → f.number < 2 ^ 29) → ∀ c : Bytes,
        ifPresent S o v [] (fun f => encVal S f v) = some c → c.length < 2 ^ 64 →
        ifPresent S o v 0 (fun f => lenVal S f v) = some c.length := by
      intro o ho c hc hcl
      cases o with
      | none => cases hc; rfl
      | some f =>
        simp only [ifPresent] at hc ⊢
        split at hc
        · cases hc
        · cases hc; rfl
        · exact lenVal_eq hS v f c (ho f rfl) ha.1.2 hc hcl
    split at h
    · rename_i p q a c h1 h2 h3
      cases h
      simp only [List.length_append] at hl
      rw [part _ (fun f hf => (Schema.wf_field hS hf).1.num.2) p h1 (by omega),
        part _ (fun f hf => (Schema.wf_ext hS hf).1.num.2) q h2 (by omega),
        lenSlots_eq hS r d a c ha.2 h3 (by rw [List.length_append]; omega)]
      simp only [List.length_append, Option.some.injEq]
      omega
    · cases h
end

end Verif.Dyn
