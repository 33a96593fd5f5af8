import Verif.Wire.UnknownLemmas
/-! Writing again what was read takes no more bytes. -/
set_option autoImplicit false
namespace Verif.Wire

theorem decodeVarintAux_bound : ∀ (buf : Bytes) (k acc v : Nat) (rest : Bytes), acc < 2 ^ (7 * k) →
    decodeVarintAux k acc buf = .ok (v, rest) → ∃ c, buf.length = rest.length + (c + 1) ∧ v < 2 ^ (7 * (k + c + 1)) := by
  intro buf
  induction buf with
  | nil => intro k acc v rest _ h; simp [decodeVarintAux] at h
  | cons b tl ih =>
    intro k acc v rest ha h
    have hp : 2 ^ (7 * (k + 1)) = 2 ^ (7 * k) * 128 := by rw [Nat.mul_add, Nat.pow_add]
    unfold decodeVarintAux at h
    by_cases h1 : b.toNat < 128
    · rw [if_pos h1] at h
      split at h
      · cases h
      · cases h
        refine ⟨0, by simp, ?_⟩
        have : b.toNat * 2 ^ (7 * k) ≤ 127 * 2 ^ (7 * k) := Nat.mul_le_mul_right _ (by omega)
        rw [Nat.add_zero, hp]; omega
    · rw [if_neg h1] at h
      split at h
      · cases h
      · have hb := b.toNat_lt
        have : (b.toNat - 128) * 2 ^ (7 * k) ≤ 127 * 2 ^ (7 * k) := Nat.mul_le_mul_right _ (by omega)
        obtain ⟨c, hc, hv⟩ := ih (k + 1) _ v rest (by rw [hp]; omega) h
        refine ⟨c + 1, by simp [hc]; omega, ?_⟩
        have e : k + (c + 1) + 1 = k + 1 + c + 1 := by omega
        rw [e]; exact hv

theorem encodeVarintAux_short : ∀ (k n j : Nat), n < 2 ^ (7 * (j + 1)) → (encodeVarintAux k n).length ≤ j + 1
  | 0, _, _, _ => by simp [encodeVarintAux]
  | k + 1, n, j, h => by
    unfold encodeVarintAux
    by_cases h1 : n < 128
    · rw [if_pos h1]; simp
    · rw [if_neg h1]
      cases j with
      | zero => simp at h; omega
      | succ j =>
        have hp : 2 ^ (7 * (j + 1 + 1)) = 2 ^ (7 * (j + 1)) * 128 := by rw [Nat.mul_add 7 (j + 1) 1, Nat.pow_add]
        have := encodeVarintAux_short k (n / 128) j (by rw [Nat.div_lt_iff_lt_mul (by omega)]; omega)
        simp only [List.length_cons]; omega

/-- No varint is shorter than the one written. -/
theorem decodeVarint_shorter {buf rest : Bytes} {v w : Nat} (h : decodeVarint buf = .ok (v, rest)) (hw : w ≤ v) :
    encodedLenVarint w + rest.length ≤ buf.length := by
  have h64 := decodeVarint_lt h
  obtain ⟨c, hc, hv⟩ := decodeVarintAux_bound buf 0 0 v rest (by simp) h
  rw [encodedLenVarint_eq (by omega)]
  have := encodeVarintAux_short 10 w c (by rw [Nat.zero_add] at hv; omega)
  unfold encodeVarint; omega

theorem decodeKey_shorter {buf rest : Bytes} {n : Nat} {w : WireType} (h : decodeKey buf = .ok (n, w, rest)) :
    keyLen n + rest.length ≤ buf.length := by
  unfold decodeKey at h
  split at h
  · cases h
  · rename_i key r he
    split at h
    · cases h
    · split at h
      · cases h
      · split at h
        · cases h
        · cases h
          exact decodeVarint_shorter he (by omega)

theorem getLE_len {k v : Nat} {buf r : Bytes} (h : getLE k buf = .ok (v, r)) : k + r.length = buf.length := by
  unfold getLE at h
  split at h
  · cases h
  · cases h; simp; omega

theorem getLenDelim_shorter {buf b r : Bytes} (h : getLenDelim buf = .ok (b, r)) :
    encodedLenVarint b.length + b.length + r.length ≤ buf.length := by
  unfold getLenDelim at h
  split at h
  · cases h
  · rename_i len rest he
    split at h
    · cases h
    · cases h
      have := decodeVarint_shorter (w := (rest.take len).length) he (by simp; omega)
      simp only [List.length_take, List.length_drop] at this ⊢
      omega

theorem lenUSet_snoc (n : Nat) (v : UVal) : ∀ us : USet, lenUSet (us ++ [(n, v)]) = lenUSet us + lenUVal n v
  | [] => by simp [lenUSet]
  | (k, x) :: r => by
    have := lenUSet_snoc n v r
    simp only [List.cons_append, lenUSet, this]; omega

/-- Field functions that store no more than they take. -/
def Thrifty (f : FieldFn USet) : Prop :=
  ∀ st n w b st' b', f st n w b = .ok (st', b') → lenUSet st' + b'.length ≤ lenUSet st + keyLen n + b.length

theorem groupLoop_thrifty {f : FieldFn USet} (hf : Thrifty f) {tag : Nat} : ∀ (k : Nat) (st : USet) (b : Bytes) (st' : USet) (b' : Bytes),
    groupLoop tag f k st b = .ok (st', b') → lenUSet st' + keyLen tag + b'.length ≤ lenUSet st + b.length
  | 0, _, _, _, _, h => by simp [groupLoop] at h
  | k + 1, st, b, st', b', h => by
    unfold groupLoop at h
    split at h
    · cases h
    · rename_i n w rest hk
      have hk := decodeKey_shorter hk
      split at h
      · split at h
        · cases h
        · rename_i hn
          cases h
          have : n = tag := by omega
          subst this; omega
      · split at h
        · cases h
        · rename_i st1 b1 he
          have h1 := hf _ _ _ _ _ _ he
          have h2 := groupLoop_thrifty hf k _ _ _ _ h
          omega

theorem loopTo_thrifty {f : FieldFn USet} (hf : Thrifty f) {lim : Nat} : ∀ (k : Nat) (st : USet) (b : Bytes) (st' : USet) (b' : Bytes),
    loopTo lim (keyThen f) k st b = .ok (st', b') → lenUSet st' + b'.length ≤ lenUSet st + b.length
  | 0, _, _, _, _, h => by simp [loopTo] at h
  | k + 1, st, b, st', b', h => by
    unfold loopTo at h
    split at h
    · cases h; omega
    · split at h
      · cases h
      · rename_i st1 b1 he
        have h2 := loopTo_thrifty hf k _ _ _ _ h
        unfold keyThen at he
        split at he
        · cases he
        · rename_i hk
          have hk := decodeKey_shorter hk
          have h1 := hf _ _ _ _ _ _ he
          omega

theorem decUValWith_thrifty {nested : Option (FieldFn USet)} (hn : ∀ f, nested = some f → Thrifty f) {n : Nat} {w : WireType}
    {b r : Bytes} {v : UVal} (h : decUValWith nested n w b = .ok (v, r)) :
    lenUVal n v + r.length ≤ keyLen n + b.length := by
  unfold decUValWith at h
  cases w with
  | varint =>
    dsimp only at h
    split at h
    · cases h
    · rename_i v r he
      cases h
      have h64 := decodeVarint_lt he
      have := decodeVarint_shorter (w := (BitVec.ofNat 64 v).toNat) he (by simp; omega)
      simp only [lenUVal]; omega
  | sixtyFourBit =>
    dsimp only at h
    split at h
    · cases h
    · rename_i he
      cases h
      have := getLE_len he
      simp only [lenUVal]; omega
  | thirtyTwoBit =>
    dsimp only at h
    split at h
    · cases h
    · rename_i he
      cases h
      have := getLE_len he
      simp only [lenUVal]; omega
  | lengthDelimited =>
    dsimp only at h
    split at h
    · cases h
    · rename_i he
      cases h
      have := getLenDelim_shorter he
      simp only [lenUVal]; omega
  | endGroup => cases h
  | startGroup =>
    dsimp only at h
    split at h
    · cases h
    · rename_i fs r' he
      cases h
      unfold groupMerge at he
      simp only [ne_eq, not_true, if_false] at he
      cases hx : nested with
      | none => rw [hx] at he; cases he
      | some g =>
        rw [hx] at he
        have := groupLoop_thrifty (hn g hx) _ _ _ _ _ he
        simp only [lenUVal, lenUSet] at this ⊢; omega

theorem pushUnknown_thrifty {dec : Nat → WireType → Bytes → R (UVal × Bytes)}
    (h : ∀ n w b v r, dec n w b = .ok (v, r) → lenUVal n v + r.length ≤ keyLen n + b.length) : Thrifty (pushUnknown dec) := by
  intro st n w b st' b' he
  unfold pushUnknown at he
  split at he
  · cases he
  · rename_i hd
    cases he
    have := h _ _ _ _ _ hd
    rw [lenUSet_snoc]; omega

theorem decUVal_thrifty : ∀ (d n : Nat) (w : WireType) (b : Bytes) (v : UVal) (r : Bytes),
    decUVal d n w b = .ok (v, r) → lenUVal n v + r.length ≤ keyLen n + b.length
  | 0, _, _, _, _, _, h => decUValWith_thrifty (by intro f h; cases h) h
  | d + 1, _, _, _, _, _, h =>
    decUValWith_thrifty (by intro f hf; cases hf; exact pushUnknown_thrifty (decUVal_thrifty d)) h

/-- Reading one field and writing it again takes no more bytes. -/
theorem decUField_thrifty {d : Nat} {b r : Bytes} {n : Nat} {v : UVal} (h : decUField d b = .ok ((n, v), r)) :
    lenUVal n v + r.length ≤ b.length := by
  unfold decUField at h
  split at h
  · cases h
  · rename_i hk
    split at h
    · cases h
    · rename_i hd
      cases h
      have h1 := decodeKey_shorter hk
      have h2 := decUVal_thrifty _ _ _ _ _ _ hd
      omega

/-- Reading a set of fields and writing it again takes no more bytes. -/
theorem mergeAll_thrifty {d : Nat} {us us' : USet} {b r : Bytes}
    (h : mergeAll (pushUnknown (decUVal d)) us b = .ok (us', r)) : lenUSet us' + r.length ≤ lenUSet us + b.length :=
  loopTo_thrifty (pushUnknown_thrifty (decUVal_thrifty d)) _ _ _ _ _ h

end Verif.Wire
