import Verif.Wire.Basic
/-! Helper lemmas about the wire primitives. -/
set_option autoImplicit false
namespace Verif.Wire

theorem toNat_ofNat_lt {n : Nat} (h : n < 256) : (UInt8.ofNat n).toNat = n := by
  simp only [UInt8.toNat_ofNat']; omega

theorem ofNat_toNat_u8 (b : UInt8) : UInt8.ofNat b.toNat = b := by
  simp

theorem u8_lt (b : UInt8) : b.toNat < 256 := UInt8.toNat_lt b

/-! ### Varints -/

theorem decode_encode_varint_aux (k : Nat) : ∀ (j n acc : Nat) (rest : Bytes),
    j + k = 10 → n < 2 ^ (64 - 7 * j) → 0 < k →
    decodeVarintAux j acc (encodeVarintAux k n ++ rest) = .ok (acc + n * 2 ^ (7 * j), rest) := by
  induction k with
  | zero => intro j n acc rest _ _ h; omega
  | succ k ih =>
    intro j n acc rest hjk hn _
    unfold encodeVarintAux
    split
    · rename_i hlt
      simp only [List.singleton_append, decodeVarintAux]
      rw [toNat_ofNat_lt (by omega)]
      rw [if_pos hlt]
      rw [if_neg]
      rintro ⟨rfl, h2⟩
      simp at hn
      omega
    · rename_i hge
      have hj : j ≠ 9 := by
        rintro rfl
        simp at hn
        omega
      simp only [List.cons_append, decodeVarintAux]
      rw [toNat_ofNat_lt (by omega)]
      rw [if_neg (by omega), if_neg hj]
      rw [ih (j + 1) (n / 128) _ rest (by omega) ?_ (by omega)]
      · congr 2
        have h1 : n % 128 + 128 - 128 = n % 128 := by omega
        rw [h1]
        have h2 : 2 ^ (7 * (j + 1)) = 128 * 2 ^ (7 * j) := by
          rw [Nat.mul_add, Nat.pow_add, Nat.mul_comm]
        rw [h2]
        have h3 : n = n % 128 + 128 * (n / 128) := by omega
        conv => rhs; rw [h3]
        rw [Nat.add_mul, ← Nat.add_assoc, Nat.mul_comm 128 (n / 128), Nat.mul_assoc]
      · rw [Nat.div_lt_iff_lt_mul (by omega)]
        have h4 : 2 ^ (64 - 7 * j) = 2 ^ (64 - 7 * (j + 1)) * 128 := by
          have : 64 - 7 * j = (64 - 7 * (j + 1)) + 7 := by omega
          rw [this, Nat.pow_add]
        omega

theorem decode_encode_varint {n : Nat} (h : n < 2 ^ 64) (rest : Bytes) :
    decodeVarint (encodeVarint n ++ rest) = .ok (n, rest) := by
  unfold decodeVarint encodeVarint
  rw [decode_encode_varint_aux 10 0 n 0 rest (by omega) (by simpa using h) (by omega)]
  simp

theorem decodeVarintAux_length : ∀ (buf : Bytes) (k acc v : Nat) (rest : Bytes),
    decodeVarintAux k acc buf = .ok (v, rest) → rest.length < buf.length := by
  intro buf
  induction buf with
  | nil => intro k acc v rest h; simp [decodeVarintAux] at h
  | cons b tl ih =>
    intro k acc v rest h
    simp only [decodeVarintAux] at h
    split at h
    · split at h
      · cases h
      · cases h; simp
    · split at h
      · cases h
      · have := ih _ _ _ _ h
        simp only [List.length_cons]; omega

theorem decodeVarint_length {buf : Bytes} {v : Nat} {rest : Bytes}
    (h : decodeVarint buf = .ok (v, rest)) : rest.length < buf.length :=
  decodeVarintAux_length _ _ _ _ _ h

/-- The rest is a suffix of the buffer. -/
theorem decodeVarintAux_suffix : ∀ (buf : Bytes) (k acc v : Nat) (rest : Bytes),
    decodeVarintAux k acc buf = .ok (v, rest) →
      ∃ p, buf = p ++ rest ∧ ∀ tl, decodeVarintAux k acc (p ++ tl) = .ok (v, tl) := by
  intro buf
  induction buf with
  | nil => intro k acc v rest h; simp [decodeVarintAux] at h
  | cons b tl ih =>
    intro k acc v rest h
    simp only [decodeVarintAux] at h
    split at h
    · rename_i h1
      split at h
      · cases h
      · rename_i h2
        cases h
        refine ⟨[b], rfl, fun tl => ?_⟩
        simp only [List.singleton_append, decodeVarintAux]
        rw [if_pos h1, if_neg h2]
    · rename_i h1
      split at h
      · cases h
      · rename_i h2
        obtain ⟨p, hp, ht⟩ := ih _ _ _ _ h
        refine ⟨b :: p, by rw [hp]; rfl, fun tl' => ?_⟩
        simp only [List.cons_append, decodeVarintAux]
        rw [if_neg h1, if_neg h2]
        exact ht tl'

theorem decodeVarint_suffix {buf : Bytes} {v : Nat} {rest : Bytes}
    (h : decodeVarint buf = .ok (v, rest)) :
      ∃ p, buf = p ++ rest ∧ ∀ tl, decodeVarint (p ++ tl) = .ok (v, tl) :=
  decodeVarintAux_suffix _ _ _ _ _ h

theorem decodeVarintAux_lt : ∀ (buf : Bytes) (k acc v : Nat) (rest : Bytes),
    k ≤ 9 → acc < 2 ^ (7 * k) →
    decodeVarintAux k acc buf = .ok (v, rest) → v < 2 ^ 64 := by
  intro buf
  induction buf with
  | nil => intro k acc v rest _ _ h; simp [decodeVarintAux] at h
  | cons b tl ih =>
    intro k acc v rest hk hacc h
    simp only [decodeVarintAux] at h
    split at h
    · rename_i hb
      split at h
      · cases h
      · rename_i h2
        cases h
        by_cases hk9 : k = 9
        · subst hk9
          have : b.toNat ≤ 1 := by omega
          have h3 : b.toNat * 2 ^ (7 * 9) ≤ 1 * 2 ^ (7 * 9) := Nat.mul_le_mul_right _ this
          simp at *
          omega
        · have h3 : b.toNat * 2 ^ (7 * k) ≤ 127 * 2 ^ (7 * k) :=
            Nat.mul_le_mul_right _ (by omega)
          have h4 : 2 ^ (7 * k) ≤ 2 ^ (7 * 8) := Nat.pow_le_pow_right (by omega) (by omega)
          simp at h4 ⊢
          omega
    · split at h
      · cases h
      · rename_i hb hk9
        refine ih _ _ _ _ (by omega) ?_ h
        have h3 : (b.toNat - 128) * 2 ^ (7 * k) ≤ 127 * 2 ^ (7 * k) :=
          Nat.mul_le_mul_right _ (by have := u8_lt b; omega)
        have h2 : 2 ^ (7 * (k + 1)) = 128 * 2 ^ (7 * k) := by
          rw [Nat.mul_add, Nat.pow_add, Nat.mul_comm]
        omega

theorem decodeVarint_lt {buf : Bytes} {v : Nat} {rest : Bytes}
    (h : decodeVarint buf = .ok (v, rest)) : v < 2 ^ 64 :=
  decodeVarintAux_lt buf 0 0 v rest (by omega) (by simp) h

/-! ### Length of a varint -/

theorem encodeVarintAux_length_eq (k : Nat) : ∀ n j, j < k → (j = 0 ∨ 2 ^ (7 * j) ≤ n) →
    n < 2 ^ (7 * (j + 1)) → (encodeVarintAux k n).length = j + 1 := by
  induction k with
  | zero => intro n j h; omega
  | succ k ih =>
    intro n j hj hlo hhi
    unfold encodeVarintAux
    split
    · rename_i hlt
      cases j with
      | zero => rfl
      | succ j =>
        exfalso
        have : 2 ^ (7 * 1) ≤ 2 ^ (7 * (j + 1)) := Nat.pow_le_pow_right (by omega) (by omega)
        simp only [Nat.mul_one] at this
        rcases hlo with h | h
        · omega
        · have h7 : (2:Nat) ^ 7 = 128 := rfl
          omega
    · rename_i hge
      cases j with
      | zero =>
        have h7 : (2:Nat) ^ (7 * (0 + 1)) = 128 := rfl
        omega
      | succ j =>
        simp only [List.length_cons]
        rw [ih (n / 128) j (by omega) ?_ ?_]
        · by_cases hj0 : j = 0
          · exact .inl hj0
          · right
            rcases hlo with h | h
            · omega
            · rw [Nat.le_div_iff_mul_le (by omega)]
              have : 2 ^ (7 * (j + 1)) = 2 ^ (7 * j) * 128 := by rw [Nat.mul_add, Nat.pow_add]
              omega
        · rw [Nat.div_lt_iff_lt_mul (by omega)]
          have : 2 ^ (7 * (j + 1 + 1)) = 2 ^ (7 * (j + 1)) * 128 := by
            rw [Nat.mul_add (7) (j + 1) 1, Nat.pow_add]
          omega

theorem encodedLenVarint_eq {n : Nat} (h : n < 2 ^ 64) :
    encodedLenVarint n = (encodeVarint n).length := by
  unfold encodedLenVarint encodeVarint
  have hor : n ||| 1 ≠ 0 := by
    intro h0
    have := Nat.right_le_or (n := n) (m := 1)
    omega
  have hlt : (n ||| 1) < 2 ^ 64 := Nat.or_lt_two_pow h (by decide)
  have hl : Nat.log2 (n ||| 1) < 64 := (Nat.log2_lt hor).2 hlt
  generalize hle : Nat.log2 (n ||| 1) = l at hl
  have hlo : 2 ^ l ≤ (n ||| 1) := by rw [← hle]; exact Nat.log2_self_le hor
  have hhi : (n ||| 1) < 2 ^ (l + 1) := by rw [← hle]; exact Nat.lt_log2_self
  have hn1 : n ≤ n ||| 1 := Nat.left_le_or
  have hdiv : (n ||| 1) / 2 = n / 2 := by
    rw [Nat.or_div_two]; simp
  have hn2 : l = 0 ∨ 2 ^ l ≤ n := by
    cases l with
    | zero => exact .inl rfl
    | succ l =>
      right
      rw [Nat.pow_succ] at hlo ⊢
      omega
  have hj : (l * 9 + 73) / 64 = l / 7 + 1 := by omega
  rw [hj]
  symm
  apply encodeVarintAux_length_eq 10 n (l / 7) (by omega)
  · rcases hn2 with h0 | h0
    · left; omega
    · right
      exact Nat.le_trans (Nat.pow_le_pow_right (by omega) (by omega)) h0
  · refine Nat.lt_of_lt_of_le (Nat.lt_of_le_of_lt hn1 hhi) ?_
    exact Nat.pow_le_pow_right (by omega) (by omega)

/-! ### Keys -/

theorem encodeVarintAux_key_len (k n w : Nat) (hw : w < 8) :
    (encodeVarintAux k (n * 8 + w)).length = (encodeVarintAux k (n * 8)).length := by
  cases k with
  | zero => rfl
  | succ k =>
    unfold encodeVarintAux
    have h1 : (n * 8 + w < 128) ↔ (n * 8 < 128) := by omega
    have h2 : (n * 8 + w) / 128 = n * 8 / 128 := by omega
    simp only [h1, h2]
    split <;> simp

theorem WireType.toNat_lt (w : WireType) : w.toNat < 6 := by cases w <;> decide

theorem WireType.ofNat?_toNat (w : WireType) : WireType.ofNat? w.toNat = some w := by
  cases w <;> rfl

theorem keyLen_eq {n : Nat} (h : n < 2 ^ 29) (w : WireType) :
    keyLen n = (encodeKey n w).length := by
  unfold keyLen encodeKey
  rw [encodedLenVarint_eq (by omega)]
  unfold encodeVarint
  rw [encodeVarintAux_key_len 10 n w.toNat (by have := w.toNat_lt; omega)]

theorem decode_encode_key {n : Nat} (h0 : 0 < n) (h : n < 2 ^ 29) (w : WireType) (t : Bytes) :
    decodeKey (encodeKey n w ++ t) = .ok (n, w, t) := by
  unfold decodeKey encodeKey
  have hw := w.toNat_lt
  rw [decode_encode_varint (by omega)]
  have h1 : (n * 8 + w.toNat) % 8 = w.toNat := by omega
  have h2 : (n * 8 + w.toNat) / 8 = n := by omega
  simp only [h1, h2, WireType.ofNat?_toNat]
  rw [if_neg (by omega), if_neg (by omega)]

theorem encodeVarint_ne_nil (n : Nat) : encodeVarint n ≠ [] := by
  unfold encodeVarint encodeVarintAux
  split <;> simp

theorem encodeKey_ne_nil (n : Nat) (w : WireType) : encodeKey n w ≠ [] :=
  encodeVarint_ne_nil _

/-! ### Little endian -/

theorem putLE_length (k : Nat) : ∀ n, (putLE k n).length = k := by
  induction k with
  | zero => intro n; rfl
  | succ k ih => intro n; simp [putLE, ih]

theorem leVal_putLE (k : Nat) : ∀ n, n < 256 ^ k → leVal (putLE k n) = n := by
  induction k with
  | zero => intro n h; simp at h; simp [putLE, leVal, h]
  | succ k ih =>
    intro n h
    simp only [putLE, leVal]
    rw [toNat_ofNat_lt (by omega), ih (n / 256)]
    · omega
    · rw [Nat.div_lt_iff_lt_mul (by omega)]
      rw [Nat.pow_succ] at h; exact h

theorem putLE_leVal : ∀ (b : Bytes), putLE b.length (leVal b) = b := by
  intro b
  induction b with
  | nil => rfl
  | cons x r ih =>
    have hx := u8_lt x
    simp only [List.length_cons, leVal, putLE]
    have h1 : (x.toNat + 256 * leVal r) % 256 = x.toNat := by omega
    have h2 : (x.toNat + 256 * leVal r) / 256 = leVal r := by omega
    rw [h1, h2, ih, ofNat_toNat_u8]

theorem leVal_lt : ∀ (b : Bytes), leVal b < 256 ^ b.length := by
  intro b
  induction b with
  | nil => simp [leVal]
  | cons x r ih =>
    have hx := u8_lt x
    simp only [leVal, List.length_cons, Nat.pow_succ]
    omega

theorem getLE_putLE {k n : Nat} (h : n < 256 ^ k) (t : Bytes) :
    getLE k (putLE k n ++ t) = .ok (n, t) := by
  unfold getLE
  have hl := putLE_length k n
  rw [if_neg (by simp [hl])]
  rw [List.take_left' hl, List.drop_left' hl, leVal_putLE k n h]

theorem getLE_bytes (b t : Bytes) : getLE b.length (b ++ t) = .ok (leVal b, t) := by
  unfold getLE
  rw [if_neg (by simp), List.take_left' rfl, List.drop_left' rfl]

/-! ### Length delimited -/

theorem getLenDelim_encode {b : Bytes} (h : b.length < 2 ^ 64) (t : Bytes) :
    getLenDelim (encodeVarint b.length ++ (b ++ t)) = .ok (b, t) := by
  unfold getLenDelim
  rw [decode_encode_varint h]
  simp

/-! ### Parsers that depend only on what they consume -/

/-- A successful run consumes a prefix of the buffer and depends on nothing else. -/
def Good {α : Type} (p : Bytes → R (α × Bytes)) : Prop :=
  ∀ b v r, p b = .ok (v, r) → ∃ c, b = c ++ r ∧ ∀ t, p (c ++ t) = .ok (v, t)

/-- A successful run consumes at least one byte. -/
def Strict {α : Type} (p : Bytes → R (α × Bytes)) : Prop :=
  ∀ b v r, p b = .ok (v, r) → r.length < b.length

/-- The model's own fuel never runs out. -/
def NoFuel {α : Type} (p : Bytes → R α) : Prop := ∀ b, p b ≠ .error .fuel

theorem good_decodeVarint : Good decodeVarint := fun _ _ _ h => decodeVarint_suffix h

theorem strict_decodeVarint : Strict decodeVarint := fun _ _ _ h => decodeVarint_length h

theorem noFuel_decodeVarintAux : ∀ (b : Bytes) (k acc : Nat), decodeVarintAux k acc b ≠ .error .fuel := by
  intro b
  induction b with
  | nil => intro k acc h; simp [decodeVarintAux] at h
  | cons x r ih =>
    intro k acc
    simp only [decodeVarintAux]
    split
    · split <;> simp
    · split
      · simp
      · exact ih _ _

theorem noFuel_decodeVarint : NoFuel decodeVarint := fun b => noFuel_decodeVarintAux b 0 0

theorem Good.le {α : Type} {p : Bytes → R (α × Bytes)} (h : Good p) {b : Bytes} {v : α} {r : Bytes}
    (e : p b = .ok (v, r)) : r.length ≤ b.length := by
  obtain ⟨c, rfl, -⟩ := h _ _ _ e
  simp

theorem decodeKey_good {b : Bytes} {n : Nat} {w : WireType} {r : Bytes}
    (h : decodeKey b = .ok (n, w, r)) :
    ∃ c, c ≠ [] ∧ b = c ++ r ∧ (∀ t, decodeKey (c ++ t) = .ok (n, w, t)) ∧ 0 < n ∧ n < 2 ^ 29 := by
  unfold decodeKey at h
  split at h
  · cases h
  · rename_i key rest hv
    split at h
    · cases h
    · rename_i hk
      split at h
      · cases h
      · rename_i w' hw
        split at h
        · cases h
        · rename_i ht
          cases h
          obtain ⟨c, hc, hg⟩ := good_decodeVarint _ _ _ hv
          have hs := strict_decodeVarint _ _ _ hv
          refine ⟨c, ?_, hc, ?_, by omega, by omega⟩
          · rintro rfl; simp [hc] at hs
          · intro t
            unfold decodeKey
            rw [hg t]
            simp only [hw]
            rw [if_neg hk, if_neg ht]

theorem noFuel_decodeKey : NoFuel decodeKey := by
  intro b h
  unfold decodeKey at h
  split at h
  · rename_i e he
    cases h
    exact noFuel_decodeVarint _ he
  · split at h
    · cases h
    · split at h
      · cases h
      · split at h <;> cases h

theorem good_getLE (k : Nat) : Good (getLE k) := by
  intro b v r h
  unfold getLE at h
  split at h
  · cases h
  · rename_i hl
    cases h
    refine ⟨b.take k, (List.take_append_drop k b).symm, fun t => ?_⟩
    have hk : (b.take k).length = k := by simp; omega
    unfold getLE
    rw [if_neg (by simp; omega), List.take_left' hk, List.drop_left' hk]

theorem strict_getLE {k : Nat} (hk : 0 < k) : Strict (getLE k) := by
  intro b v r h
  unfold getLE at h
  split at h
  · cases h
  · cases h
    simp; omega

theorem noFuel_getLE (k : Nat) : NoFuel (getLE k) := by
  intro b h
  unfold getLE at h
  split at h <;> cases h

theorem good_getLenDelim : Good getLenDelim := by
  intro b v r h
  unfold getLenDelim at h
  split at h
  · cases h
  · rename_i len rest hv
    split at h
    · cases h
    · rename_i hl
      cases h
      obtain ⟨c, hc, hg⟩ := good_decodeVarint _ _ _ hv
      refine ⟨c ++ rest.take len, ?_, fun t => ?_⟩
      · rw [List.append_assoc, List.take_append_drop]; exact hc
      · unfold getLenDelim
        have hk : (rest.take len).length = len := by simp; omega
        rw [List.append_assoc, hg]
        simp only
        rw [if_neg (by simp; omega), List.take_left' hk, List.drop_left' hk]

theorem strict_getLenDelim : Strict getLenDelim := by
  intro b v r h
  unfold getLenDelim at h
  split at h
  · cases h
  · rename_i len rest hv
    split at h
    · cases h
    · cases h
      have := strict_decodeVarint _ _ _ hv
      simp; omega

theorem noFuel_getLenDelim : NoFuel getLenDelim := by
  intro b h
  unfold getLenDelim at h
  split at h
  · rename_i e he
    cases h; exact noFuel_decodeVarint _ he
  · split at h <;> cases h

end Verif.Wire
