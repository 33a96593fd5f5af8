/-!
UTF-8, as checked by Rust's `String` (std, trusted base): the decoder accepts
exactly the well-formed sequences of Unicode 3.9 table 3-7.
-/
set_option autoImplicit false
namespace Verif

/-- UTF-8 encoding of one scalar value. -/
def utf8EncodeChar (c : Char) : List UInt8 :=
  let n := c.toNat
  if n < 0x80 then [UInt8.ofNat n]
  else if n < 0x800 then [UInt8.ofNat (0xC0 + n / 64), UInt8.ofNat (0x80 + n % 64)]
  else if n < 0x10000 then
    [UInt8.ofNat (0xE0 + n / 4096), UInt8.ofNat (0x80 + n / 64 % 64), UInt8.ofNat (0x80 + n % 64)]
  else
    [UInt8.ofNat (0xF0 + n / 262144), UInt8.ofNat (0x80 + n / 4096 % 64),
      UInt8.ofNat (0x80 + n / 64 % 64), UInt8.ofNat (0x80 + n % 64)]

/-- UTF-8 encoding of a string given as its characters. -/
def utf8Encode : List Char → List UInt8
  | [] => []
  | c :: r => utf8EncodeChar c ++ utf8Encode r

/-- Continuation byte payload. -/
def utf8Cont (b : UInt8) : Option Nat :=
  if 0x80 ≤ b.toNat ∧ b.toNat < 0xC0 then some (b.toNat - 0x80) else none

/-- A scalar value: not a surrogate, at most 0x10FFFF. -/
def mkChar (n : Nat) : Option Char :=
  if n.isValidChar then some (Char.ofNat n) else none

/-- UTF-8 decoding; `none` for ill-formed input. -/
def utf8Decode : List UInt8 → Option (List Char)
  | [] => some []
  | b0 :: r =>
    let n0 := b0.toNat
    if n0 < 0x80 then
      match utf8Decode r with
      | none => none
      | some cs => some (Char.ofNat n0 :: cs)
    else if n0 < 0xC0 then none
    else match r with
      | [] => none
      | b1 :: r =>
        match utf8Cont b1 with
        | none => none
        | some n1 =>
          if n0 < 0xE0 then
            let n := (n0 - 0xC0) * 64 + n1
            if n < 0x80 then none
            else match mkChar n, utf8Decode r with
              | some c, some cs => some (c :: cs)
              | _, _ => none
          else match r with
            | [] => none
            | b2 :: r =>
              match utf8Cont b2 with
              | none => none
              | some n2 =>
                if n0 < 0xF0 then
                  let n := (n0 - 0xE0) * 4096 + n1 * 64 + n2
                  if n < 0x800 then none
                  else match mkChar n, utf8Decode r with
                    | some c, some cs => some (c :: cs)
                    | _, _ => none
                else match r with
                  | [] => none
                  | b3 :: r =>
                    match utf8Cont b3 with
                    | none => none
                    | some n3 =>
                      if n0 < 0xF8 then
                        let n := (n0 - 0xF0) * 262144 + n1 * 4096 + n2 * 64 + n3
                        if n < 0x10000 then none
                        else match mkChar n, utf8Decode r with
                          | some c, some cs => some (c :: cs)
                          | _, _ => none
                      else none

/-- `str::from_utf8(..).is_ok()`. -/
def utf8Valid (b : List UInt8) : Bool := (utf8Decode b).isSome

private theorem u8 {n : Nat} (h : n < 256) : (UInt8.ofNat n).toNat = n := by
  simp [Nat.mod_eq_of_lt h]

private theorem cont {n : Nat} (h : n < 64) : utf8Cont (UInt8.ofNat (0x80 + n)) = some n := by
  unfold utf8Cont
  rw [u8 (by omega), if_pos (by omega), show 0x80 + n - 0x80 = n by omega]

private theorem mkChar_toNat (c : Char) : mkChar c.toNat = some c := by
  unfold mkChar
  have : c.toNat.isValidChar := c.valid
  rw [if_pos this]
  simp

theorem utf8Decode_char (c : Char) (r : List UInt8) :
    utf8Decode (utf8EncodeChar c ++ r) = (utf8Decode r).map (c :: ·) := by
  have hv : c.toNat.isValidChar := c.valid
  have hlt : c.toNat < 0x110000 := by
    unfold Nat.isValidChar at hv; omega
  have hmk := mkChar_toNat c
  unfold utf8EncodeChar
  generalize hn : c.toNat = n at *
  simp only
  split
  · simp only [List.cons_append, List.nil_append]
    conv => lhs; unfold utf8Decode
    simp only [u8 (show n < 256 by omega), if_pos ‹n < 0x80›]
    have : Char.ofNat n = c := by rw [← hn]; simp
    rw [this]
    cases utf8Decode r <;> rfl
  · split
    · simp only [List.cons_append, List.nil_append]
      conv => lhs; unfold utf8Decode
      simp only [u8 (show 0xC0 + n / 64 < 256 by omega)]
      rw [if_neg (by omega), if_neg (by omega), cont (by omega)]
      simp only
      rw [if_pos (by omega), show (0xC0 + n / 64 - 0xC0) * 64 + n % 64 = n by omega,
        if_neg (by omega), hmk]
      cases utf8Decode r <;> rfl
    · split
      · simp only [List.cons_append, List.nil_append]
        conv => lhs; unfold utf8Decode
        simp only [u8 (show 0xE0 + n / 4096 < 256 by omega)]
        rw [if_neg (by omega), if_neg (by omega), cont (by omega)]
        simp only
        rw [if_neg (by omega), cont (by omega)]
        simp only
        rw [if_pos (by omega),
          show (0xE0 + n / 4096 - 0xE0) * 4096 + n / 64 % 64 * 64 + n % 64 = n by omega,
          if_neg (by omega), hmk]
        cases utf8Decode r <;> rfl
      · simp only [List.cons_append, List.nil_append]
        conv => lhs; unfold utf8Decode
        simp only [u8 (show 0xF0 + n / 262144 < 256 by omega)]
        rw [if_neg (by omega), if_neg (by omega), cont (by omega)]
        simp only
        rw [if_neg (by omega), cont (by omega)]
        simp only
        rw [if_neg (by omega), cont (by omega)]
        simp only
        rw [if_pos (by omega),
          show (0xF0 + n / 262144 - 0xF0) * 262144 + n / 4096 % 64 * 4096 + n / 64 % 64 * 64 + n % 64
            = n by omega, if_neg (by omega), hmk]
        cases utf8Decode r <;> rfl

/-- Decoding inverts encoding. -/
theorem utf8Decode_encode (cs : List Char) : utf8Decode (utf8Encode cs) = some cs := by
  induction cs with
  | nil => rfl
  | cons c r ih => simp [utf8Encode, utf8Decode_char, ih]

private theorem ofNat_toNat_u8 (b : UInt8) {n : Nat} (h : n = b.toNat) : UInt8.ofNat n = b := by
  subst h; simp

private theorem cont_inv {b : UInt8} {n : Nat} (h : utf8Cont b = some n) :
    n < 64 ∧ UInt8.ofNat (0x80 + n) = b := by
  unfold utf8Cont at h
  split at h
  · rename_i hb
    have hn : b.toNat - 0x80 = n := Option.some.inj h
    exact ⟨by omega, ofNat_toNat_u8 b (by omega)⟩
  · cases h

private theorem charToNat_ofNat {n : Nat} (h : n.isValidChar) : (Char.ofNat n).toNat = n := by
  simp [Char.ofNat, h, Char.ofNatAux, Char.toNat]

private theorem mkChar_inv {n : Nat} {c : Char} (h : mkChar n = some c) : c.toNat = n := by
  unfold mkChar at h
  split at h
  · rename_i hv
    cases h
    exact charToNat_ofNat hv
  · cases h

/-- Encoding inverts decoding, so a byte string has at most one reading. -/
theorem utf8Encode_decode : (b : List UInt8) → (cs : List Char) → utf8Decode b = some cs →
    utf8Encode cs = b
  | [], cs, h => by simp [utf8Decode] at h; subst h; rfl
  | b0 :: r, cs, h => by
    unfold utf8Decode at h
    simp only at h
    split at h
    · rename_i h0
      split at h
      · cases h
      · rename_i cs' hr
        cases h
        simp only [utf8Encode, utf8EncodeChar]
        have hv : b0.toNat.isValidChar := by unfold Nat.isValidChar; omega
        rw [charToNat_ofNat hv, if_pos h0, utf8Encode_decode r cs' hr,
          ofNat_toNat_u8 b0 rfl]
        rfl
    · split at h
      · cases h
      · cases r with
        | nil => simp at h
        | cons b1 r =>
          simp only at h
          cases h1 : utf8Cont b1 with
          | none => rw [h1] at h; cases h
          | some n1 =>
            rw [h1] at h
            simp only at h
            obtain ⟨hn1, hb1⟩ := cont_inv h1
            split at h
            · split at h
              · cases h
              · split at h
                · rename_i c cs' hc hr
                  cases h
                  have hcn := mkChar_inv hc
                  simp only [utf8Encode, utf8EncodeChar, hcn]
                  rw [if_neg (by omega), if_pos (by omega), utf8Encode_decode r cs' hr,
                    ofNat_toNat_u8 b0 (by omega),
                    show ((b0.toNat - 0xC0) * 64 + n1) % 64 = n1 by omega, hb1]
                  rfl
                · cases h
            · cases r with
              | nil => simp at h
              | cons b2 r =>
                simp only at h
                cases h2 : utf8Cont b2 with
                | none => rw [h2] at h; cases h
                | some n2 =>
                  rw [h2] at h
                  simp only at h
                  obtain ⟨hn2, hb2⟩ := cont_inv h2
                  split at h
                  · split at h
                    · cases h
                    · split at h
                      · rename_i c cs' hc hr
                        cases h
                        have hcn := mkChar_inv hc
                        simp only [utf8Encode, utf8EncodeChar, hcn]
                        rw [if_neg (by omega), if_neg (by omega), if_pos (by omega),
                          utf8Encode_decode r cs' hr, ofNat_toNat_u8 b0 (by omega),
                          show ((b0.toNat - 0xE0) * 4096 + n1 * 64 + n2) / 64 % 64 = n1 by omega,
                          show ((b0.toNat - 0xE0) * 4096 + n1 * 64 + n2) % 64 = n2 by omega, hb1, hb2]
                        rfl
                      · cases h
                  · cases r with
                    | nil => simp at h
                    | cons b3 r =>
                      simp only at h
                      cases h3 : utf8Cont b3 with
                      | none => rw [h3] at h; cases h
                      | some n3 =>
                        rw [h3] at h
                        simp only at h
                        obtain ⟨hn3, hb3⟩ := cont_inv h3
                        split at h
                        · split at h
                          · cases h
                          · split at h
                            · rename_i c cs' hc hr
                              cases h
                              have hcn := mkChar_inv hc
                              simp only [utf8Encode, utf8EncodeChar, hcn]
                              rw [if_neg (by omega), if_neg (by omega), if_neg (by omega),
                                utf8Encode_decode r cs' hr, ofNat_toNat_u8 b0 (by omega),
                                show ((b0.toNat - 0xF0) * 262144 + n1 * 4096 + n2 * 64 + n3) / 4096 % 64
                                  = n1 by omega,
                                show ((b0.toNat - 0xF0) * 262144 + n1 * 4096 + n2 * 64 + n3) / 64 % 64
                                  = n2 by omega,
                                show ((b0.toNat - 0xF0) * 262144 + n1 * 4096 + n2 * 64 + n3) % 64
                                  = n3 by omega, hb1, hb2, hb3]
                              rfl
                            · cases h
                        · cases h

theorem utf8Valid_encode (cs : List Char) : utf8Valid (utf8Encode cs) = true := by
  simp [utf8Valid, utf8Decode_encode]

theorem utf8Valid_iff (b : List UInt8) : utf8Valid b = true ↔ ∃ cs, utf8Encode cs = b := by
  constructor
  · intro h
    obtain ⟨cs, hcs⟩ := Option.isSome_iff_exists.1 h
    exact ⟨cs, utf8Encode_decode b cs hcs⟩
  · rintro ⟨cs, rfl⟩; exact utf8Valid_encode cs

end Verif
