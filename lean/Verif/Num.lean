import Verif.Pool.Default
/-!
Decimal numerals: what the standard library's integer parsers accept and what its integer
formatting produces.
-/
set_option autoImplicit false
namespace Verif.Pool
open Verif.Wire Verif.Dyn

/-- The digit `d < 10` as a character. -/
def digitChar (d : Nat) : Char := Char.ofNat (48 + d)

/-- `Display` for unsigned integers: no leading zeros. -/
def decDigits (n : Nat) : List Char :=
  if n < 10 then [digitChar n] else decDigits (n / 10) ++ [digitChar (n % 10)]

/-- `Display` for integers. -/
def decInt (v : Int) : List Char :=
  if v < 0 then '-' :: decDigits v.natAbs else decDigits v.natAbs

/-- The place value of a string of digits. -/
def placeValue : List Char → Nat
  | [] => 0
  | c :: r => (c.toNat - 48) * 10 ^ r.length + placeValue r

def isDigit (c : Char) : Prop := 48 ≤ c.toNat ∧ c.toNat ≤ 57

instance (c : Char) : Decidable (isDigit c) := inferInstanceAs (Decidable (_ ∧ _))

theorem digitVal_eq (c : Char) : digitVal c = if isDigit c then some (c.toNat - 48) else none := rfl

theorem digitsFrom_iff : ∀ (s : List Char) (acc n : Nat), digitsFrom acc s = some n ↔
    (∀ c ∈ s, isDigit c) ∧ n = acc * 10 ^ s.length + placeValue s
  | [], acc, n => by simp [digitsFrom, placeValue, eq_comm]
  | c :: r, acc, n => by
    rw [digitsFrom, digitVal_eq]
    by_cases hc : isDigit c
    · simp only [hc, if_true, digitsFrom_iff r, List.mem_cons, forall_eq_or_imp, true_and]
      rw [placeValue, List.length_cons, Nat.pow_succ]
      have : (acc * 10 + (c.toNat - 48)) * 10 ^ r.length + placeValue r =
        acc * (10 ^ r.length * 10) + ((c.toNat - 48) * 10 ^ r.length + placeValue r) := by
        rw [Nat.add_mul, Nat.add_assoc, Nat.mul_assoc, Nat.mul_comm 10]
      rw [this]
    · simp [hc]

theorem parseDigits_iff (s : List Char) (n : Nat) : parseDigits s = some n ↔
    s ≠ [] ∧ (∀ c ∈ s, isDigit c) ∧ n = placeValue s := by
  cases s with
  | nil => simp [parseDigits]
  | cons c r =>
    rw [parseDigits, digitsFrom_iff]
    simp

theorem digitChar_toNat {d : Nat} (h : d < 10) : (digitChar d).toNat = 48 + d := by
  have : ∀ d, d < 10 → (digitChar d).toNat = 48 + d := by decide
  exact this d h

theorem digitChar_digit {d : Nat} (h : d < 10) : isDigit (digitChar d) := by
  unfold isDigit
  rw [digitChar_toNat h]
  omega

theorem placeValue_append (a b : List Char) :
    placeValue (a ++ b) = placeValue a * 10 ^ b.length + placeValue b := by
  induction a with
  | nil => simp [placeValue]
  | cons c a ih =>
    simp only [List.cons_append, placeValue, ih, List.length_append, Nat.pow_add, Nat.add_mul]
    rw [Nat.mul_assoc, Nat.add_assoc]

theorem decDigits_spec (n : Nat) : decDigits n ≠ [] ∧ (∀ c ∈ decDigits n, isDigit c) ∧
    placeValue (decDigits n) = n := by
  induction n using Nat.strongRecOn with
  | _ n ih =>
    rw [decDigits]
    split
    · next h =>
      refine ⟨by simp, fun c hc => ?_, ?_⟩
      · rw [List.mem_singleton] at hc; rw [hc]; exact digitChar_digit h
      · simp [placeValue, digitChar_toNat h]
    · next h =>
      obtain ⟨h1, h2, h3⟩ := ih (n / 10) (by omega)
      refine ⟨by simp, fun c hc => ?_, ?_⟩
      · rw [List.mem_append, List.mem_singleton] at hc
        rcases hc with hc | rfl
        · exact h2 c hc
        · exact digitChar_digit (Nat.mod_lt _ (by omega))
      · rw [placeValue_append, h3]
        simp only [placeValue, List.length_singleton, List.length_nil,
          digitChar_toNat (Nat.mod_lt n (by omega : 0 < 10))]
        omega

/-- Parsing inverts printing. -/
theorem parseDigits_dec (n : Nat) : parseDigits (decDigits n) = some n := by
  obtain ⟨h1, h2, h3⟩ := decDigits_spec n
  rw [parseDigits_iff]
  exact ⟨h1, h2, h3.symm⟩

/-- An optional `+` and a non-empty run of digits. -/
def NatNumeral (s : List Char) (n : Nat) : Prop :=
  ∃ ds, (s = ds ∨ s = '+' :: ds) ∧ ds ≠ [] ∧ (∀ c ∈ ds, isDigit c) ∧ n = placeValue ds

/-- An optional sign and a non-empty run of digits. -/
def IntNumeral (s : List Char) (v : Int) : Prop :=
  ∃ ds, ds ≠ [] ∧ (∀ c ∈ ds, isDigit c) ∧
    (((s = ds ∨ s = '+' :: ds) ∧ v = placeValue ds) ∨ (s = '-' :: ds ∧ v = -(placeValue ds : Int)))

theorem plus_not_digit : ¬ isDigit '+' := by decide
theorem minus_not_digit : ¬ isDigit '-' := by decide

theorem plusBody {s : List Char} {n : Nat} :
    parseDigits (stripPlus s) = some n ↔ NatNumeral s n := by
  unfold stripPlus
  constructor
  · intro h
    split at h
    · rw [parseDigits_iff] at h
      exact ⟨_, .inr rfl, h⟩
    · rw [parseDigits_iff] at h
      exact ⟨_, .inl rfl, h⟩
  · rintro ⟨ds, rfl | rfl, h⟩
    · split
      · exact absurd (h.2.1 '+' (List.mem_cons_self ..)) plus_not_digit
      · exact (parseDigits_iff _ _).2 h
    · exact (parseDigits_iff _ _).2 h

theorem NatNumeral.unique {s : List Char} {n m : Nat} (h : NatNumeral s n) (h' : NatNumeral s m) :
    n = m := by
  rw [← plusBody] at h h'
  rw [h] at h'
  exact Option.some.inj h'

/-- `str::parse` for unsigned integers: exactly the numerals in range. -/
theorem parseUnsigned_iff {bits : Nat} {s : List Char} {v : BitVec bits} :
    parseUnsigned bits s = some v ↔ NatNumeral s v.toNat := by
  unfold parseUnsigned
  constructor
  · intro h
    split at h
    · next n hn =>
      split at h
      · next hlt =>
        cases h
        rw [BitVec.toNat_ofNat, Nat.mod_eq_of_lt hlt]
        exact plusBody.1 hn
      · cases h
    · cases h
  · intro h
    have := plusBody.2 h
    rw [this]
    simp [v.isLt]

theorem IntNumeral.unique {s : List Char} {v w : Int} (h : IntNumeral s v) (h' : IntNumeral s w) :
    v = w := by
  obtain ⟨ds, h1, h2, h3⟩ := h
  obtain ⟨es, g1, g2, g3⟩ := h'
  have m : ∀ {ds : List Char}, (∀ c ∈ ds, isDigit c) → ∀ r, ds ≠ '-' :: r := by
    rintro ds h r rfl
    exact minus_not_digit (h _ (List.mem_cons_self ..))
  rcases h3 with ⟨h3, rfl⟩ | ⟨rfl, rfl⟩
  · rcases g3 with ⟨g3, rfl⟩ | ⟨rfl, rfl⟩
    · exact congrArg Int.ofNat (NatNumeral.unique ⟨ds, h3, h1, h2, rfl⟩ ⟨es, g3, g1, g2, rfl⟩)
    · rcases h3 with h3 | h3
      · exact absurd h3.symm (m h2 _)
      · simp at h3
  · rcases g3 with ⟨g3, rfl⟩ | ⟨g3, rfl⟩
    · rcases g3 with g3 | g3
      · exact absurd g3.symm (m g2 _)
      · simp at g3
    · simp only [List.cons.injEq, true_and] at g3
      rw [g3]

/-- `str::parse` for signed integers: exactly the numerals in range. -/
theorem parseSigned_iff {bits : Nat} (hb : 0 < bits) {s : List Char} {v : BitVec bits} :
    parseSigned bits s = some v ↔ IntNumeral s v.toInt := by
  obtain ⟨b, rfl⟩ : ∃ b, bits = b + 1 := ⟨bits - 1, by omega⟩
  have hpow : (2 : Nat) ^ (b + 1) = 2 ^ b + 2 ^ b := by rw [Nat.pow_succ]; omega
  have hpos : 0 < 2 ^ b := Nat.two_pow_pos b
  have hv1 := BitVec.le_toInt v
  have hv2 := BitVec.toInt_lt (x := v)
  rw [Nat.add_sub_cancel] at hv1 hv2
  have e1 : ((2 : Int) ^ b) = ((2 ^ b : Nat) : Int) := by simp
  rw [e1] at hv1 hv2
  have ofI : ∀ z : Int, -((2 ^ b : Nat) : Int) ≤ z → z < ((2 ^ b : Nat) : Int) →
      (BitVec.ofInt (b + 1) z).toInt = z := by
    intro z hz1 hz2
    refine BitVec.toInt_ofInt_eq_self (by omega) ?_ ?_ <;> rw [Nat.add_sub_cancel, e1] <;> assumption
  have ofN : ∀ n : Nat, n < 2 ^ b → (BitVec.ofNat (b + 1) n).toInt = n := by
    intro n hn
    have := ofI n (by omega) (by omega)
    rwa [BitVec.ofInt_natCast] at this
  unfold parseSigned
  rw [Nat.add_sub_cancel]
  constructor
  · intro h
    split at h
    · next r =>
      split at h
      · next n hn =>
        split at h
        · next hle =>
          cases h
          rw [ofI _ (by omega) (by omega)]
          rw [parseDigits_iff] at hn
          exact ⟨r, hn.1, hn.2.1, .inr ⟨rfl, by rw [hn.2.2]⟩⟩
        · cases h
      · cases h
    · split at h
      · next n hn =>
        split at h
        · next hlt =>
          cases h
          rw [ofN _ hlt]
          obtain ⟨ds, h1, h2, h3, h4⟩ := plusBody.1 hn
          exact ⟨ds, h2, h3, .inl ⟨h1, by rw [h4]⟩⟩
        · cases h
      · cases h
  · rintro ⟨ds, h1, h2, ⟨h3, h4⟩ | ⟨rfl, h4⟩⟩
    · split
      · rcases h3 with rfl | h3
        · exact absurd (h2 '-' (List.mem_cons_self ..)) minus_not_digit
        · simp at h3
      · have := (plusBody (s := s) (n := placeValue ds)).2 ⟨ds, h3, h1, h2, rfl⟩
        rw [this]
        simp only
        rw [if_pos (by omega)]
        congr 1
        apply BitVec.eq_of_toInt_eq
        rw [ofN _ (by omega), h4]
    · have := (parseDigits_iff ds _).2 ⟨h1, h2, rfl⟩
      simp only [this]
      rw [if_pos (by omega)]
      congr 1
      apply BitVec.eq_of_toInt_eq
      rw [ofI _ (by omega) (by omega), h4]

end Verif.Pool
