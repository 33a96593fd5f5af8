import Verif.Json.Ints
import Verif.Dyn.DecEq
/-!
Integers from JSON (C41).
-/
set_option autoImplicit false
namespace Verif.Props
open Verif.Json Verif.Pool Verif.Dyn

/-- The JSON value denotes the integer `n`: an integer literal, a double whose value is `n`
(its value in units of `2^-1074` is `n` times `2^1074`), or a string with an optional sign
and decimal digits. -/
def IntValue (j : Json) (n : Int) : Prop :=
  match j with
  | .uint v => n = v.toNat
  | .sint v => n = v.toInt
  | .float x => finite64 x = true ∧ scaled x = n * 2 ^ 1074
  | .str s => IntNumeral s n
  | _ => False

theorem one_pos : (0 : Int) < (2 ^ 1074 : Int) := Int.pow_pos (by decide)

theorem isInteger_iff (x : BitVec 64) :
    isInteger x = true ↔ finite64 x = true ∧ ∃ n : Int, scaled x = n * 2 ^ 1074 := by
  unfold isInteger
  rw [Bool.and_eq_true, beq_iff_eq]
  have e : (one : Int) = 2 ^ 1074 := by simp [one]
  constructor
  · rintro ⟨h1, h2⟩
    refine ⟨h1, ?_⟩
    obtain ⟨k, hk⟩ := Nat.dvd_of_mod_eq_zero h2
    have hk' : (units x : Int) = k * 2 ^ 1074 := by rw [hk, Int.natCast_mul, e, Int.mul_comm]
    unfold scaled
    split
    · exact ⟨-k, by rw [hk', Int.neg_mul]⟩
    · exact ⟨k, hk'⟩
  · rintro ⟨h1, n, hn⟩
    refine ⟨h1, ?_⟩
    apply Nat.mod_eq_zero_of_dvd
    have : (one : Int) ∣ (units x : Int) := by
      rw [e]
      unfold scaled at hn
      split at hn
      · exact ⟨-n, by rw [Int.mul_comm, Int.neg_mul, ← hn, Int.neg_neg]⟩
      · exact ⟨n, by rw [Int.mul_comm, ← hn]⟩
    exact Int.natCast_dvd_natCast.1 this

/-- What the integer visitors do with a double. -/
theorem visitF64_eq {lo hi hiF : Int} {x : BitVec 64} {v : Int} :
    visitF64 lo hi hiF x = .ok v ↔
      ∃ n, IntValue (.float x) n ∧ lo ≤ n ∧ n ≤ hiF ∧ v = clamp lo hi n := by
  have e : (one : Int) = 2 ^ 1074 := by simp [one]
  have hpos := one_pos
  unfold visitF64
  by_cases hi' : isInteger x = true
  · obtain ⟨hf, n, hn⟩ := (isInteger_iff x).1 hi'
    have hd : scaled x / one = n := by rw [hn, e]; exact Int.mul_ediv_cancel _ (by omega)
    rw [hi', hd]
    simp only [Bool.not_true, Bool.false_eq_true, if_false]
    have uniq : ∀ m, scaled x = m * 2 ^ 1074 → m = n := by
      intro m hm
      rw [hn] at hm
      exact (Int.eq_of_mul_eq_mul_right (by omega) hm).symm
    by_cases hr : n < lo ∨ hiF < n
    · rw [if_pos hr]
      constructor
      · intro h; cases h
      · rintro ⟨m, ⟨_, hm⟩, h1, h2, _⟩
        have := uniq m hm
        omega
    · rw [if_neg hr]
      constructor
      · intro h
        cases h
        exact ⟨n, ⟨hf, hn⟩, by omega, by omega, rfl⟩
      · rintro ⟨m, ⟨_, hm⟩, h1, h2, rfl⟩
        rw [uniq m hm]
  · simp only [Bool.not_eq_true] at hi'
    rw [hi']
    simp only [Bool.not_false, if_true]
    constructor
    · intro h; cases h
    · rintro ⟨n, ⟨hf, hn⟩, _⟩
      rw [(isInteger_iff x).2 ⟨hf, n, hn⟩] at hi'
      cases hi'

theorem except_map_ok {α β : Type} {f : α → β} {x : Except JErr α} {b : β} :
    x.map f = .ok b ↔ ∃ a, x = .ok a ∧ f a = b := by
  cases x with
  | error e => exact ⟨fun h => (by cases h), fun ⟨_, h, _⟩ => (by cases h)⟩
  | ok a =>
    constructor
    · intro h; cases h; exact ⟨a, rfl, rfl⟩
    · rintro ⟨_, h, rfl⟩; cases h; rfl

theorem orErr_ok {α : Type} {x : Option α} {a : α} : orErr x = .ok a ↔ x = some a := by
  cases x with
  | none => exact ⟨fun h => (by cases h), fun h => (by cases h)⟩
  | some b =>
    constructor
    · intro h; cases h; rfl
    · intro h; cases h; rfl

/-- The visitors, when the limit cast to a double is exact. -/
theorem visitInt_iff {lo hi hiF : Int} {parse : List Char → Option Int} (hhi : hi ≤ hiF) {j : Json}
    (hj : ∀ x n, j = .float x → IntValue j n → hi < n → hiF < n)
    (hp : ∀ s v, j = .str s → (parse s = some v ↔ IntNumeral s v ∧ lo ≤ v ∧ v ≤ hi)) {v : Int} :
    visitInt lo hi hiF parse j = .ok v ↔ IntValue j v ∧ lo ≤ v ∧ v ≤ hi := by
  have ht : ∀ n : Int, tryInto lo hi n = .ok v ↔ v = n ∧ lo ≤ v ∧ v ≤ hi := by
    intro n
    unfold tryInto
    split
    · constructor
      · intro h; cases h; exact ⟨rfl, by assumption⟩
      · rintro ⟨rfl, _⟩; rfl
    · constructor
      · intro h; cases h
      · rintro ⟨rfl, h⟩; contradiction
  cases j with
  | uint w => exact ht _
  | sint w => exact ht _
  | float x =>
    show visitF64 lo hi hiF x = .ok v ↔ _
    rw [visitF64_eq]
    constructor
    · rintro ⟨n, h1, h2, h3, rfl⟩
      have : ¬ hi < n := fun h => by have := hj x n rfl h1 h; omega
      have e : clamp lo hi n = n := by unfold clamp; rw [if_neg (by omega), if_neg this]
      rw [e]
      exact ⟨h1, h2, by omega⟩
    · rintro ⟨h1, h2, h3⟩
      refine ⟨v, h1, h2, by omega, ?_⟩
      unfold clamp
      rw [if_neg (by omega), if_neg (by omega)]
  | str s =>
    show orErr (parse s) = .ok v ↔ _
    rw [orErr_ok]
    exact hp s v rfl
  | null => exact ⟨fun h => (by cases h), fun h => h.1.elim⟩
  | bool b => exact ⟨fun h => (by cases h), fun h => h.1.elim⟩
  | arr xs => exact ⟨fun h => (by cases h), fun h => h.1.elim⟩
  | obj es => exact ⟨fun h => (by cases h), fun h => h.1.elim⟩

theorem visit_signed {bits : Nat} (hb : 0 < bits) {hiF : Int} (hF : 2 ^ (bits - 1) - 1 ≤ hiF) {j : Json}
    (hj : ∀ x n, j = .float x → IntValue j n → (2 : Int) ^ (bits - 1) - 1 < n → hiF < n) {v : BitVec bits} :
    (visitInt (-2 ^ (bits - 1)) (2 ^ (bits - 1) - 1) hiF (fun s => (parseSigned bits s).map (·.toInt)) j).map
      (BitVec.ofInt bits) = .ok v ↔ IntValue j v.toInt := by
  have rng : ∀ w : BitVec bits, -(2 : Int) ^ (bits - 1) ≤ w.toInt ∧ w.toInt ≤ (2 : Int) ^ (bits - 1) - 1 := by
    intro w
    have h1 := BitVec.le_toInt w
    have h2 := BitVec.toInt_lt (x := w)
    omega
  have key : ∀ a, visitInt (-2 ^ (bits - 1)) (2 ^ (bits - 1) - 1) hiF
      (fun s => (parseSigned bits s).map (·.toInt)) j = .ok a ↔
      IntValue j a ∧ -(2 : Int) ^ (bits - 1) ≤ a ∧ a ≤ (2 : Int) ^ (bits - 1) - 1 := by
    intro a
    refine visitInt_iff hF hj ?_
    intro s w _
    constructor
    · intro h
      cases hp : parseSigned bits s with
      | none => simp [hp] at h
      | some u =>
        simp only [hp, Option.map_some, Option.some.injEq] at h
        subst h
        exact ⟨(parseSigned_iff hb).1 hp, rng u⟩
    · rintro ⟨h1, h2, h3⟩
      have e : (BitVec.ofInt bits w).toInt = w := by
        rw [BitVec.toInt_ofInt_eq_self hb] <;> omega
      have := (parseSigned_iff hb (v := BitVec.ofInt bits w)).2 (by rw [e]; exact h1)
      simp only [this, Option.map_some, e]
  rw [except_map_ok]
  constructor
  · rintro ⟨a, h, rfl⟩
    obtain ⟨h1, h2, h3⟩ := (key a).1 h
    rw [BitVec.toInt_ofInt_eq_self hb (by omega) (by omega)]
    exact h1
  · intro h
    exact ⟨v.toInt, (key _).2 ⟨h, rng v⟩, BitVec.ofInt_toInt⟩

theorem visit_unsigned {bits : Nat} {hiF : Int} (hF : 2 ^ bits - 1 ≤ hiF) {j : Json}
    (hj : ∀ x n, j = .float x → IntValue j n → (2 : Int) ^ bits - 1 < n → hiF < n)
    (hs : ∀ s, j ≠ .str ('-' :: s)) {v : BitVec bits} :
    (visitInt 0 (2 ^ bits - 1) hiF (fun s => (parseUnsigned bits s).map (fun v => (v.toNat : Int))) j).map
      (BitVec.ofInt bits) = .ok v ↔ IntValue j v.toNat := by
  have cast : ((2 ^ bits : Nat) : Int) = (2 : Int) ^ bits := by simp
  have rng : ∀ w : BitVec bits, 0 ≤ (w.toNat : Int) ∧ (w.toNat : Int) ≤ (2 : Int) ^ bits - 1 := by
    intro w
    have := w.isLt
    omega
  have key : ∀ a, visitInt 0 (2 ^ bits - 1) hiF
      (fun s => (parseUnsigned bits s).map (fun v => (v.toNat : Int))) j = .ok a ↔
      IntValue j a ∧ 0 ≤ a ∧ a ≤ (2 : Int) ^ bits - 1 := by
    intro a
    refine visitInt_iff hF hj ?_
    intro s w hjs
    constructor
    · intro h
      cases hp : parseUnsigned bits s with
      | none => simp [hp] at h
      | some u =>
        simp only [hp, Option.map_some, Option.some.injEq] at h
        subst h
        obtain ⟨ds, h1, h2, h3, h4⟩ := parseUnsigned_iff.1 hp
        exact ⟨⟨ds, h2, h3, Or.inl ⟨h1, by rw [h4]⟩⟩, rng u⟩
    · rintro ⟨⟨ds, h1, h2, h3⟩, h4, h5⟩
      rcases h3 with ⟨h3, h6⟩ | ⟨h3, h6⟩
      · have e : (BitVec.ofNat bits w.toNat).toNat = w.toNat := by
          rw [BitVec.toNat_ofNat, Nat.mod_eq_of_lt (by omega)]
        have := (parseUnsigned_iff (bits := bits) (v := BitVec.ofNat bits w.toNat)).2
          (by rw [e]; exact ⟨ds, h3, h1, h2, by omega⟩)
        simp only [this, Option.map_some, e]
        rw [Int.toNat_of_nonneg h4]
      · exact absurd (by rw [hjs, h3]) (hs ds)
  rw [except_map_ok]
  have e : ∀ a : Int, 0 ≤ a → a ≤ (2 : Int) ^ bits - 1 → ((BitVec.ofInt bits a).toNat : Int) = a := by
    intro a h1 h2
    rw [BitVec.toNat_ofInt, Int.emod_eq_of_lt h1 (by omega)]
    omega
  constructor
  · rintro ⟨a, h, rfl⟩
    obtain ⟨h1, h2, h3⟩ := (key a).1 h
    rw [e a h2 h3]
    exact h1
  · intro h
    refine ⟨(v.toNat : Int), (key _).2 ⟨h, rng v⟩, ?_⟩
    apply BitVec.eq_of_toNat_eq
    have := e v.toNat (rng v).1 (rng v).2
    omega

/-! ### C41 -/

/-- C41: a JSON value is accepted for a 32-bit signed field exactly when it denotes an integer
in range, and then yields it. -/
theorem C41_int32 (j : Json) (v : BitVec 32) : visitI32 j = .ok v ↔ IntValue j v.toInt :=
  visit_signed (bits := 32) (by decide) (by decide) (fun _ _ _ _ h => h)

/-- The same for 64-bit signed fields.  Partial: the double `2^63` is excluded, see
`C41_int64_false`. -/
theorem C41_int64_partial (j : Json) (hj : ¬ IntValue j (2 ^ 63)) (v : BitVec 64) :
    visitI64 j = .ok v ↔ IntValue j v.toInt := by
  refine visit_signed (bits := 64) (by decide) (by decide) ?_
  intro x n _ hn h
  have : n ≠ 2 ^ 63 := by rintro rfl; exact hj hn
  omega

/-- The same for 32-bit unsigned fields.  Partial: strings beginning with a minus sign are
excluded, see `C41_minus_zero_false`. -/
theorem C41_uint32_partial (j : Json) (hs : ∀ s, j ≠ .str ('-' :: s)) (v : BitVec 32) :
    visitU32 j = .ok v ↔ IntValue j v.toNat :=
  visit_unsigned (bits := 32) (by decide) (fun _ _ _ _ h => h) hs

/-- The same for 64-bit unsigned fields.  Partial: also the double `2^64` is excluded, see
`C41_uint64_false`. -/
theorem C41_uint64_partial (j : Json) (hs : ∀ s, j ≠ .str ('-' :: s)) (hj : ¬ IntValue j (2 ^ 64))
    (v : BitVec 64) : visitU64 j = .ok v ↔ IntValue j v.toNat := by
  refine visit_unsigned (bits := 64) (by decide) ?_ hs
  intro x n _ hn h
  have : n ≠ 2 ^ 64 := by rintro rfl; exact hj hn
  omega

/-- A string beginning with a minus sign is never accepted for an unsigned field. -/
theorem C41_minus (s : List Char) :
    visitU32 (.str ('-' :: s)) = .error .err ∧ visitU64 (.str ('-' :: s)) = .error .err := by
  have h : ∀ bits, parseUnsigned bits ('-' :: s) = none := by
    intro bits
    cases hp : parseUnsigned bits ('-' :: s) with
    | none => rfl
    | some u =>
      obtain ⟨ds, h1, _, h3, _⟩ := parseUnsigned_iff.1 hp
      rcases h1 with h1 | h1
      · exact absurd (h3 '-' (h1 ▸ List.mem_cons_self)) (by decide)
      · cases h1
  constructor
  · simp [visitU32, visitInt, h, orErr, Except.map]
  · simp [visitU64, visitInt, h, orErr, Except.map]

/-- C41 fails for 64-bit signed fields: the double `2^63` (`9223372036854775808.0`) is not
representable and is nevertheless accepted, as `2^63 - 1`. -/
theorem C41_int64_false : ∃ x : BitVec 64,
    IntValue (.float x) (2 ^ 63) ∧ visitI64 (.float x) = .ok (BitVec.ofInt 64 (2 ^ 63 - 1)) :=
  ⟨0x43E0000000000000#64, ⟨by decide +kernel, by decide +kernel⟩, by decide +kernel⟩

/-- C41 fails for 64-bit unsigned fields: the double `2^64` is accepted as `2^64 - 1`. -/
theorem C41_uint64_false : ∃ x : BitVec 64,
    IntValue (.float x) (2 ^ 64) ∧ visitU64 (.float x) = .ok (BitVec.ofInt 64 (2 ^ 64 - 1)) :=
  ⟨0x43F0000000000000#64, ⟨by decide +kernel, by decide +kernel⟩, by decide +kernel⟩

/-- C41 fails for unsigned fields: the string `"-0"` denotes zero and is rejected, although the
number `-0.0` is accepted. -/
theorem C41_minus_zero_false :
    IntValue (.str "-0".toList) 0 ∧ visitU32 (.str "-0".toList) = .error .err ∧
    IntValue (.float 0x8000000000000000#64) 0 ∧ visitU32 (.float 0x8000000000000000#64) = .ok 0#32 :=
  ⟨⟨['0'], by decide, by decide, Or.inr ⟨rfl, by decide⟩⟩, (C41_minus ['0']).1, ⟨by decide +kernel, by decide +kernel⟩,
   by decide +kernel⟩

/-- `-2147483648.0`, `"+7"`, `4294967295`, and a fraction. -/
example : visitI32 (.float 0xC1E0000000000000#64) = .ok (BitVec.ofInt 32 (-2147483648)) := by decide +kernel
example : visitI64 (.str "+7".toList) = .ok 7#64 := by decide +kernel
example : visitU32 (.uint 4294967295#64) = .ok 4294967295#32 := by decide +kernel
example : visitI32 (.uint 4294967295#64) = .error .err := by decide +kernel
example : visitI32 (.float 0x3FF8000000000000#64) = .error .err := by decide +kernel
example : ¬ IntValue (.float 0x3FF8000000000000#64) (2 ^ 63) := by
  rintro ⟨_, h⟩; revert h; decide +kernel

end Verif.Props
