import Verif.Num
/-!
The C-escape decoder for defaults of bytes fields: what it accepts.
-/
set_option autoImplicit false
namespace Verif.Pool
open Verif.Wire Verif.Dyn

/-- The single-letter escapes of C: `\a \b \f \n \r \t \v \\ \? \' \"`. -/
def escapeTable : List (UInt8 × UInt8) :=
  [(97, 7), (98, 8), (102, 12), (110, 10), (114, 13), (116, 9), (118, 11), (92, 92), (63, 63),
   (39, 39), (34, 34)]

def octDigit (b : UInt8) : Prop := 48 ≤ b.toNat ∧ b.toNat ≤ 55
def notOctNext (r : Bytes) : Prop := ∀ d t, r = d :: t → ¬ octDigit d

/-- Value of a hexadecimal digit. -/
def HexDigit (b : UInt8) (v : Nat) : Prop :=
  (48 ≤ b.toNat ∧ b.toNat ≤ 57 ∧ v = b.toNat - 48) ∨
  (97 ≤ b.toNat ∧ b.toNat ≤ 102 ∧ v = b.toNat - 97 + 10) ∨
  (65 ≤ b.toNat ∧ b.toNat ≤ 70 ∧ v = b.toNat - 65 + 10)

/-- `Unesc s out`: the escaped string `s` denotes the bytes `out`.  Octal escapes take as many
digits as there are, at most three, and must be below 256; hexadecimal escapes take exactly
two characters, of which the first may be a plus sign. -/
inductive Unesc : Bytes → Bytes → Prop where
  | nil : Unesc [] []
  | plain (c : UInt8) (r out : Bytes) : c ≠ 92 → Unesc r out → Unesc (c :: r) (c :: out)
  | simple (e b : UInt8) (r out : Bytes) : (e, b) ∈ escapeTable → Unesc r out →
      Unesc (92 :: e :: r) (b :: out)
  | oct1 (a : UInt8) (r out : Bytes) : octDigit a → notOctNext r → Unesc r out →
      Unesc (92 :: a :: r) (UInt8.ofNat (a.toNat - 48) :: out)
  | oct2 (a b : UInt8) (r out : Bytes) : octDigit a → octDigit b → notOctNext r → Unesc r out →
      Unesc (92 :: a :: b :: r) (UInt8.ofNat ((a.toNat - 48) * 8 + (b.toNat - 48)) :: out)
  | oct3 (a b c : UInt8) (r out : Bytes) : octDigit a → octDigit b → octDigit c →
      (a.toNat - 48) * 64 + (b.toNat - 48) * 8 + (c.toNat - 48) < 256 → Unesc r out →
      Unesc (92 :: a :: b :: c :: r)
        (UInt8.ofNat ((a.toNat - 48) * 64 + (b.toNat - 48) * 8 + (c.toNat - 48)) :: out)
  | hex (x a b : UInt8) (v w : Nat) (r out : Bytes) : x = 120 ∨ x = 88 → HexDigit a v →
      HexDigit b w → boundary r.head? = true → Unesc r out →
      Unesc (92 :: x :: a :: b :: r) (UInt8.ofNat (v * 16 + w) :: out)
  | plus (x b : UInt8) (w : Nat) (r out : Bytes) : x = 120 ∨ x = 88 → HexDigit b w →
      boundary r.head? = true → Unesc r out → Unesc (92 :: x :: 43 :: b :: r) (UInt8.ofNat w :: out)

theorem hexVal_iff {b : UInt8} {v : Nat} : hexVal b = some v ↔ HexDigit b v := by
  simp only [hexVal, HexDigit]
  split
  · simp only [Option.some.injEq]; omega
  · split
    · simp only [Option.some.injEq]; omega
    · split
      · simp only [Option.some.injEq]; omega
      · simp only [reduceCtorEq, false_iff]; omega

theorem simpleEscape_iff {e b : UInt8} : simpleEscape e = some b ↔ (e, b) ∈ escapeTable := by
  simp only [simpleEscape, escapeTable, List.mem_cons, Prod.mk.injEq, List.not_mem_nil, or_false]
  constructor
  · intro h
    repeat' split at h
    all_goals simp_all
  · rintro (h | h | h | h | h | h | h | h | h | h | h) <;> obtain ⟨rfl, rfl⟩ := h <;> rfl

theorem isOctal_iff {b : UInt8} : isOctal b = true ↔ octDigit b := by
  simp [isOctal, octDigit]

theorem consRes_ok {b : UInt8} {k : Res (Option Bytes)} {o : Bytes} :
    consRes b k = .ok (some o) ↔ ∃ t, k = .ok (some t) ∧ o = b :: t := by
  cases k with
  | error p => simp [consRes]
  | ok r =>
    cases r with
    | none => simp [consRes]
    | some t => simp [consRes, eq_comm]

theorem octThen_ok {v : Res Nat} {k : Res (Option Bytes)} {o : Bytes} :
    octThen v k = .ok (some o) ↔ ∃ n t, v = .ok n ∧ k = .ok (some t) ∧ o = UInt8.ofNat n :: t := by
  cases v with
  | error p => simp [octThen]
  | ok n => simp [octThen, consRes_ok]

theorem oct1_ok {c : Bool} {a : UInt8} (h : octDigit a) : octStep c 0 a = .ok (a.toNat - 48) := by
  unfold octDigit at h
  simp only [octStep]
  rw [if_pos (by omega)]
  congr 1; omega

theorem oct2_ok {c : Bool} {a b : UInt8} (ha : octDigit a) (hb : octDigit b) :
    bindNat (octStep c 0 a) (octStep c · b) = .ok ((a.toNat - 48) * 8 + (b.toNat - 48)) := by
  rw [oct1_ok ha]
  unfold octDigit at ha hb
  simp only [bindNat, octStep]
  rw [if_pos (by omega)]

theorem oct3_eq {c : Bool} {a b d : UInt8} (ha : octDigit a) (hb : octDigit b) :
    bindNat (bindNat (octStep c 0 a) (octStep c · b)) (octStep c · d) =
      octStep c ((a.toNat - 48) * 8 + (b.toNat - 48)) d := by
  rw [oct2_ok ha hb]; rfl

theorem hexPair_iff {a b v : UInt8} : hexPair a b = some v ↔
    (a = 43 ∧ ∃ w, HexDigit b w ∧ v = UInt8.ofNat w) ∨
    (∃ x w, HexDigit a x ∧ HexDigit b w ∧ v = UInt8.ofNat (x * 16 + w)) := by
  unfold hexPair
  by_cases h : a = 43
  · subst h
    have h43 : ∀ x, ¬ HexDigit 43 x := by
      intro x; simp only [HexDigit, show (43 : UInt8).toNat = 43 from rfl]; omega
    simp only [if_true, Option.map_eq_some_iff, hexVal_iff, true_and, h43, false_and, exists_false,
      or_false, @eq_comm _ _ v]
  · simp only [h, if_false, false_and, false_or]
    cases ha : hexVal a with
    | none =>
      have : ∀ x, ¬ HexDigit a x := fun x hx => by rw [hexVal_iff.2 hx] at ha; cases ha
      simp [this]
    | some x =>
      cases hb : hexVal b with
      | none =>
        have : ∀ x, ¬ HexDigit b x := fun x hx => by rw [hexVal_iff.2 hx] at hb; cases hb
        simp [this]
      | some y =>
        simp only [Option.some.injEq]
        constructor
        · rintro rfl; exact ⟨x, y, hexVal_iff.1 ha, hexVal_iff.1 hb, rfl⟩
        · rintro ⟨x', y', h1, h2, rfl⟩
          rw [hexVal_iff.2 h1] at ha; rw [hexVal_iff.2 h2] at hb
          cases ha; cases hb; rfl

theorem octDigit_not_escape {a : UInt8} (h : octDigit a) : simpleEscape a = none := by
  cases hs : simpleEscape a with
  | none => rfl
  | some b =>
    have := simpleEscape_iff.1 hs
    unfold octDigit at h
    simp only [escapeTable, List.mem_cons, Prod.mk.injEq, List.not_mem_nil, or_false] at this
    rcases this with h' | h' | h' | h' | h' | h' | h' | h' | h' | h' | h' <;>
      (obtain ⟨rfl, _⟩ := h'; exact absurd h (by decide))

theorem u_simple {c : Bool} {e b : UInt8} {r : Bytes} (h : simpleEscape e = some b) :
    unescape c (92 :: e :: r) = consRes b (unescape c r) := by
  rw [unescape.eq_def]; simp [h]

theorem u_oct1 {c : Bool} {a : UInt8} {r : Bytes} (ha : octDigit a) (hr : notOctNext r) :
    unescape c (92 :: a :: r) = octThen (octStep c 0 a) (unescape c r) := by
  rw [unescape.eq_def]
  simp only [octDigit_not_escape ha, isOctal_iff.2 ha]
  cases r with
  | nil => rfl
  | cons d t =>
    have : isOctal d = false := by
      rw [← Bool.not_eq_true, isOctal_iff]; exact hr d t rfl
    simp [this]

theorem u_oct2 {c : Bool} {a b : UInt8} {r : Bytes} (ha : octDigit a) (hb : octDigit b)
    (hr : notOctNext r) : unescape c (92 :: a :: b :: r) =
      octThen (bindNat (octStep c 0 a) (octStep c · b)) (unescape c r) := by
  rw [unescape.eq_def]
  simp only [octDigit_not_escape ha, isOctal_iff.2 ha, isOctal_iff.2 hb]
  cases r with
  | nil => rfl
  | cons d t =>
    have : isOctal d = false := by
      rw [← Bool.not_eq_true, isOctal_iff]; exact hr d t rfl
    simp [this]

theorem u_oct3 {c : Bool} {a b d : UInt8} {r : Bytes} (ha : octDigit a) (hb : octDigit b)
    (hd : octDigit d) : unescape c (92 :: a :: b :: d :: r) =
      octThen (octStep c ((a.toNat - 48) * 8 + (b.toNat - 48)) d) (unescape c r) := by
  rw [unescape.eq_def]
  simp only [octDigit_not_escape ha, isOctal_iff.2 ha, isOctal_iff.2 hb, isOctal_iff.2 hd,
    oct3_eq ha hb]
  rfl

theorem u_hex {c : Bool} {x a b v : UInt8} {r : Bytes} (hx : x = 120 ∨ x = 88)
    (h : hexPair a b = some v) (hr : boundary r.head? = true) :
    unescape c (92 :: x :: a :: b :: r) = consRes v (unescape c r) := by
  have ha : boundary (some a) = true := by
    have hd : ∀ n, HexDigit a n → a.toNat < 128 := by intro n hn; unfold HexDigit at hn; omega
    have : a.toNat < 128 := by
      rcases hexPair_iff.1 h with ⟨rfl, _⟩ | ⟨n, _, hn, _⟩
      · decide
      · exact hd n hn
    simp only [boundary]
    simp; omega
  have h1 : simpleEscape x = none := by rcases hx with rfl | rfl <;> rfl
  have h2 : isOctal x = false := by rcases hx with rfl | rfl <;> rfl
  rw [unescape.eq_def]
  simp [h1, h2, hx, ha, hr, h]

/-- With overflow checks the decoder accepts exactly the strings that denote bytes. -/
theorem unescape_iff (s out : Bytes) : unescape true s = .ok (some out) ↔ Unesc s out := by
  constructor
  · intro h
    fun_induction unescape true s generalizing out with
    | case1 => simp at h; subst h; exact .nil
    | case2 c r hc ih =>
      obtain ⟨t, h1, rfl⟩ := consRes_ok.1 h
      exact .plain _ _ _ hc (ih _ h1)
    | case3 => cases h
    | case4 c hc e r b he ih =>
      obtain ⟨t, h1, rfl⟩ := consRes_ok.1 h
      cases Classical.not_not.1 hc
      exact .simple _ _ _ _ (simpleEscape_iff.1 he) (ih _ h1)
    | case5 c hc a he ha ih =>
      cases Classical.not_not.1 hc
      rw [oct1_ok (isOctal_iff.1 ha)] at h
      obtain ⟨n, t, h0, h1, rfl⟩ := octThen_ok.1 h
      cases h0
      exact .oct1 _ _ _ (isOctal_iff.1 ha) (by intro d t h; cases h) (ih _ h1)
    | case6 c hc a he ha b hb ih =>
      cases Classical.not_not.1 hc
      rw [oct2_ok (isOctal_iff.1 ha) (isOctal_iff.1 hb)] at h
      obtain ⟨n, t, h0, h1, rfl⟩ := octThen_ok.1 h
      cases h0
      exact .oct2 _ _ _ _ (isOctal_iff.1 ha) (isOctal_iff.1 hb) (by intro d t h; cases h) (ih _ h1)
    | case7 c hc a he ha b hb d r hd ih =>
      cases Classical.not_not.1 hc
      rw [oct3_eq (isOctal_iff.1 ha) (isOctal_iff.1 hb)] at h
      obtain ⟨n, t, h0, h1, rfl⟩ := octThen_ok.1 h
      simp only [octStep, if_true] at h0
      split at h0
      · next hlt =>
        cases h0
        have e : ((a.toNat - 48) * 8 + (b.toNat - 48)) * 8 + (d.toNat - 48) =
          (a.toNat - 48) * 64 + (b.toNat - 48) * 8 + (d.toNat - 48) := by omega
        rw [e] at hlt ⊢
        exact .oct3 _ _ _ _ _ (isOctal_iff.1 ha) (isOctal_iff.1 hb) (isOctal_iff.1 hd) hlt (ih _ h1)
      · cases h0
    | case8 c hc a he ha b hb d r hd ih =>
      cases Classical.not_not.1 hc
      rw [oct2_ok (isOctal_iff.1 ha) (isOctal_iff.1 hb)] at h
      obtain ⟨n, t, h0, h1, rfl⟩ := octThen_ok.1 h
      cases h0
      exact .oct2 _ _ _ _ (isOctal_iff.1 ha) (isOctal_iff.1 hb)
        (by rintro d' t' ⟨rfl, rfl⟩; rwa [← isOctal_iff]) (ih _ h1)
    | case9 c hc a he ha d r hd ih =>
      cases Classical.not_not.1 hc
      rw [oct1_ok (isOctal_iff.1 ha)] at h
      obtain ⟨n, t, h0, h1, rfl⟩ := octThen_ok.1 h
      cases h0
      exact .oct1 _ _ _ (isOctal_iff.1 ha) (by rintro d' t' ⟨rfl, rfl⟩; rwa [← isOctal_iff]) (ih _ h1)
    | case10 c hc x he ha hx a b r hr v hp ih =>
      cases Classical.not_not.1 hc
      obtain ⟨t, h1, rfl⟩ := consRes_ok.1 h
      simp only [Bool.and_eq_true] at hr
      rcases hexPair_iff.1 hp with ⟨rfl, w, hw, rfl⟩ | ⟨v, w, hv, hw, rfl⟩
      · exact .plus _ _ _ _ _ hx hw hr.2 (ih _ h1)
      · exact .hex _ _ _ _ _ _ _ hx hv hw hr.2 (ih _ h1)
    | case11 => cases h
    | case12 => cases h
    | case13 => cases h
    | case14 => cases h
  · intro h
    induction h with
    | nil => rfl
    | plain c r out hc _ ih => rw [unescape.eq_def]; simp [hc, ih, consRes]
    | simple e b r out he _ ih => rw [u_simple (simpleEscape_iff.2 he), ih]; rfl
    | oct1 a r out ha hr _ ih => rw [u_oct1 ha hr, ih, oct1_ok ha]; rfl
    | oct2 a b r out ha hb hr _ ih => rw [u_oct2 ha hb hr, ih, oct2_ok ha hb]; rfl
    | oct3 a b d r out ha hb hd hlt _ ih =>
      rw [u_oct3 ha hb hd, ih, octStep]
      simp only
      rw [if_pos (by omega)]
      have e : ((a.toNat - 48) * 8 + (b.toNat - 48)) * 8 + (d.toNat - 48) =
        (a.toNat - 48) * 64 + (b.toNat - 48) * 8 + (d.toNat - 48) := by omega
      rw [e]; rfl
    | hex x a b v w r out hx ha hb hr _ ih =>
      rw [u_hex hx (hexPair_iff.2 (.inr ⟨v, w, ha, hb, rfl⟩)) hr, ih]; rfl
    | plus x b w r out hx hb hr _ ih =>
      rw [u_hex hx (hexPair_iff.2 (.inl ⟨rfl, w, hb, rfl⟩)) hr, ih]; rfl

end Verif.Pool
