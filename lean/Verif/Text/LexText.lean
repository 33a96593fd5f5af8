import Verif.Text.LexLemmas
/-!
What the lexer makes of identifiers, punctuation, white space and numbers.
-/
set_option autoImplicit false
namespace Verif.Text
open Verif.Wire Verif.Dyn Verif.Pool

/-- The text after a token that must not grow into it: not an identifier character and not
a point. -/
def Stop (r : List Char) : Prop := ∀ c t, r = c :: t → cIdent c = false ∧ c ≠ '.'

theorem Stop.nil : Stop [] := fun _ _ h => by cases h

theorem Stop.cons {c : Char} {t : List Char} (h : cIdent c = false) (h' : c ≠ '.') : Stop (c :: t) := by
  intro c' t' e
  cases e
  exact ⟨h, h'⟩

/-- `p` holds for no first character of `r`. -/
def Halts (p : Char → Bool) (r : List Char) : Prop := ∀ c t, r = c :: t → p c = false

theorem Halts.nil {p : Char → Bool} : Halts p [] := fun _ _ h => by cases h
theorem Halts.cons {p : Char → Bool} {c : Char} {t : List Char} (h : p c = false) : Halts p (c :: t) := by
  intro c' t' e
  cases e
  exact h

theorem takeWhile_halts {p : Char → Bool} {r : List Char} (h : Halts p r) : r.takeWhile p = [] := by
  cases r with
  | nil => rfl
  | cons c t => simp [List.takeWhile_cons, h c t rfl]

theorem dropWhile_halts {p : Char → Bool} {r : List Char} (h : Halts p r) : r.dropWhile p = r := by
  cases r with
  | nil => rfl
  | cons c t => simp [List.dropWhile_cons, h c t rfl]

theorem takeWhile_run {p : Char → Bool} {s r : List Char} (hs : ∀ c ∈ s, p c = true) (h : Halts p r) :
    (s ++ r).takeWhile p = s := by
  rw [List.takeWhile_append_of_pos hs, takeWhile_halts h, List.append_nil]

theorem dropWhile_run {p : Char → Bool} {s r : List Char} (hs : ∀ c ∈ s, p c = true) (h : Halts p r) :
    (s ++ r).dropWhile p = r := by
  rw [List.dropWhile_append_of_pos hs, dropWhile_halts h]

theorem run1_run {p : Char → Bool} {s r : List Char} (hs : ∀ c ∈ s, p c = true) (hne : s ≠ [])
    (h : Halts p r) : run1 p (s ++ r) = some (s, r) := by
  rw [run1, takeWhile_run hs h, dropWhile_run hs h, if_neg hne]

theorem run1_none {p : Char → Bool} {r : List Char} (h : Halts p r) : run1 p r = none := by
  rw [run1, takeWhile_halts h, if_pos rfl]

/-! ### Character classes -/

theorem inR_iff {lo hi : Nat} {c : Char} : inR lo hi c = true ↔ lo ≤ c.toNat ∧ c.toNat ≤ hi := by
  simp [inR]

theorem inR_false {lo hi : Nat} {c : Char} : inR lo hi c = false ↔ ¬ (lo ≤ c.toNat ∧ c.toNat ≤ hi) := by
  rw [← inR_iff, Bool.not_eq_true]

theorem char_ne {c d : Char} (h : c.toNat ≠ d.toNat) : c ≠ d := fun e => h (by rw [e])

theorem cIdent_of_digit {c : Char} (h : cDigit c = true) : cIdent c = true := by
  simp [cIdent, h]

theorem cIdent_of_alpha {c : Char} (h : cIdStart c = true) : cIdent c = true := by
  simp [cIdent, h]

theorem cDigit_of_octal {c : Char} (h : cOctal c = true) : cDigit c = true := by
  unfold cOctal at h
  unfold cDigit
  rw [inR_iff] at *
  omega

theorem cIdent_of_hex {c : Char} (h : cHex c = true) : cIdent c = true := by
  unfold cHex at h
  simp only [cIdent, cIdStart, cAlpha, cDigit, Bool.or_eq_true, inR_iff, beq_iff_eq] at *
  omega

theorem Stop.halts {p : Char → Bool} {r : List Char} (h : Stop r)
    (hp : ∀ c, p c = true → cIdent c = true) : Halts p r := by
  intro c t e
  cases hc : p c with
  | false => rfl
  | true =>
    have := (h c t e).1
    rw [hp c hc] at this
    cases this

theorem Stop.digit {r : List Char} (h : Stop r) : Halts cDigit r := h.halts (fun _ => cIdent_of_digit)
theorem Stop.octal {r : List Char} (h : Stop r) : Halts cOctal r :=
  h.halts (fun _ hc => cIdent_of_digit (cDigit_of_octal hc))
theorem Stop.hex {r : List Char} (h : Stop r) : Halts cHex r := h.halts (fun _ => cIdent_of_hex)
theorem Stop.ident {r : List Char} (h : Stop r) : Halts cIdent r := h.halts (fun _ h => h)
theorem Stop.idStart {r : List Char} (h : Stop r) : Halts cIdStart r := h.halts (fun _ => cIdent_of_alpha)
theorem Stop.f {r : List Char} (h : Stop r) : Halts cF r := by
  refine h.halts (fun c hc => ?_)
  simp only [cF, Bool.or_eq_true, beq_iff_eq] at hc
  rcases hc with rfl | rfl <;> decide

theorem optF_halts {r : List Char} (h : Halts cF r) : optF r = r := by
  cases r with
  | nil => rfl
  | cons c t => simp [optF, h c t rfl]

theorem expo_none {r : List Char} (h : Halts (fun c => c == 'e' || c == 'E') r) : expo r = none := by
  cases r with
  | nil => rfl
  | cons c t =>
    have := h c t rfl
    simp only [Bool.or_eq_false_iff, beq_eq_false_iff_ne, ne_eq] at this
    simp [expo, this.1, this.2]

theorem Stop.expo {r : List Char} (h : Stop r) : Text.expo r = none := by
  refine expo_none (h.halts (fun c hc => ?_))
  simp only [Bool.or_eq_true, beq_iff_eq] at hc
  rcases hc with rfl | rfl <;> decide

theorem Stop.optExpo {r : List Char} (h : Stop r) : Text.optExpo r = ([], r) := by
  unfold Text.optExpo
  rw [h.expo]

/-! ### Which patterns match -/

theorem longer_left {a b : Option (Num × List Char)} {x : Num × List Char} (h : a = some x)
    (hb : ∀ y, b = some y → x.2.length ≤ y.2.length) : longer a b = some x := by
  subst h
  cases b with
  | none => rfl
  | some y =>
    have := hb y rfl
    rw [longer, if_neg (by omega)]

theorem longer_right {a b : Option (Num × List Char)} {x : Num × List Char} (h : b = some x)
    (ha : ∀ y, a = some y → x.2.length < y.2.length) : longer a b = some x := by
  subst h
  cases a with
  | none => rfl
  | some y => rw [longer, if_pos (ha y rfl)]

theorem longer_none_left {b : Option (Num × List Char)} : longer none b = b := by
  cases b <;> rfl

theorem longer_none_right {a : Option (Num × List Char)} : longer a none = a := by
  cases a <;> rfl

/-- No number starts with a character that is neither a digit nor a point. -/
theorem lexNum_none {c : Char} {r : List Char} (hd : cDigit c = false) (hp : c ≠ '.' ∨ Halts cDigit r) :
    lexNum (c :: r) = none := by
  have h0 : c ≠ '0' := by
    rintro rfl
    revert hd
    decide
  have h19 : inR 49 57 c = false := by
    unfold cDigit at hd
    rw [inR_false] at *
    omega
  have hr : run1 cDigit (c :: r) = none := run1_none (Halts.cons hd)
  have hf : reFrac (c :: r) = none := by
    rcases hp with hp | hp
    · simp [reFrac, hp]
    · simp only [reFrac, run1_none hp]
      split <;> rfl
  have hx : reHex (c :: r) = none := by
    cases r with
    | nil => rfl
    | cons d r => simp [reHex, h0]
  simp only [lexNum, reZero, reDec, reOct, reIntF, rePoint, reExp, hr, hf, hx, h0, h19, if_false,
    longer_none_left, Bool.false_eq_true]

theorem rePoint_none {s r : List Char} (hs : ∀ c ∈ s, cDigit c = true) (hne : s ≠ [])
    (hd : Halts cDigit r) (hp : Halts (· == '.') r) : rePoint (s ++ r) = none := by
  unfold rePoint
  rw [run1_run hs hne hd]
  split
  · rename_i d t h
    cases h
    have := hp '.' t rfl
    simp at this
  · rfl

theorem reExp_none {s r : List Char} (hs : ∀ c ∈ s, cDigit c = true) (hne : s ≠ [])
    (hd : Halts cDigit r) (he : expo r = none) : reExp (s ++ r) = none := by
  unfold reExp
  rw [run1_run hs hne hd]
  simp only [he]

theorem Stop.point {r : List Char} (h : Stop r) : Halts (· == '.') r := by
  intro c t e
  simpa using (h c t e).2

/-- `0`. -/
theorem lexNum_zero {r : List Char} (h : Stop r) : lexNum ('0' :: r) = some (.int ['0'] 10, r) := by
  have e1 : reZero ('0' :: r) = some (.int ['0'] 10, r) := rfl
  have e2 : reDec ('0' :: r) = none := rfl
  have e3 : reOct ('0' :: r) = none := by simp [reOct, run1_none h.octal]
  have e4 : reHex ('0' :: r) = none := by
    cases r with
    | nil => rfl
    | cons x r =>
      have hx := (h x r rfl).1
      have h1 : x ≠ 'x' := by
        rintro rfl
        revert hx
        decide
      have h2 : x ≠ 'X' := by
        rintro rfl
        revert hx
        decide
      simp [reHex, h1, h2]
  have e5 : reIntF ('0' :: r) = none := by
    cases r with
    | nil => rfl
    | cons x r => simp [reIntF, h.f x r rfl]
  have e6 : rePoint ('0' :: r) = none :=
    rePoint_none (s := ['0']) (by simp; decide) (by simp) h.digit h.point
  have e7 : reExp ('0' :: r) = none :=
    reExp_none (s := ['0']) (by simp; decide) (by simp) h.digit h.expo
  have e8 : reFrac ('0' :: r) = none := rfl
  simp only [lexNum, e1, e2, e3, e4, e5, e6, e7, e8, longer_none_left, longer_none_right]

theorem nonzero_digit {c : Char} (h : inR 49 57 c = true) : cDigit c = true ∧ c ≠ '0' ∧ c ≠ '.' := by
  unfold cDigit
  rw [inR_iff] at *
  refine ⟨by omega, ?_, ?_⟩
  · exact char_ne (by show c.toNat ≠ 48; omega)
  · exact char_ne (by show c.toNat ≠ 46; omega)

theorem reHex_head {c : Char} {r : List Char} (h : c ≠ '0') : reHex (c :: r) = none := by
  cases r with
  | nil => rfl
  | cons x r => simp [reHex, h]

/-- `[1-9][0-9]*`. -/
theorem lexNum_dec {c : Char} {ds r : List Char} (hc : inR 49 57 c = true)
    (hd : ∀ c ∈ ds, cDigit c = true) (h : Stop r) :
    lexNum (c :: (ds ++ r)) = some (.int (c :: ds) 10, r) := by
  obtain ⟨h1, h2, h3⟩ := nonzero_digit hc
  have e1 : reZero (c :: (ds ++ r)) = none := by simp [reZero, h2]
  have e2 : reDec (c :: (ds ++ r)) = some (.int (c :: ds) 10, r) := by
    simp [reDec, hc, takeWhile_run hd h.digit, dropWhile_run hd h.digit]
  have e3 : reOct (c :: (ds ++ r)) = none := by simp [reOct, h2]
  have e4 : reHex (c :: (ds ++ r)) = none := reHex_head h2
  have e5 : reIntF (c :: (ds ++ r)) = none := by
    simp only [reIntF, h2, if_false, hc, if_true, dropWhile_run hd h.digit]
    split
    · rename_i x t
      rw [if_neg]
      rw [h.f x t rfl]
      decide
    · rfl
  have hall : ∀ x ∈ c :: ds, cDigit x = true := by
    intro x hx
    rcases List.mem_cons.1 hx with rfl | hx
    · exact h1
    · exact hd x hx
  have e6 : rePoint (c :: (ds ++ r)) = none :=
    rePoint_none (s := c :: ds) hall (by simp) h.digit h.point
  have e7 : reExp (c :: (ds ++ r)) = none :=
    reExp_none (s := c :: ds) hall (by simp) h.digit h.expo
  have e8 : reFrac (c :: (ds ++ r)) = none := by simp [reFrac, h3]
  simp only [lexNum, e1, e2, e3, e4, e5, e6, e7, e8, longer_none_left, longer_none_right]

/-- `0[0-7]+`. -/
theorem lexNum_oct {ds r : List Char} (hne : ds ≠ []) (hd : ∀ c ∈ ds, cOctal c = true) (h : Stop r) :
    lexNum ('0' :: (ds ++ r)) = some (.int ds 8, r) := by
  have e1 : reZero ('0' :: (ds ++ r)) = some (.int ['0'] 10, ds ++ r) := rfl
  have e2 : reDec ('0' :: (ds ++ r)) = none := rfl
  have e3 : reOct ('0' :: (ds ++ r)) = some (.int ds 8, r) := by
    simp [reOct, run1_run hd hne h.octal]
  obtain ⟨x, xs, rfl⟩ : ∃ x xs, ds = x :: xs := by
    cases ds with
    | nil => exact absurd rfl hne
    | cons x xs => exact ⟨x, xs, rfl⟩
  have hx : cOctal x = true := hd x (by simp)
  have hxn : 48 ≤ x.toNat ∧ x.toNat ≤ 55 := inR_iff.1 hx
  have e4 : reHex ('0' :: (x :: xs ++ r)) = none := by
    have h1 : x ≠ 'x' := char_ne (by show x.toNat ≠ 120; omega)
    have h2 : x ≠ 'X' := char_ne (by show x.toNat ≠ 88; omega)
    simp [reHex, h1, h2]
  have e5 : reIntF ('0' :: (x :: xs ++ r)) = none := by
    have h1 : x ≠ 'f' := char_ne (by show x.toNat ≠ 102; omega)
    have h2 : x ≠ 'F' := char_ne (by show x.toNat ≠ 70; omega)
    simp [reIntF, cF, h1, h2]
  have hall : ∀ y ∈ '0' :: x :: xs, cDigit y = true := by
    intro y hy
    rcases List.mem_cons.1 hy with rfl | hy
    · decide
    · exact cDigit_of_octal (hd y hy)
  have e6 : rePoint ('0' :: (x :: xs ++ r)) = none :=
    rePoint_none (s := '0' :: x :: xs) hall (by simp) h.digit h.point
  have e7 : reExp ('0' :: (x :: xs ++ r)) = none :=
    reExp_none (s := '0' :: x :: xs) hall (by simp) h.digit h.expo
  have e8 : reFrac ('0' :: (x :: xs ++ r)) = none := rfl
  simp only [lexNum, e1, e2, e3, e4, e5, e6, e7, e8, longer_none_left, longer_none_right]
  refine longer_right rfl ?_
  intro y hy
  cases hy
  simp only [List.length_append, List.length_cons]
  omega

/-- `0[xX][0-9A-Fa-f]+`. -/
theorem lexNum_hex {x : Char} {ds r : List Char} (hx : x = 'x' ∨ x = 'X') (hne : ds ≠ [])
    (hd : ∀ c ∈ ds, cHex c = true) (h : Stop r) :
    lexNum ('0' :: x :: (ds ++ r)) = some (.int ds 16, r) := by
  have e1 : reZero ('0' :: x :: (ds ++ r)) = some (.int ['0'] 10, x :: (ds ++ r)) := rfl
  have e2 : reDec ('0' :: x :: (ds ++ r)) = none := rfl
  have hx' : cOctal x = false ∧ cF x = false ∧ cDigit x = false ∧ x ≠ '.' ∧ x ≠ 'e' ∧ x ≠ 'E' := by
    rcases hx with rfl | rfl <;> decide
  have e3 : reOct ('0' :: x :: (ds ++ r)) = none := by
    simp [reOct, run1_none (Halts.cons hx'.1)]
  have e4 : reHex ('0' :: x :: (ds ++ r)) = some (.int ds 16, r) := by
    simp only [reHex, true_and, if_pos hx, run1_run hd hne h.hex]
  have e5 : reIntF ('0' :: x :: (ds ++ r)) = none := by
    simp [reIntF, hx'.2.1]
  have e6 : rePoint ('0' :: x :: (ds ++ r)) = none :=
    rePoint_none (s := ['0']) (by simp; decide) (by simp) (Halts.cons hx'.2.2.1)
      (Halts.cons (by simpa using hx'.2.2.2.1))
  have e7 : reExp ('0' :: x :: (ds ++ r)) = none :=
    reExp_none (s := ['0']) (by simp; decide) (by simp) (Halts.cons hx'.2.2.1)
      (expo_none (Halts.cons (by simp [hx'.2.2.2.2.1, hx'.2.2.2.2.2])))
  have e8 : reFrac ('0' :: x :: (ds ++ r)) = none := rfl
  simp only [lexNum, e1, e2, e3, e4, e5, e6, e7, e8, longer_none_left, longer_none_right]
  refine longer_right rfl ?_
  intro y hy
  cases hy
  simp only [List.length_append, List.length_cons]
  omega

theorem dropWhile_ge {p : Char → Bool} (s : List Char) {r : List Char} (h : Halts p r) :
    r.length ≤ ((s ++ r).dropWhile p).length := by
  induction s with
  | nil => rw [List.nil_append, dropWhile_halts h]; exact Nat.le_refl _
  | cons c s ih =>
    rw [List.cons_append, List.dropWhile_cons]
    split
    · exact ih
    · simp only [List.length_cons, List.length_append]
      omega

theorem run1_ge {p : Char → Bool} {s r a t : List Char} (h : Halts p r)
    (e : run1 p (s ++ r) = some (a, t)) : r.length ≤ t.length := by
  unfold run1 at e
  split at e
  · cases e
  · cases e
    exact dropWhile_ge s h

/-- `[0-9]+\.[0-9]*`, with no exponent or suffix. -/
theorem lexNum_point {a b r : List Char} (hne : a ≠ []) (ha : ∀ c ∈ a, cDigit c = true)
    (hb : ∀ c ∈ b, cDigit c = true) (h : Stop r) :
    lexNum (a ++ ('.' :: (b ++ r))) = some (.float (a ++ ('.' :: b)), r) := by
  have hdot : Halts cDigit ('.' :: (b ++ r)) := Halts.cons (by decide)
  obtain ⟨c, as, rfl⟩ : ∃ x xs, a = x :: xs := by
    cases a with
    | nil => exact absurd rfl hne
    | cons x xs => exact ⟨x, xs, rfl⟩
  have hc : cDigit c = true := ha c (by simp)
  have has : ∀ x ∈ as, cDigit x = true := fun x hx => ha x (by simp [hx])
  have e6 : rePoint ((c :: as) ++ ('.' :: (b ++ r))) = some (.float ((c :: as) ++ ('.' :: b)), r) := by
    unfold rePoint
    rw [run1_run ha hne hdot]
    simp only [dropWhile_run hb h.digit, takeWhile_run hb h.digit, h.optExpo, optF_halts h.f,
      List.append_nil]
  have e7 : reExp ((c :: as) ++ ('.' :: (b ++ r))) = none :=
    reExp_none ha hne hdot (expo_none (Halts.cons (by decide)))
  have hcd : c ≠ '.' := by
    rintro rfl
    revert hc
    decide
  have e8 : reFrac ((c :: as) ++ ('.' :: (b ++ r))) = none := by simp [reFrac, hcd]
  have e4 : reHex ((c :: as) ++ ('.' :: (b ++ r))) = none := by
    cases as with
    | nil => simp [reHex]
    | cons x xs =>
      have hx : 48 ≤ x.toNat ∧ x.toNat ≤ 57 := inR_iff.1 (has x (by simp))
      have h1 : x ≠ 'x' := char_ne (by show x.toNat ≠ 120; omega)
      have h2 : x ≠ 'X' := char_ne (by show x.toNat ≠ 88; omega)
      simp [reHex, h1, h2]
  have e5 : reIntF ((c :: as) ++ ('.' :: (b ++ r))) = none := by
    rw [List.cons_append]
    unfold reIntF
    dsimp only
    split
    · cases as with
      | nil =>
        simp only [List.nil_append]
        rw [if_neg (by decide)]
      | cons x xs =>
        have hx : 48 ≤ x.toNat ∧ x.toNat ≤ 57 := inR_iff.1 (has x (by simp))
        have h1 : x ≠ 'f' := char_ne (by show x.toNat ≠ 102; omega)
        have h2 : x ≠ 'F' := char_ne (by show x.toNat ≠ 70; omega)
        simp [cF, h1, h2]
    · rw [dropWhile_run has hdot]
      split
      · simp only
        rw [if_neg (by decide)]
      · rfl
  simp only [lexNum, e4, e5, e6, e7, e8, longer_none_left, longer_none_right]
  refine longer_right (longer_right (longer_right rfl ?_) ?_) ?_
  · -- octal
    intro y hy
    obtain ⟨m, t⟩ := y
    rw [List.cons_append] at hy
    unfold reOct at hy
    dsimp only at hy
    split at hy
    · split at hy
      · rename_i d t' h1
        cases hy
        have := run1_ge (p := cOctal) (r := '.' :: (b ++ r)) (Halts.cons (by decide)) h1
        simp only [List.length_append, List.length_cons] at this ⊢
        omega
      · cases hy
    · cases hy
  · -- decimal
    intro y hy
    obtain ⟨m, t⟩ := y
    rw [List.cons_append] at hy
    unfold reDec at hy
    dsimp only at hy
    split at hy
    · cases hy
      have := dropWhile_ge (p := cDigit) as (r := '.' :: (b ++ r)) hdot
      simp only [List.length_append, List.length_cons] at this ⊢
      omega
    · cases hy
  · intro y hy
    obtain ⟨m, t⟩ := y
    rw [List.cons_append] at hy
    unfold reZero at hy
    dsimp only at hy
    split at hy <;> cases hy
    simp only [List.length_append, List.length_cons]
    omega

/-! ### Tokens -/

theorem digit_classes {c : Char} (h : cDigit c = true) :
    cSpace c = false ∧ c ≠ '#' ∧ cIdStart c = false ∧ ¬ (c = '\'' ∨ c = '"') := by
  have hc : 48 ≤ c.toNat ∧ c.toNat ≤ 57 := inR_iff.1 h
  refine ⟨?_, char_ne (by show c.toNat ≠ 35; omega), ?_, ?_⟩
  · have : c ≠ ' ' := char_ne (by show c.toNat ≠ 32; omega)
    simp only [cSpace, Bool.or_eq_false_iff, inR_false, beq_eq_false_iff_ne]
    exact ⟨by omega, this⟩
  · have : c ≠ '_' := char_ne (by show c.toNat ≠ 95; omega)
    simp only [cIdStart, cAlpha, Bool.or_eq_false_iff, inR_false, beq_eq_false_iff_ne]
    exact ⟨⟨by omega, by omega⟩, this⟩
  · rintro (rfl | rfl) <;> revert hc <;> decide

theorem lexStep_digit {fp : List Char → Option (BitVec 64)} {c : Char} {s : List Char}
    {m : Num × List Char} (hc : cDigit c = true) (h : lexNum (c :: s) = some m) :
    lexStep fp (c :: s) = numTok fp m := by
  obtain ⟨h1, h2, h3, h4⟩ := digit_classes hc
  simp only [lexStep, h1, h2, h3, h4, if_false, Bool.false_eq_true, h]

theorem numTok_int {fp : List Char → Option (BitVec 64)} {d : List Char} {x : Nat} {r : List Char}
    (h : Stop r) : numTok fp (.int d x, r) = .tok (.int d x) r := by
  unfold numTok intTok
  cases r with
  | nil => rfl
  | cons c t => simp [h.idStart c t rfl]

/-- An integer literal: its text, digits and radix (lex.rs:15-18). -/
inductive IntLit : List Char → List Char → Nat → Prop where
  | zero : IntLit ['0'] ['0'] 10
  | dec {c : Char} {ds : List Char} (hc : inR 49 57 c = true) (hd : ∀ c ∈ ds, cDigit c = true) :
    IntLit (c :: ds) (c :: ds) 10
  | oct {ds : List Char} (hne : ds ≠ []) (hd : ∀ c ∈ ds, cOctal c = true) : IntLit ('0' :: ds) ds 8
  | hex {x : Char} {ds : List Char} (hx : x = 'x' ∨ x = 'X') (hne : ds ≠ [])
      (hd : ∀ c ∈ ds, cHex c = true) : IntLit ('0' :: x :: ds) ds 16

/-- An integer literal is one token. -/
theorem lex_int {fp : List Char → Option (BitVec 64)} {s d : List Char} {x : Nat} {r : List Char}
    (hs : IntLit s d x) (h : Stop r) : lex fp (s ++ r) = .tok (.int d x) :: lex fp r := by
  apply lex_tok
  cases hs with
  | zero => exact (lexStep_digit (by decide) (lexNum_zero h)).trans (numTok_int h)
  | dec hc hd => exact (lexStep_digit (nonzero_digit hc).1 (lexNum_dec hc hd h)).trans (numTok_int h)
  | oct hne hd => exact (lexStep_digit (by decide) (lexNum_oct hne hd h)).trans (numTok_int h)
  | hex hx hne hd => exact (lexStep_digit (by decide) (lexNum_hex hx hne hd h)).trans (numTok_int h)

/-- A number with a point is one token. -/
theorem lex_float {fp : List Char → Option (BitVec 64)} {a b : List Char} {v : BitVec 64}
    {r : List Char} (hne : a ≠ []) (ha : ∀ c ∈ a, cDigit c = true) (hb : ∀ c ∈ b, cDigit c = true)
    (hv : fp (a ++ ('.' :: b)) = some v) (h : Stop r) :
    lex fp (a ++ ('.' :: b) ++ r) = .tok (.float v) :: lex fp r := by
  apply lex_tok
  have e := lexNum_point hne ha hb h
  obtain ⟨c, as, rfl⟩ : ∃ x xs, a = x :: xs := by
    cases a with
    | nil => exact absurd rfl hne
    | cons x xs => exact ⟨x, xs, rfl⟩
  simp only [List.cons_append, List.append_assoc] at e ⊢
  rw [lexStep_digit (ha c (by simp)) e]
  simp only [List.cons_append] at hv
  simp only [numTok, floatTok, hv]

/-- An identifier. -/
def IsIdent (s : List Char) : Prop :=
  ∃ c t, s = c :: t ∧ cIdStart c = true ∧ ∀ x ∈ t, cIdent x = true

instance (s : List Char) : Decidable (IsIdent s) :=
  match s with
  | [] => isFalse (by rintro ⟨c, t, h, _⟩; cases h)
  | c :: t =>
    if h : cIdStart c = true ∧ ∀ x ∈ t, cIdent x = true then isTrue ⟨c, t, rfl, h⟩
    else isFalse (by rintro ⟨c', t', h', h2⟩; cases h'; exact h h2)

theorem idStart_classes {c : Char} (h : cIdStart c = true) : cSpace c = false ∧ c ≠ '#' := by
  simp only [cIdStart, cAlpha, Bool.or_eq_true, inR_iff, beq_iff_eq] at h
  have hn : 65 ≤ c.toNat := by
    rcases h with (h | h) | h
    · omega
    · omega
    · rw [h]; decide
  refine ⟨?_, char_ne (by show c.toNat ≠ 35; omega)⟩
  have : c ≠ ' ' := char_ne (by show c.toNat ≠ 32; omega)
  simp only [cSpace, Bool.or_eq_false_iff, inR_false, beq_eq_false_iff_ne]
  exact ⟨by omega, this⟩

/-- An identifier is one token when no identifier character follows. -/
theorem lex_ident {fp : List Char → Option (BitVec 64)} {s r : List Char} (hs : IsIdent s)
    (h : Halts cIdent r) : lex fp (s ++ r) = .tok (.ident s) :: lex fp r := by
  apply lex_tok
  obtain ⟨c, t, rfl, hc, ht⟩ := hs
  obtain ⟨h1, h2⟩ := idStart_classes hc
  have hall : ∀ x ∈ c :: t, cIdent x = true := by
    intro x hx
    rcases List.mem_cons.1 hx with rfl | hx
    · exact cIdent_of_alpha hc
    · exact ht x hx
  have e := takeWhile_run hall h
  simp only [List.cons_append] at e ⊢
  simp only [lexStep, h1, h2, hc, if_false, if_true, Bool.false_eq_true, e, dropWhile_run ht h]

/-- Punctuation other than the point is one token, whatever follows. -/
theorem lex_punct {fp : List Char → Option (BitVec 64)} {c : Char} {t : Tok} {r : List Char}
    (h : punct c = some t) (hc : c ≠ '.') : lex fp (c :: r) = .tok t :: lex fp r := by
  apply lex_tok
  have hmem : c = '-' ∨ c = '{' ∨ c = '}' ∨ c = '[' ∨ c = ']' ∨ c = '<' ∨ c = '>' ∨ c = ',' ∨
      c = ':' ∨ c = ';' ∨ c = '/' := by
    unfold punct at h
    grind
  have hcl : cSpace c = false ∧ c ≠ '#' ∧ cIdStart c = false ∧ ¬ (c = '\'' ∨ c = '"') ∧
      cDigit c = false := by
    rcases hmem with rfl | rfl | rfl | rfl | rfl | rfl | rfl | rfl | rfl | rfl | rfl <;> decide
  obtain ⟨h1, h2, h3, h4, h5⟩ := hcl
  simp only [lexStep, h1, h2, h3, h4, if_false, Bool.false_eq_true, lexNum_none h5 (.inl hc), h]

/-- A point not followed by a digit is one token. -/
theorem lex_dot {fp : List Char → Option (BitVec 64)} {r : List Char} (h : Halts cDigit r) :
    lex fp ('.' :: r) = .tok .dot :: lex fp r := by
  apply lex_tok
  rw [lexStep, if_neg (by decide), if_neg (by decide), if_neg (by decide), if_neg (by decide),
    lexNum_none (by decide) (.inr h)]
  rfl

theorem lex_dropSpace {fp : List Char → Option (BitVec 64)} (s : List Char) :
    lex fp (s.dropWhile cSpace) = lex fp s := by
  cases s with
  | nil => rfl
  | cons c s =>
    rw [List.dropWhile_cons]
    split
    · rename_i h
      refine (lex_skip ?_).symm
      simp only [lexStep, h, if_true]
    · rfl

/-- White space is skipped. -/
theorem lex_space {fp : List Char → Option (BitVec 64)} {c : Char} {r : List Char}
    (h : cSpace c = true) : lex fp (c :: r) = lex fp r := by
  rw [← lex_dropSpace (c :: r), List.dropWhile_cons, if_pos h, lex_dropSpace]

theorem lex_spaces {fp : List Char → Option (BitVec 64)} {s r : List Char}
    (h : ∀ c ∈ s, cSpace c = true) : lex fp (s ++ r) = lex fp r := by
  induction s with
  | nil => rfl
  | cons c s ih =>
    rw [List.cons_append, lex_space (h c (by simp)), ih (fun x hx => h x (by simp [hx]))]

end Verif.Text
