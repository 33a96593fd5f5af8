import Verif.Text.Lex
/-!
Progress of the lexer and its independence from the step bound.
-/
set_option autoImplicit false
namespace Verif.Text
open Verif.Wire Verif.Dyn Verif.Pool

theorem dropWhile_len {α : Type} (p : α → Bool) (s : List α) : (s.dropWhile p).length ≤ s.length :=
  (List.dropWhile_suffix p).length_le

theorem run1_len {p : Char → Bool} {s a r : List Char} (h : run1 p s = some (a, r)) :
    r.length < s.length := by
  unfold run1 at h
  split at h
  · cases h
  · rename_i hne
    cases h
    cases s with
    | nil => exact absurd rfl hne
    | cons c s =>
      have : p c = true := by
        cases hp : p c with
        | true => rfl
        | false => simp [List.takeWhile_cons, hp] at hne
      have := dropWhile_len p s
      simp only [List.dropWhile_cons, *, if_true, List.length_cons]
      omega

theorem optF_len (s : List Char) : (optF s).length ≤ s.length := by
  unfold optF
  split
  · split <;> simp
  · simp

theorem optSign_len (s : List Char) : (optSign s).2.length ≤ s.length := by
  unfold optSign
  split
  · split <;> simp
  · simp

theorem expo_len {s a r : List Char} (h : expo s = some (a, r)) : r.length < s.length := by
  unfold expo at h
  split at h
  · rename_i e r0
    split at h
    · split at h
      · rename_i d r' h1
        cases h
        have := run1_len h1
        have := optSign_len r0
        simp only [List.length_cons]
        omega
      · cases h
    · cases h
  · cases h

theorem optExpo_len (s : List Char) : (optExpo s).2.length ≤ s.length := by
  unfold optExpo
  split
  · rename_i x h
    obtain ⟨a, r⟩ := x
    exact Nat.le_of_lt (expo_len h)
  · exact Nat.le_refl _

theorem reZero_len {s r : List Char} {m : Num} (h : reZero s = some (m, r)) : r.length < s.length := by
  unfold reZero at h
  split at h
  · split at h <;> cases h
    simp
  · cases h

theorem reDec_len {s r : List Char} {m : Num} (h : reDec s = some (m, r)) : r.length < s.length := by
  unfold reDec at h
  split at h
  · rename_i c r0
    split at h <;> cases h
    have := dropWhile_len cDigit r0
    simp only [List.length_cons]
    omega
  · cases h

theorem reOct_len {s r : List Char} {m : Num} (h : reOct s = some (m, r)) : r.length < s.length := by
  unfold reOct at h
  split at h
  · rename_i c r0
    split at h
    · split at h
      · rename_i d r' h1
        cases h
        have := run1_len h1
        simp only [List.length_cons]
        omega
      · cases h
    · cases h
  · cases h

theorem reHex_len {s r : List Char} {m : Num} (h : reHex s = some (m, r)) : r.length < s.length := by
  unfold reHex at h
  split at h
  · rename_i c x r0
    split at h
    · split at h
      · rename_i d r' h1
        cases h
        have := run1_len h1
        simp only [List.length_cons]
        omega
      · cases h
    · cases h
  · cases h

theorem reIntF_len {s r : List Char} {m : Num} (h : reIntF s = some (m, r)) : r.length < s.length := by
  unfold reIntF at h
  split at h
  · rename_i c r0
    split at h
    · split at h
      · split at h
        · cases h
          simp only [List.length_cons]
          omega
        · cases h
      · cases h
    · split at h
      · split at h
        · rename_i x r' heq
          split at h
          · cases h
            have := dropWhile_len cDigit r0
            rw [heq] at this
            simp only [List.length_cons] at this ⊢
            omega
          · cases h
        · cases h
      · cases h
  · cases h

theorem rePoint_len {s r : List Char} {m : Num} (h : rePoint s = some (m, r)) :
    r.length < s.length := by
  unfold rePoint at h
  split at h
  · rename_i d r0 h1
    cases h
    have := run1_len h1
    have h2 := optExpo_len (r0.dropWhile cDigit)
    have h3 := optF_len (optExpo (r0.dropWhile cDigit)).2
    have h4 := dropWhile_len cDigit r0
    simp only [List.length_cons] at this
    omega
  · cases h

theorem reExp_len {s r : List Char} {m : Num} (h : reExp s = some (m, r)) :
    r.length < s.length := by
  unfold reExp at h
  split at h
  · rename_i d r0 h1
    split at h
    · rename_i e r' h2
      cases h
      have := run1_len h1
      have := expo_len h2
      have := optF_len r'
      omega
    · cases h
  · cases h

theorem reFrac_len {s r : List Char} {m : Num} (h : reFrac s = some (m, r)) :
    r.length < s.length := by
  unfold reFrac at h
  split at h
  · rename_i c r0
    split at h
    · split at h
      · rename_i d r' h1
        cases h
        have := run1_len h1
        have h2 := optExpo_len r'
        have h3 := optF_len (optExpo r').2
        simp only [List.length_cons]
        omega
      · cases h
    · cases h
  · cases h

theorem longer_cases {a b : Option (Num × List Char)} {x : Num × List Char}
    (h : longer a b = some x) : a = some x ∨ b = some x := by
  unfold longer at h
  split at h
  · split at h
    · exact .inr h
    · exact .inl h
  · exact .inl h
  · exact .inr h

theorem lexNum_len {s r : List Char} {m : Num} (h : lexNum s = some (m, r)) :
    r.length < s.length := by
  unfold lexNum at h
  rcases longer_cases h with h | h
  · exact reZero_len h
  rcases longer_cases h with h | h
  · exact reDec_len h
  rcases longer_cases h with h | h
  · exact reOct_len h
  rcases longer_cases h with h | h
  · exact reHex_len h
  rcases longer_cases h with h | h
  · exact reIntF_len h
  rcases longer_cases h with h | h
  · exact rePoint_len h
  rcases longer_cases h with h | h
  · exact reExp_len h
  · exact reFrac_len h

theorem unicodeEscape_len {k : Nat} {s : List Char} {b : Bytes} {r : List Char}
    (h : unicodeEscape k s = some (b, r)) : r.length ≤ s.length := by
  unfold unicodeEscape at h
  split at h
  · split at h
    · split at h <;> cases h
      simp
    · cases h
  · cases h

theorem escape_len {s : List Char} {b : Bytes} {r : List Char} (h : escape s = some (b, r)) :
    r.length ≤ s.length := by
  unfold escape at h
  split at h
  · cases h
  · rename_i c r0
    split at h
    · cases h
      simp
    · split at h
      · dsimp only at h
        split at h
        · split at h <;> cases h
          simp
        · cases h
      · split at h
        · dsimp only at h
          split at h
          · cases h
            simp only [List.length_drop, List.length_cons]
            omega
          · cases h
        · split at h
          · have := unicodeEscape_len h
            simp only [List.length_cons]
            omega
          · split at h
            · have := unicodeEscape_len h
              simp only [List.length_cons]
              omega
            · cases h

theorem strN_len {q : Char} {n : Nat} {s : List Char} {b : Bytes} {r : List Char}
    (h : strN q n s = some (b, r)) : r.length < s.length := by
  induction n generalizing s b r with
  | zero => cases h
  | succ n ih =>
    unfold strN at h
    split at h
    · cases h
    · cases h
    · rename_i n' c r0 heq
      cases heq
      split at h
      · split at h
        · rename_i b' r' h1
          split at h
          · rename_i bs r'' h2
            cases h
            have := escape_len h1
            have := ih h2
            simp only [List.length_cons]
            omega
          · cases h
        · cases h
      · split at h
        · cases h
          simp
        · split at h
          · cases h
          · split at h
            · rename_i bs r' h2
              cases h
              have := ih h2
              simp only [List.length_cons]
              omega
            · cases h

/-- More steps than characters never matter to a string literal. -/
theorem strN_fuel {q : Char} {n m : Nat} {s : List Char} (hn : s.length < n) (hm : s.length < m) :
    strN q n s = strN q m s := by
  induction n generalizing m s with
  | zero => omega
  | succ n ih =>
    cases m with
    | zero => omega
    | succ m =>
      cases s with
      | nil => rfl
      | cons c r =>
        simp only [List.length_cons] at hn hm
        have e1 : strN q n r = strN q m r := ih (by omega) (by omega)
        have e2 : ∀ b r', escape r = some (b, r') → strN q n r' = strN q m r' := by
          intro b r' h
          have := escape_len h
          exact ih (by omega) (by omega)
        unfold strN
        rw [e1]
        cases h : escape r with
        | none => rfl
        | some x =>
          obtain ⟨b, r'⟩ := x
          simp only [e2 b r' h]

/-- Every match of the lexer consumes something. -/
theorem lexStep_len {fp : List Char → Option (BitVec 64)} {s r : List Char} :
    (lexStep fp s = .skip r → r.length < s.length) ∧
    (∀ t, lexStep fp s = .tok t r → r.length < s.length) := by
  cases s with
  | nil => exact ⟨fun h => (by cases h), fun t h => (by cases h)⟩
  | cons c s =>
    unfold lexStep
    dsimp only
    split
    · refine ⟨fun h => ?_, fun t h => (by cases h)⟩
      cases h
      have := dropWhile_len cSpace s
      simp only [List.length_cons]
      omega
    split
    · refine ⟨fun h => ?_, fun t h => (by cases h)⟩
      cases h
      have := dropWhile_len (fun x => decide (x ≠ '\n')) s
      simp only [List.length_drop, List.length_cons]
      omega
    split
    · refine ⟨fun h => (by cases h), fun t h => ?_⟩
      cases h
      have := dropWhile_len cIdent s
      simp only [List.length_cons]
      omega
    split
    · split
      · rename_i b r' h1
        refine ⟨fun h => (by cases h), fun t h => ?_⟩
        cases h
        have := strN_len h1
        simp only [List.length_cons]
        omega
      · exact ⟨fun h => (by cases h), fun t h => (by cases h)⟩
    split
    · rename_i m h1
      obtain ⟨m, r1⟩ := m
      have hl := lexNum_len h1
      cases m with
      | int d x =>
        unfold numTok intTok
        dsimp only
        refine ⟨fun h => ?_, fun t h => ?_⟩
        · split at h
          · split at h <;> cases h
          · cases h
        · split at h
          · split at h <;> cases h
            exact hl
          · cases h
            exact hl
      | float t0 =>
        unfold numTok floatTok
        dsimp only
        refine ⟨fun h => ?_, fun t h => ?_⟩
        · split at h <;> cases h
        · split at h <;> cases h
          exact hl
    split
    · refine ⟨fun h => (by cases h), fun t h => ?_⟩
      cases h
      simp
    · exact ⟨fun h => (by cases h), fun t h => (by cases h)⟩

/-- More steps than characters never matter to the lexer. -/
theorem lexN_fuel {fp : List Char → Option (BitVec 64)} {n m : Nat} {s : List Char}
    (hn : s.length < n) (hm : s.length < m) : lexN fp n s = lexN fp m s := by
  induction n generalizing m s with
  | zero => omega
  | succ n ih =>
    cases m with
    | zero => omega
    | succ m =>
      unfold lexN
      cases h : lexStep fp s with
      | eof => rfl
      | skip r =>
        have := (lexStep_len (fp := fp) (s := s) (r := r)).1 h
        exact ih (by omega) (by omega)
      | tok t r =>
        have := (lexStep_len (fp := fp) (s := s) (r := r)).2 t h
        simp only
        rw [ih (m := m) (by omega) (by omega)]
      | bad => rfl
      | panic => rfl

theorem lex_skip {fp : List Char → Option (BitVec 64)} {s r : List Char}
    (h : lexStep fp s = .skip r) : lex fp s = lex fp r := by
  have := lexStep_len.1 h
  unfold lex
  rw [lexN, h]
  exact lexN_fuel (by omega) (by omega)

theorem lex_tok {fp : List Char → Option (BitVec 64)} {s r : List Char} {t : Tok}
    (h : lexStep fp s = .tok t r) : lex fp s = .tok t :: lex fp r := by
  have := lexStep_len.2 t h
  unfold lex
  rw [lexN, h]
  simp only
  rw [lexN_fuel (m := r.length + 1) (by omega) (by omega)]

theorem lex_nil {fp : List Char → Option (BitVec 64)} : lex fp [] = [] := rfl

end Verif.Text
