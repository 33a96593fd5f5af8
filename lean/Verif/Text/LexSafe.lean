import Verif.Text.LexText
/-!
The lexer passes only well-formed numbers to the float parser, so it does not panic.
-/
set_option autoImplicit false
namespace Verif.Text
open Verif.Wire Verif.Dyn Verif.Pool

/-- An exponent as `f64::from_str` documents it. -/
def IsExp (e : List Char) : Prop :=
  e = [] ∨ ∃ x sign ds, e = x :: (sign ++ ds) ∧ (x = 'e' ∨ x = 'E') ∧
    (sign = [] ∨ sign = ['+'] ∨ sign = ['-']) ∧ ds ≠ [] ∧ ∀ c ∈ ds, cDigit c = true

/-- The unsigned decimal numbers of the grammar of `f64::from_str`: digits, optionally a
point and more digits, at least one digit in all, optionally an exponent. -/
def FloatText (s : List Char) : Prop :=
  ∃ a b e, s = a ++ (b ++ e) ∧ (∀ c ∈ a, cDigit c = true) ∧
    ((b = [] ∧ a ≠ []) ∨ ∃ b', b = '.' :: b' ∧ (∀ c ∈ b', cDigit c = true) ∧ (a ≠ [] ∨ b' ≠ [])) ∧ IsExp e

/-- The float parser of the standard library accepts its documented grammar. -/
def ParsesFloats (fp : List Char → Option (BitVec 64)) : Prop := ∀ s, FloatText s → (fp s).isSome = true

/-- The parts of a match: integer digits in radix 10 and float texts are well-formed. -/
def NumOk : Num → Prop
  | .int d x => x = 10 → FloatText d
  | .float t => FloatText t

theorem FloatText.digits {d : List Char} (hne : d ≠ []) (h : ∀ c ∈ d, cDigit c = true) : FloatText d :=
  ⟨d, [], [], by simp, h, .inl ⟨rfl, hne⟩, .inl rfl⟩

theorem takeWhile_all {p : Char → Bool} (s : List Char) : ∀ c ∈ s.takeWhile p, p c = true := by
  induction s with
  | nil => intro c hc; cases hc
  | cons x r ih =>
    intro c hc
    rw [List.takeWhile_cons] at hc
    split at hc
    · rename_i h
      rcases List.mem_cons.1 hc with rfl | hc
      · exact h
      · exact ih c hc
    · cases hc

theorem run1_all {p : Char → Bool} {s a t : List Char} (h : run1 p s = some (a, t)) :
    a ≠ [] ∧ ∀ c ∈ a, p c = true := by
  unfold run1 at h
  split at h
  · cases h
  · rename_i hne
    cases h
    exact ⟨hne, takeWhile_all s⟩

theorem optSign_forms (s : List Char) : (optSign s).1 = [] ∨ (optSign s).1 = ['+'] ∨ (optSign s).1 = ['-'] := by
  unfold optSign
  grind

theorem expo_isExp {s e r : List Char} (h : expo s = some (e, r)) : IsExp e := by
  unfold expo at h
  split at h
  · split at h
    · rename_i x s' hx
      split at h
      · rename_i d t hd
        cases h
        exact .inr ⟨_, _, _, rfl, hx, optSign_forms _, (run1_all hd).1, (run1_all hd).2⟩
      · cases h
    · cases h
  · cases h

theorem optExpo_isExp (s : List Char) : IsExp (optExpo s).1 := by
  unfold optExpo
  split
  · rename_i e h
    exact expo_isExp h
  · exact .inl rfl

theorem longer_ok {P : Num → Prop} {a b : Option (Num × List Char)}
    (ha : ∀ m, a = some m → P m.1) (hb : ∀ m, b = some m → P m.1) :
    ∀ m, longer a b = some m → P m.1 := by
  intro m h
  unfold longer at h
  grind

theorem lexNum_ok {s : List Char} : ∀ m, lexNum s = some m → NumOk m.1 := by
  unfold lexNum
  refine longer_ok ?_ (longer_ok ?_ (longer_ok ?_ (longer_ok ?_ (longer_ok ?_ (longer_ok ?_
    (longer_ok ?_ ?_))))))
  · intro m h
    unfold reZero at h
    split at h
    · split at h
      · rename_i c r hc
        cases h
        intro _
        exact FloatText.digits (by simp) (by simp [hc]; decide)
      · cases h
    · cases h
  · intro m h
    unfold reDec at h
    split at h
    · split at h
      · rename_i c r hc
        cases h
        intro _
        refine FloatText.digits (by simp) (fun x hx => ?_)
        rcases List.mem_cons.1 hx with rfl | hx
        · exact (nonzero_digit hc).1
        · exact takeWhile_all _ x hx
      · cases h
    · cases h
  · intro m h
    unfold reOct at h
    repeat' split at h
    all_goals cases h
    intro h8
    cases h8
  · intro m h
    unfold reHex at h
    repeat' split at h
    all_goals cases h
    intro h16
    cases h16
  · intro m h
    unfold reIntF at h
    split at h
    · split at h
      · split at h
        · split at h
          · rename_i hc _ _ _ _
            cases h
            exact FloatText.digits (by simp) (by simp [hc]; decide)
          · cases h
        · cases h
      · split at h
        · rename_i hc
          split at h
          · split at h
            · cases h
              refine FloatText.digits (by simp) (fun x hx => ?_)
              rcases List.mem_cons.1 hx with rfl | hx
              · exact (nonzero_digit hc).1
              · exact takeWhile_all _ x hx
            · cases h
          · cases h
        · cases h
    · cases h
  · intro m h
    unfold rePoint at h
    split at h
    · rename_i d r hd
      dsimp only at h
      cases h
      exact ⟨d, '.' :: r.takeWhile cDigit, (optExpo (r.dropWhile cDigit)).1, by simp, (run1_all hd).2,
        .inr ⟨_, rfl, takeWhile_all _, .inl (run1_all hd).1⟩, optExpo_isExp _⟩
    · cases h
  · intro m h
    unfold reExp at h
    split at h
    · rename_i d r hd
      split at h
      · rename_i e r' he
        cases h
        exact ⟨d, [], e, by simp, (run1_all hd).2, .inl ⟨rfl, (run1_all hd).1⟩, expo_isExp he⟩
      · cases h
    · cases h
  · intro m h
    unfold reFrac at h
    split at h
    · split at h
      · rename_i hc
        split at h
        · rename_i d r' hd
          dsimp only at h
          cases h
          exact ⟨[], '.' :: d, (optExpo r').1, by simp [hc], (by simp), .inr ⟨d, rfl, (run1_all hd).2, .inr (run1_all hd).1⟩,
            optExpo_isExp _⟩
        · cases h
      · cases h
    · cases h

/-- Tokens on which the parser cannot panic. -/
def TokOk (fp : List Char → Option (BitVec 64)) (t : LTok) : Prop :=
  t ≠ .panic ∧ ∀ d, t = .tok (.int d 10) → (fp d).isSome = true

theorem punct_not_int {c : Char} {d : List Char} {x : Nat} : punct c ≠ some (.int d x) := by
  unfold punct
  grind (splits := 20)

theorem lexStep_ok {fp : List Char → Option (BitVec 64)} (hfp : ParsesFloats fp) (s : List Char) :
    lexStep fp s ≠ .panic ∧ ∀ t r, lexStep fp s = .tok t r → TokOk fp (.tok t) := by
  have hnum : ∀ c r m, lexNum (c :: r) = some m → numTok fp m ≠ .panic ∧
      ∀ t r', numTok fp m = .tok t r' → TokOk fp (.tok t) := by
    intro c r m hm
    have := lexNum_ok m hm
    obtain ⟨num, rest⟩ := m
    cases num with
    | int d x =>
      have hx : x = 10 → (fp d).isSome = true := fun e => hfp d (this e)
      show intTok d x rest ≠ .panic ∧ ∀ t r', intTok d x rest = .tok t r' → TokOk fp (.tok t)
      unfold intTok
      constructor
      · repeat' split
        all_goals intro h; cases h
      · intro t r' h
        refine ⟨nofun, fun d' e => ?_⟩
        cases e
        have : d' = d ∧ x = 10 := by
          repeat' split at h
          all_goals cases h
          all_goals exact ⟨rfl, rfl⟩
        rw [this.1]
        exact hx this.2
    | float t =>
      have hs := hfp t this
      show floatTok fp t rest ≠ .panic ∧ ∀ t' r', floatTok fp t rest = .tok t' r' → TokOk fp (.tok t')
      unfold floatTok
      cases hv : fp t with
      | none =>
        rw [hv] at hs
        cases hs
      | some v =>
        refine ⟨nofun, fun t' r' h => ?_⟩
        cases h
        exact ⟨nofun, nofun⟩
  cases s with
  | nil => exact ⟨nofun, nofun⟩
  | cons c r =>
    simp only [lexStep]
    split
    · exact ⟨nofun, nofun⟩
    split
    · exact ⟨nofun, nofun⟩
    split
    · refine ⟨nofun, fun t r h => ?_⟩
      cases h
      exact ⟨nofun, nofun⟩
    split
    · split
      · refine ⟨nofun, fun t r h => ?_⟩
        cases h
        exact ⟨nofun, nofun⟩
      · exact ⟨nofun, nofun⟩
    · split
      · rename_i m hm
        exact hnum c r m hm
      · split
        · rename_i t ht
          refine ⟨nofun, fun t' r h => ?_⟩
          cases h
          refine ⟨nofun, fun d e => ?_⟩
          cases e
          exact absurd ht punct_not_int
        · exact ⟨nofun, nofun⟩

theorem lexN_ok {fp : List Char → Option (BitVec 64)} (hfp : ParsesFloats fp) (n : Nat) (s : List Char) :
    ∀ t ∈ lexN fp n s, TokOk fp t := by
  induction n generalizing s with
  | zero =>
    intro t ht
    rw [lexN, List.mem_singleton] at ht
    subst ht
    exact ⟨nofun, nofun⟩
  | succ n ih =>
    obtain ⟨h1, h2⟩ := lexStep_ok hfp s
    intro t ht
    unfold lexN at ht
    split at ht
    · cases ht
    · exact ih _ t ht
    · rename_i t' r h
      rcases List.mem_cons.1 ht with rfl | ht
      · exact h2 _ _ h
      · exact ih _ t ht
    · rw [List.mem_singleton] at ht
      subst ht
      exact ⟨nofun, nofun⟩
    · rename_i h
      exact absurd h h1

/-- The lexer only yields tokens on which the parser cannot panic. -/
theorem lex_ok {fp : List Char → Option (BitVec 64)} (hfp : ParsesFloats fp) (s : List Char) :
    ∀ t ∈ lex fp s, TokOk fp t := lexN_ok hfp _ s

end Verif.Text
