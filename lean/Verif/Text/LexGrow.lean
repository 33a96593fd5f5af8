import Verif.Text.LexText
/-!
The tokens of two texts with a line break between them are those of the first and those of the second.
-/
set_option autoImplicit false
namespace Verif.Text
open Verif.Wire Verif.Dyn

section
variable (b : List Char)

theorem takeWhile_nl {p : Char → Bool} (hp : p '\n' = false) (s : List Char) :
    (s ++ '\n' :: b).takeWhile p = s.takeWhile p := by
  induction s with
  | nil => simp [hp]
  | cons c s ih => simp only [List.cons_append, List.takeWhile_cons, ih]

theorem dropWhile_nl {p : Char → Bool} (hp : p '\n' = false) (s : List Char) :
    (s ++ '\n' :: b).dropWhile p = s.dropWhile p ++ '\n' :: b := by
  induction s with
  | nil => simp [hp]
  | cons c s ih =>
    simp only [List.cons_append, List.dropWhile_cons, ih]
    split <;> rfl

/-- A match of a pattern, with more text after it. -/
def more {α : Type} (x : Option (α × List Char)) : Option (α × List Char) := x.map (fun m => (m.1, m.2 ++ '\n' :: b))

theorem run1_nl {p : Char → Bool} (hp : p '\n' = false) (s : List Char) : run1 p (s ++ '\n' :: b) = more b (run1 p s) := by
  unfold run1
  rw [takeWhile_nl b hp, dropWhile_nl b hp]
  split <;> rfl

theorem optF_nl (s : List Char) : optF (s ++ '\n' :: b) = optF s ++ '\n' :: b := by
  cases s with
  | nil => rfl
  | cons c s =>
    simp only [List.cons_append, optF]
    split <;> rfl

theorem optSign_nl (s : List Char) : optSign (s ++ '\n' :: b) = ((optSign s).1, (optSign s).2 ++ '\n' :: b) := by
  cases s with
  | nil => rfl
  | cons c s =>
    simp only [List.cons_append, optSign]
    split <;> rfl

theorem expo_nl (s : List Char) : expo (s ++ '\n' :: b) = more b (expo s) := by
  cases s with
  | nil => rfl
  | cons c s =>
    simp only [List.cons_append, expo, optSign_nl, run1_nl b (p := cDigit) (by decide)]
    split
    · cases run1 cDigit (optSign s).2 <;> rfl
    · rfl

theorem optExpo_nl (s : List Char) : optExpo (s ++ '\n' :: b) = ((optExpo s).1, (optExpo s).2 ++ '\n' :: b) := by
  unfold optExpo
  rw [expo_nl]
  cases expo s <;> rfl

theorem reZero_nl (s : List Char) : reZero (s ++ '\n' :: b) = more b (reZero s) := by
  cases s with
  | nil => rfl
  | cons c s => simp only [List.cons_append, reZero]; split <;> rfl

theorem reDec_nl (s : List Char) : reDec (s ++ '\n' :: b) = more b (reDec s) := by
  cases s with
  | nil => rfl
  | cons c s =>
    simp only [List.cons_append, reDec, takeWhile_nl b (p := cDigit) (by decide), dropWhile_nl b (p := cDigit) (by decide)]
    split <;> rfl

theorem reOct_nl (s : List Char) : reOct (s ++ '\n' :: b) = more b (reOct s) := by
  cases s with
  | nil => rfl
  | cons c s =>
    simp only [List.cons_append, reOct, run1_nl b (p := cOctal) (by decide)]
    split
    · cases run1 cOctal s <;> rfl
    · rfl

theorem reHex_nl (s : List Char) : reHex (s ++ '\n' :: b) = more b (reHex s) := by
  cases s with
  | nil => cases b <;> rfl
  | cons c s =>
    cases s with
    | nil =>
      simp only [List.cons_append, List.nil_append, reHex]
      rw [if_neg (by rintro ⟨_, h | h⟩ <;> exact absurd h (by decide))]
      rfl
    | cons x s =>
      simp only [List.cons_append, reHex, run1_nl b (p := cHex) (by decide)]
      split
      · cases run1 cHex s <;> rfl
      · rfl

theorem reIntF_nl (s : List Char) : reIntF (s ++ '\n' :: b) = more b (reIntF s) := by
  cases s with
  | nil => rfl
  | cons c s =>
    simp only [List.cons_append, reIntF, takeWhile_nl b (p := cDigit) (by decide), dropWhile_nl b (p := cDigit) (by decide)]
    split
    · cases s with
      | nil => rfl
      | cons x s => simp only [List.cons_append]; split <;> rfl
    · split
      · cases s.dropWhile cDigit with
        | nil => rfl
        | cons x s => simp only [List.cons_append]; split <;> rfl
      · rfl

theorem rePoint_nl (s : List Char) : rePoint (s ++ '\n' :: b) = more b (rePoint s) := by
  unfold rePoint
  rw [run1_nl b (p := cDigit) (by decide)]
  cases run1 cDigit s with
  | none => rfl
  | some m =>
    obtain ⟨d, r⟩ := m
    cases r with
    | nil => rfl
    | cons x r =>
      by_cases hx : x = '.'
      · subst hx
        simp only [more, Option.map_some, List.cons_append, takeWhile_nl b (p := cDigit) (by decide),
          dropWhile_nl b (p := cDigit) (by decide), optExpo_nl, optF_nl]
      · simp only [more, Option.map_some, List.cons_append]
        split
        · next heq => simp only [Option.some.injEq, Prod.mk.injEq, List.cons.injEq] at heq; exact absurd heq.2.1 hx
        · split
          · next heq => simp only [Option.some.injEq, Prod.mk.injEq, List.cons.injEq] at heq; exact absurd heq.2.1 hx
          · rfl

theorem reExp_nl (s : List Char) : reExp (s ++ '\n' :: b) = more b (reExp s) := by
  unfold reExp
  rw [run1_nl b (p := cDigit) (by decide)]
  cases run1 cDigit s with
  | none => rfl
  | some m =>
    simp only [more, Option.map_some, expo_nl]
    cases expo m.2 with
    | none => rfl
    | some e => simp only [Option.map_some, optF_nl]

theorem reFrac_nl (s : List Char) : reFrac (s ++ '\n' :: b) = more b (reFrac s) := by
  cases s with
  | nil => rfl
  | cons c s =>
    simp only [List.cons_append, reFrac, run1_nl b (p := cDigit) (by decide)]
    split
    · cases run1 cDigit s with
      | none => rfl
      | some m => simp only [more, Option.map_some, optExpo_nl, optF_nl]
    · rfl

theorem longer_nl (x y : Option (Num × List Char)) : longer (more b x) (more b y) = more b (longer x y) := by
  cases x with
  | none => rfl
  | some x =>
    cases y with
    | none => rfl
    | some y =>
      simp only [longer, more, Option.map_some, List.length_append, Nat.add_lt_add_iff_right]
      split <;> rfl

theorem lexNum_nl (s : List Char) : lexNum (s ++ '\n' :: b) = more b (lexNum s) := by
  simp only [lexNum, reZero_nl, reDec_nl, reOct_nl, reHex_nl, reIntF_nl, rePoint_nl, reExp_nl, reFrac_nl, longer_nl]

theorem upTo_nl {p : Char → Bool} (hp : p '\n' = false) (s : List Char) : ∀ k, upTo k p (s ++ '\n' :: b) = upTo k p s := by
  induction s with
  | nil =>
    intro k
    cases k with
    | zero => rfl
    | succ k => simp [upTo, hp]
  | cons c s ih =>
    intro k
    cases k with
    | zero => rfl
    | succ k =>
      have := ih k
      simp only [upTo, List.cons_append, List.take_succ_cons, List.takeWhile_cons] at this ⊢
      rw [this]

theorem upTo_le (k : Nat) (p : Char → Bool) (s : List Char) : (upTo k p s).length ≤ s.length := by
  have h1 : (upTo k p s).length ≤ (s.take k).length := (List.takeWhile_sublist p).length_le
  rw [List.length_take] at h1
  omega

theorem unicodeEscape_nl {k : Nat} {s r : List Char} {x : Bytes} (h : unicodeEscape k s = some (x, r)) :
    unicodeEscape k (s ++ '\n' :: b) = some (x, r ++ '\n' :: b) := by
  unfold unicodeEscape at h ⊢
  split at h
  · next hk =>
    have hle : k ≤ s.length := by rw [List.length_take] at hk; omega
    rw [List.take_append_of_le_length hle, List.drop_append_of_le_length hle, if_pos hk]
    split at h
    · split at h
      · cases h; rfl
      · cases h
    · cases h
  · cases h

theorem escape_nl {s r : List Char} {x : Bytes} (h : escape s = some (x, r)) :
    escape (s ++ '\n' :: b) = some (x, r ++ '\n' :: b) := by
  cases s with
  | nil => cases h
  | cons c s =>
    simp only [List.cons_append, escape] at h ⊢
    split at h
    · cases h; rfl
    · split at h
      · next ho =>
        rw [if_pos ho]
        have hu := upTo_nl b (p := cOctal) (by decide) (c :: s) 3
        rw [List.cons_append] at hu
        rw [hu]
        split at h
        · split at h
          · next hn =>
            cases h
            rw [if_pos hn, ← List.cons_append, List.drop_append_of_le_length (upTo_le _ _ _)]
          · cases h
        · cases h
      · next ho =>
        rw [if_neg ho]
        split at h
        · next hx =>
          rw [if_pos hx, upTo_nl b (p := cHex) (by decide) s 2]
          split at h
          · cases h
            rw [List.drop_append_of_le_length (upTo_le _ _ _)]
          · cases h
        · next hx =>
          rw [if_neg hx]
          split at h
          · next hy => rw [if_pos hy]; exact unicodeEscape_nl b h
          · next hy =>
            rw [if_neg hy]
            split at h
            · next hz => rw [if_pos hz]; exact unicodeEscape_nl b h
            · cases h

theorem strN_nl {q : Char} : ∀ {n m : Nat} {s r : List Char} {x : Bytes}, n ≤ m → strN q n s = some (x, r) →
    strN q m (s ++ '\n' :: b) = some (x, r ++ '\n' :: b) := by
  intro n
  induction n with
  | zero => intro m s r x _ h; cases h
  | succ n ih =>
    intro m s r x hm h
    obtain ⟨m, rfl⟩ : ∃ m', m = m' + 1 := ⟨m - 1, by omega⟩
    cases s with
    | nil => cases h
    | cons c s =>
      simp only [List.cons_append, strN] at h ⊢
      split at h
      · next hc =>
        rw [if_pos hc]
        split at h
        · next he =>
          rw [escape_nl b he]
          simp only
          split at h
          · next hs => cases h; rw [ih (by omega) hs]
          · cases h
        · cases h
      · next hc =>
        rw [if_neg hc]
        split at h
        · next hq => cases h; rw [if_pos hq]
        · next hq =>
          rw [if_neg hq]
          split at h
          · cases h
          · next hz =>
            rw [if_neg hz]
            split at h
            · next hs => cases h; rw [ih (by omega) hs]
            · cases h

variable {fp : List Char → Option (BitVec 64)}

theorem numTok_nl {m : Num × List Char} {t : Tok} {r : List Char} (h : numTok fp m = .tok t r) :
    numTok fp (m.1, m.2 ++ '\n' :: b) = .tok t (r ++ '\n' :: b) := by
  obtain ⟨m, s⟩ := m
  cases m with
  | int d x =>
    simp only [numTok] at h ⊢
    cases s with
    | nil => cases h; rfl
    | cons c s =>
      simp only [intTok, List.cons_append] at h ⊢
      split at h
      · cases h
      · next hc => cases h; rw [if_neg hc]; rfl
  | float v =>
    simp only [numTok, floatTok] at h ⊢
    split at h
    · cases h; rfl
    · cases h

theorem lexStep_nl {s r : List Char} {t : Tok} (h : lexStep fp s = .tok t r) :
    lexStep fp (s ++ '\n' :: b) = .tok t (r ++ '\n' :: b) := by
  cases s with
  | nil => cases h
  | cons c s =>
    have hn := lexNum_nl b (c :: s)
    have hw := takeWhile_nl b (p := cIdent) (by decide) (c :: s)
    simp only [List.cons_append] at hn hw
    simp only [List.cons_append, lexStep, hn, hw, dropWhile_nl b (p := cIdent) (by decide)] at h ⊢
    split at h
    · cases h
    · next h1 =>
      rw [if_neg h1]
      split at h
      · cases h
      · next h2 =>
        rw [if_neg h2]
        split at h
        · next h3 => cases h; rw [if_pos h3]
        · next h3 =>
          rw [if_neg h3]
          split at h
          · next h4 =>
            rw [if_pos h4]
            split at h
            · next hs =>
              cases h
              unfold lexStr at hs ⊢
              rw [strN_nl b (by simp only [List.length_append]; omega) hs]
            · cases h
          · next h4 =>
            rw [if_neg h4]
            split at h
            · next hm => rw [hm]; exact numTok_nl b h
            · next hm =>
              rw [hm]
              simp only [more, Option.map_none]
              split at h
              · cases h; rfl
              · cases h

/-- The text has no lexical error. -/
def Clean (ts : List LTok) : Prop := ∀ x ∈ ts, ∃ t, x = .tok t

theorem lex_nl : ∀ (n : Nat) (s : List Char), s.length ≤ n → Clean (lex fp s) →
    lex fp (s ++ '\n' :: b) = lex fp s ++ lex fp b := by
  intro n
  induction n with
  | zero =>
    intro s hs _
    obtain rfl := List.length_eq_zero_iff.1 (Nat.le_zero.1 hs)
    exact lex_space (by decide)
  | succ n ih =>
    intro s hs hc
    cases h : lexStep fp s with
    | tok t r =>
      have hl := lexStep_len.2 t h
      rw [lex_tok h] at hc ⊢
      rw [lex_tok (lexStep_nl b h), ih r (by omega) (fun x hx => hc x (by simp [hx])), List.cons_append]
    | bad =>
      have : lex fp s = [.bad] := by unfold lex; rw [lexN, h]
      obtain ⟨t, ht⟩ := hc .bad (by simp [this])
      cases ht
    | panic =>
      have : lex fp s = [.panic] := by unfold lex; rw [lexN, h]
      obtain ⟨t, ht⟩ := hc .panic (by simp [this])
      cases ht
    | eof =>
      cases s with
      | nil => exact lex_space (by decide)
      | cons c s =>
        exfalso
        simp only [lexStep] at h
        split at h
        · cases h
        split at h
        · cases h
        split at h
        · cases h
        split at h
        · split at h <;> cases h
        split at h
        · next m _ =>
          obtain ⟨m, r⟩ := m
          cases m with
          | int d x =>
            simp only [numTok, intTok] at h
            split at h
            · split at h <;> cases h
            · cases h
          | float v =>
            simp only [numTok, floatTok] at h
            split at h <;> cases h
        · split at h <;> cases h
    | skip r =>
      cases s with
      | nil => cases h
      | cons c s =>
        simp only [List.length_cons] at hs
        by_cases h1 : cSpace c = true
        · rw [lex_space h1] at hc ⊢
          rw [List.cons_append, lex_space h1, ih s (by omega) hc]
        · by_cases h2 : c = '#'
          · have e : ∀ s', lexStep fp (c :: s') = .skip ((s'.dropWhile (· ≠ '\n')).drop 1) := by
              intro s'
              unfold lexStep
              simp only
              rw [if_neg h1, if_pos h2]
            rw [lex_skip (e s)] at hc ⊢
            rw [List.cons_append, lex_skip (e _), dropWhile_nl b (by decide)]
            cases hd : s.dropWhile (· ≠ '\n') with
            | nil => rfl
            | cons y ys =>
              rw [hd] at hc
              have hle : (s.dropWhile (· ≠ '\n')).length ≤ s.length := (List.dropWhile_sublist _).length_le
              rw [hd] at hle
              simp only [List.length_cons] at hle
              exact ih ys (by omega) hc
          · exfalso
            unfold lexStep at h
            simp only at h
            rw [if_neg h1, if_neg h2] at h
            split at h
            · cases h
            split at h
            · split at h <;> cases h
            split at h
            · next m _ =>
              obtain ⟨m, r⟩ := m
              cases m with
              | int d x =>
                simp only [numTok, intTok] at h
                split at h
                · split at h <;> cases h
                · cases h
              | float v =>
                simp only [numTok, floatTok] at h
                split at h <;> cases h
            · split at h <;> cases h
end

end Verif.Text
