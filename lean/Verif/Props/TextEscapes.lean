import Verif.Props.TextLits
/-!
Which bytes a string literal of the text format stands for (C55): the grammar of literals with
their escapes, both ways.
-/
set_option autoImplicit false
namespace Verif.Props
open Verif.Wire Verif.Dyn Verif.Pool Verif.Text

/-- The value of a digit: its position in one of these. -/
def DigitOf (c : Char) (n : Nat) : Prop :=
  "0123456789abcdef".toList[n]? = some c ∨ "0123456789ABCDEF".toList[n]? = some c

/-- A numeral in a radix, by its last digit. -/
inductive Numeral (radix : Nat) : List Char → Nat → Prop
  | nil : Numeral radix [] 0
  | snoc {s : List Char} {n d : Nat} {c : Char} (h : Numeral radix s n) (hc : DigitOf c d) (hd : d < radix) :
      Numeral radix (s ++ [c]) (n * radix + d)

/-- The text does not begin with a digit of the radix. -/
def NoDigit (radix : Nat) (r : List Char) : Prop := ∀ c d, r.head? = some c → DigitOf c d → radix ≤ d

/-- The escapes of one character. -/
def charEscapes : List (Char × UInt8) :=
  [('a', 7), ('b', 8), ('f', 12), ('n', 10), ('r', 13), ('t', 9), ('v', 11), ('?', 63), ('\\', 92), ('\'', 39), ('"', 34)]

/-- What follows a backslash: the escape, the text after it and the bytes it stands for. Octal and
hexadecimal escapes take as many digits as they may. -/
inductive Esc : List Char → List Char → Bytes → Prop
  | char {c : Char} {x : UInt8} {r : List Char} (h : (c, x) ∈ charEscapes) : Esc [c] r [x]
  | oct {ds r : List Char} {n : Nat} (h : Numeral 8 ds n) (h1 : 1 ≤ ds.length) (h3 : ds.length ≤ 3)
      (hm : ds.length = 3 ∨ NoDigit 8 r) (hn : n < 256) : Esc ds r [UInt8.ofNat n]
  | hex {x : Char} {ds r : List Char} {n : Nat} (hx : x = 'x' ∨ x = 'X') (h : Numeral 16 ds n)
      (h1 : 1 ≤ ds.length) (h2 : ds.length ≤ 2) (hm : ds.length = 2 ∨ NoDigit 16 r) :
      Esc (x :: ds) r [UInt8.ofNat n]
  | short {ds r : List Char} {c : Char} (h : Numeral 16 ds c.toNat) (h4 : ds.length = 4) :
      Esc ('u' :: ds) r (utf8EncodeChar c)
  | long {ds r : List Char} {c : Char} (h : Numeral 16 ds c.toNat) (h8 : ds.length = 8) :
      Esc ('U' :: ds) r (utf8EncodeChar c)

/-- What stands between quotes `q`, and the bytes it stands for. -/
inductive Lit (q : Char) : List Char → Bytes → Prop
  | nil : Lit q [] []
  | plain {c : Char} {s : List Char} {b : Bytes} (h : c ≠ '\\' ∧ c ≠ q ∧ c.toNat ≠ 0 ∧ c ≠ '\n') (hs : Lit q s b) :
      Lit q (c :: s) (utf8EncodeChar c ++ b)
  | esc {e s : List Char} {x b : Bytes} (h : Esc e (s ++ [q]) x) (hs : Lit q s b) :
      Lit q ('\\' :: (e ++ s)) (x ++ b)

theorem hexDigit_iff {c : Char} {d : Nat} : hexDigit c = some d ↔ DigitOf c d := by
  constructor
  · intro h
    have key : ∀ k, k < 128 → ∀ d, hexDigit (Char.ofNat k) = some d → DigitOf (Char.ofNat k) d := by
      intro k hk d h
      have : d < 16 := by
        unfold hexDigit at h
        have := @inR_iff 48 57 (Char.ofNat k)
        have := @inR_iff 65 70 (Char.ofNat k)
        have := @inR_iff 97 102 (Char.ofNat k)
        grind
      have all : ∀ k : Fin 128, ∀ d : Fin 16, hexDigit (Char.ofNat k.1) = some d.1 →
          "0123456789abcdef".toList[d.1]? = some (Char.ofNat k.1) ∨
          "0123456789ABCDEF".toList[d.1]? = some (Char.ofNat k.1) := by decide +kernel
      exact all ⟨k, hk⟩ ⟨d, this⟩ h
    have hlt : c.toNat < 128 := by
      have := hexDigit_hex h
      simp only [cHex, Bool.or_eq_true, inR_iff] at this
      omega
    have := key c.toNat hlt d
    rw [Char.ofNat_toNat] at this
    exact this h
  · have all : ∀ d : Fin 16, ∀ c, ("0123456789abcdef".toList[d.1]? = some c ∨
        "0123456789ABCDEF".toList[d.1]? = some c) → hexDigit c = some d.1 := by
      intro d c h
      have h1 : ∀ d : Fin 16, hexDigit ("0123456789abcdef".toList[d.1]'(d.2)) = some d.1 := by decide +kernel
      have h2 : ∀ d : Fin 16, hexDigit ("0123456789ABCDEF".toList[d.1]'(d.2)) = some d.1 := by decide +kernel
      rcases h with h | h
      · obtain ⟨_, rfl⟩ := List.getElem?_eq_some_iff.1 h
        exact h1 d
      · obtain ⟨_, rfl⟩ := List.getElem?_eq_some_iff.1 h
        exact h2 d
    intro h
    have : d < 16 := by
      rcases h with h | h
      · exact (List.getElem?_eq_some_iff.1 h).1
      · exact (List.getElem?_eq_some_iff.1 h).1
    exact all ⟨d, this⟩ c h

theorem radixFrom_snoc {radix : Nat} {c : Char} : ∀ {s : List Char} {acc : Nat},
    radixFrom radix acc (s ++ [c]) = match radixFrom radix acc s with
      | some n => (match hexDigit c with
        | some d => if d < radix then some (n * radix + d) else none
        | none => none)
      | none => none
  | [], acc => by
    simp only [List.nil_append, radixFrom]
    cases hexDigit c <;> rfl
  | x :: s, acc => by
    simp only [List.cons_append, radixFrom]
    split
    · split
      · exact radixFrom_snoc
      · rfl
    · rfl

theorem numeral_iff {radix : Nat} {s : List Char} {n : Nat} : radixFrom radix 0 s = some n ↔ Numeral radix s n := by
  constructor
  · intro h
    generalize hk : s.length = k
    induction k generalizing s n with
    | zero =>
      cases s with
      | nil => cases h; exact .nil
      | cons => cases hk
    | succ k ih =>
      rcases List.eq_nil_or_concat s with rfl | ⟨t, c, rfl⟩
      · cases hk
      · rw [List.concat_eq_append] at h hk ⊢
        rw [radixFrom_snoc] at h
        split at h
        · next m hm =>
          split at h
          · next d hd =>
            split at h
            · next hlt =>
              cases h
              exact .snoc (ih hm (by simpa using hk)) (hexDigit_iff.1 hd) hlt
            · cases h
          · cases h
        · cases h
  · intro h
    induction h with
    | nil => rfl
    | snoc h hc hd ih =>
      rw [radixFrom_snoc, ih]
      simp only [hexDigit_iff.2 hc, if_pos hd]

theorem radixVal_iff {radix : Nat} {s : List Char} {n : Nat} :
    radixVal radix s = some n ↔ s ≠ [] ∧ Numeral radix s n := by
  unfold radixVal
  split
  · next h => simp [h]
  · next h => rw [numeral_iff]; exact ⟨fun x => ⟨h, x⟩, fun x => x.2⟩

theorem cOctal_iff {c : Char} : cOctal c = true ↔ ∃ d, DigitOf c d ∧ d < 8 := by
  constructor
  · intro h
    simp only [cOctal, inR_iff] at h
    refine ⟨c.toNat - 48, hexDigit_iff.1 ?_, by omega⟩
    rw [hexDigit, if_pos (inR_iff.2 (by omega))]
  · rintro ⟨d, h, hd⟩
    have := hexDigit_iff.2 h
    unfold hexDigit at this
    have := @inR_iff 48 57 c
    have := @inR_iff 65 70 c
    have := @inR_iff 97 102 c
    simp only [cOctal, inR_iff]
    grind

theorem cHex_iff {c : Char} : cHex c = true ↔ ∃ d, DigitOf c d ∧ d < 16 := by
  constructor
  · intro h
    have hh : ∃ d, hexDigit c = some d := by
      simp only [cHex, Bool.or_eq_true] at h
      unfold hexDigit
      split
      · exact ⟨_, rfl⟩
      · split
        · exact ⟨_, rfl⟩
        · split
          · exact ⟨_, rfl⟩
          · simp_all
    obtain ⟨d, hd⟩ := hh
    have := hexDigit_iff.1 hd
    refine ⟨d, this, ?_⟩
    rcases this with h | h
    · exact (List.getElem?_eq_some_iff.1 h).1
    · exact (List.getElem?_eq_some_iff.1 h).1
  · rintro ⟨d, h, -⟩
    exact hexDigit_hex (hexDigit_iff.2 h)

theorem charEscape_iff {c : Char} {x : UInt8} : charEscape c = some x ↔ (c, x) ∈ charEscapes := by
  unfold charEscape charEscapes
  constructor
  · intro h
    repeat' split at h
    all_goals first | (cases h; subst_vars; decide) | cases h
  · intro h
    simp only [List.mem_cons, List.not_mem_nil, or_false, Prod.mk.injEq] at h
    rcases h with ⟨rfl, rfl⟩ | ⟨rfl, rfl⟩ | ⟨rfl, rfl⟩ | ⟨rfl, rfl⟩ | ⟨rfl, rfl⟩ | ⟨rfl, rfl⟩ | ⟨rfl, rfl⟩ |
      ⟨rfl, rfl⟩ | ⟨rfl, rfl⟩ | ⟨rfl, rfl⟩ | ⟨rfl, rfl⟩ <;> rfl

theorem mkChar_some {n : Nat} {c : Char} : mkChar n = some c ↔ c.toNat = n := by
  unfold mkChar
  constructor
  · intro h
    split at h
    · next hv => cases h; simp [Char.ofNat, hv, Char.ofNatAux, Char.toNat]
    · cases h
  · rintro rfl
    have : c.toNat.isValidChar := c.valid
    rw [if_pos this]
    simp

theorem noDigit8 {r : List Char} : NoDigit 8 r ↔ ∀ c t, r = c :: t → cOctal c = false := by
  constructor
  · intro h c t hr
    rw [Bool.eq_false_iff]
    intro hc
    obtain ⟨d, h1, h2⟩ := cOctal_iff.1 hc
    have := h c d (by rw [hr]; rfl) h1
    omega
  · intro h c d hr hc
    cases r with
    | nil => cases hr
    | cons x t =>
      cases hr
      apply Nat.le_of_not_lt
      intro hd
      have := h _ _ rfl
      rw [cOctal_iff.2 ⟨d, hc, hd⟩] at this
      cases this

theorem noDigit16 {r : List Char} : NoDigit 16 r ↔ ∀ c t, r = c :: t → cHex c = false := by
  constructor
  · intro h c t hr
    rw [Bool.eq_false_iff]
    intro hc
    obtain ⟨d, h1, h2⟩ := cHex_iff.1 hc
    have := h c d (by rw [hr]; rfl) h1
    omega
  · intro h c d hr hc
    cases r with
    | nil => cases hr
    | cons x t =>
      cases hr
      apply Nat.le_of_not_lt
      intro hd
      have := h _ _ rfl
      rw [cHex_iff.2 ⟨d, hc, hd⟩] at this
      cases this

/-- The longest run of at most `k`. -/
theorem upTo_iff {p : Char → Bool} : ∀ {k : Nat} {ds r : List Char}, ds.length ≤ k → (∀ c ∈ ds, p c = true) →
    (ds.length = k ∨ ∀ c t, r = c :: t → p c = false) → upTo k p (ds ++ r) = ds
  | 0, ds, r, hk, _, _ => by
    have : ds = [] := List.eq_nil_of_length_eq_zero (by omega)
    subst this; rfl
  | k + 1, [], r, _, _, hm => by
    rcases hm with hm | hm
    · cases hm
    · cases r with
      | nil => rfl
      | cons c t =>
        have := hm c t rfl
        simp [upTo, this]
  | k + 1, c :: ds, r, hk, hp, hm => by
    have ih := upTo_iff (p := p) (k := k) (ds := ds) (r := r) (by simpa using hk)
      (fun x hx => hp x (List.mem_cons_of_mem _ hx)) (hm.imp (by simp) id)
    unfold upTo at ih ⊢
    rw [List.cons_append, List.take_succ_cons, List.takeWhile_cons, if_pos (hp c (List.mem_cons_self ..)), ih]

theorem upTo_max {p : Char → Bool} : ∀ {k : Nat} {s : List Char}, (upTo k p s).length ≤ k ∧
    (∀ c ∈ upTo k p s, p c = true) ∧ ((upTo k p s).length = k ∨
      ∀ c t, s.drop (upTo k p s).length = c :: t → p c = false)
  | 0, s => by simp [upTo]
  | k + 1, [] => by simp [upTo]
  | k + 1, c :: s => by
    obtain ⟨h1, h2, h3⟩ := upTo_max (p := p) (k := k) (s := s)
    have hu : upTo (k + 1) p (c :: s) = if p c then c :: upTo k p s else [] := by
      simp only [upTo, List.take_succ_cons, List.takeWhile_cons]
    rw [hu]
    split
    · next hc =>
      refine ⟨by simpa using h1, ?_, ?_⟩
      · intro x hx
        rcases List.mem_cons.1 hx with rfl | hx
        · exact hc
        · exact h2 x hx
      · exact h3.imp (by simp) (fun h x t ht => h x t (by simpa using ht))
    · next hc =>
      refine ⟨by simp, by simp, .inr ?_⟩
      intro x t hx
      cases hx
      simpa using hc

theorem numeral_octal {s : List Char} {n : Nat} (h : Numeral 8 s n) : ∀ c ∈ s, cOctal c = true := by
  induction h with
  | nil => simp
  | snoc h hc hd ih =>
    intro x hx
    rcases List.mem_append.1 hx with hx | hx
    · exact ih x hx
    · cases List.mem_singleton.1 hx
      exact cOctal_iff.2 ⟨_, hc, hd⟩

theorem numeral_hex {s : List Char} {n : Nat} (h : Numeral 16 s n) : ∀ c ∈ s, cHex c = true := by
  induction h with
  | nil => simp
  | snoc h hc hd ih =>
    intro x hx
    rcases List.mem_append.1 hx with hx | hx
    · exact ih x hx
    · cases List.mem_singleton.1 hx
      exact cHex_iff.2 ⟨_, hc, hd⟩

theorem unicode_iff {k : Nat} (hk : 0 < k) {s r : List Char} {b : Bytes} : unicodeEscape k s = some (b, r) ↔
    ∃ ds c, s = ds ++ r ∧ ds.length = k ∧ Numeral 16 ds c.toNat ∧ b = utf8EncodeChar c := by
  constructor
  · intro h
    unfold unicodeEscape at h
    split at h
    · next hl =>
      split at h
      · next n hn =>
        split at h
        · next c hc =>
          cases h
          have := mkChar_some.1 hc
          subst this
          exact ⟨s.take k, c, (List.take_append_drop k s).symm, hl, (radixVal_iff.1 hn).2, rfl⟩
        · cases h
      · cases h
    · cases h
  · rintro ⟨ds, c, rfl, rfl, hn, rfl⟩
    have hne : ds ≠ [] := by rintro rfl; simp at hk
    unfold unicodeEscape
    rw [List.take_left, if_pos rfl, radixVal_iff.2 ⟨hne, hn⟩]
    simp only [mkChar_some.2 rfl, List.drop_left]

theorem octal_not_char {c : Char} (h : cOctal c = true) : charEscape c = none := by
  cases hc : charEscape c with
  | none => rfl
  | some x =>
    have := charEscape_iff.1 hc
    simp only [charEscapes, List.mem_cons, List.not_mem_nil, or_false, Prod.mk.injEq] at this
    rcases this with ⟨rfl, rfl⟩ | ⟨rfl, rfl⟩ | ⟨rfl, rfl⟩ | ⟨rfl, rfl⟩ | ⟨rfl, rfl⟩ | ⟨rfl, rfl⟩ | ⟨rfl, rfl⟩ |
      ⟨rfl, rfl⟩ | ⟨rfl, rfl⟩ | ⟨rfl, rfl⟩ | ⟨rfl, rfl⟩ <;> revert h <;> decide

/-- An escape is read as the grammar says, and nothing else is an escape. -/
theorem escape_iff {s r : List Char} {b : Bytes} : escape s = some (b, r) ↔ ∃ e, s = e ++ r ∧ Esc e r b := by
  constructor
  · intro h
    cases s with
    | nil => cases h
    | cons c t =>
      simp only [escape] at h
      split at h
      · next x hx =>
        cases h
        exact ⟨[c], rfl, .char (charEscape_iff.1 hx)⟩
      · split at h
        · split at h
          · next n hn =>
            split at h
            · next hlt =>
              cases h
              obtain ⟨hne, hn⟩ := radixVal_iff.1 hn
              obtain ⟨h1, -, h3⟩ := upTo_max (p := cOctal) (k := 3) (s := c :: t)
              exact ⟨_, upTo_split 3 cOctal (c :: t), .oct hn (List.length_pos_iff.2 hne) h1
                (h3.imp id noDigit8.2) hlt⟩
            · cases h
          · cases h
        · split at h
          · next hx =>
            split at h
            · next n hn =>
              cases h
              obtain ⟨hne, hn⟩ := radixVal_iff.1 hn
              obtain ⟨h1, -, h3⟩ := upTo_max (p := cHex) (k := 2) (s := t)
              exact ⟨c :: upTo 2 cHex t, congrArg (c :: ·) (upTo_split 2 cHex t), .hex hx hn (List.length_pos_iff.2 hne) h1
                (h3.imp id noDigit16.2)⟩
            · cases h
          · split at h
            · next hc =>
              subst hc
              obtain ⟨ds, x, rfl, hl, hn, rfl⟩ := (unicode_iff (by decide)).1 h
              exact ⟨_, rfl, .short hn hl⟩
            · split at h
              · next hc =>
                subst hc
                obtain ⟨ds, x, rfl, hl, hn, rfl⟩ := (unicode_iff (by decide)).1 h
                exact ⟨_, rfl, .long hn hl⟩
              · cases h
  · rintro ⟨e, rfl, h⟩
    cases h with
    | char h => simp only [List.cons_append, List.nil_append, escape, charEscape_iff.2 h]
    | oct h h1 h3 hm hn =>
      cases e with
      | nil => cases h1
      | cons c ds =>
        have hc : cOctal c = true := numeral_octal h c (List.mem_cons_self ..)
        have hu := upTo_iff (p := cOctal) h3 (numeral_octal h) (hm.imp id noDigit8.1)
        rw [List.cons_append] at hu
        simp only [List.cons_append, escape, octal_not_char hc, if_pos hc, hu,
          radixVal_iff.2 ⟨by simp, h⟩, if_pos hn]
        congr 2
        exact List.drop_left (l₁ := c :: ds) (l₂ := r)
    | @hex x ds _ n hx h h1 h2 hm =>
      have hu := upTo_iff (p := cHex) h2 (numeral_hex h) (hm.imp id noDigit16.1)
      have hne : ds ≠ [] := List.length_pos_iff.1 h1
      have hce : charEscape x = none := by rcases hx with rfl | rfl <;> decide
      have hco : ¬ cOctal x = true := by rcases hx with rfl | rfl <;> decide
      simp only [List.cons_append, escape, hce, if_neg hco, if_pos hx, hu, radixVal_iff.2 ⟨hne, h⟩, List.drop_left]
    | short h h4 =>
      have := (unicode_iff (k := 4) (by decide) (r := r)).2 ⟨_, _, rfl, h4, h, rfl⟩
      simp [escape, charEscape, cOctal, inR, this]
    | long h h8 =>
      have := (unicode_iff (k := 8) (by decide) (r := r)).2 ⟨_, _, rfl, h8, h, rfl⟩
      simp [escape, charEscape, cOctal, inR, this]

theorem Esc.congr {e r r' : List Char} {b : Bytes} (h : Esc e r b) (hr : r.head? = r'.head?) : Esc e r' b := by
  have hd : ∀ {k}, NoDigit k r → NoDigit k r' := fun h c d hc => h c d (hr.trans hc)
  cases h with
  | char h => exact .char h
  | oct h h1 h3 hm hn => exact .oct h h1 h3 (hm.imp id hd) hn
  | hex hx h h1 h2 hm => exact .hex hx h h1 h2 (hm.imp id hd)
  | short h h4 => exact .short h h4
  | long h h8 => exact .long h h8

theorem strN_lit {q : Char} {n : Nat} : ∀ {s r : List Char} {b : Bytes}, strN q n s = some (b, r) →
    ∃ lit, s = lit ++ (q :: r) ∧ Lit q lit b := by
  induction n with
  | zero => intro s r b h; cases h
  | succ n ih =>
    intro s r b h
    cases s with
    | nil => cases h
    | cons c t =>
      rw [strN] at h
      split at h
      · next hc =>
        split at h
        · next b' r' he =>
          split at h
          · next bs r'' hs =>
            cases h
            obtain ⟨e, rfl, hi⟩ := escape_iff.1 he
            obtain ⟨lit, rfl, hl⟩ := ih hs
            refine ⟨c :: (e ++ lit), by simp, ?_⟩
            subst hc
            exact .esc (hi.congr (by cases lit <;> rfl)) hl
          · cases h
        · cases h
      · split at h
        · next hq =>
          cases h
          exact ⟨[], by rw [hq]; rfl, .nil⟩
        · split at h
          · cases h
          · next h1 h2 hb =>
            split at h
            · next bs r' hs =>
              cases h
              obtain ⟨lit, rfl, hl⟩ := ih hs
              exact ⟨c :: lit, rfl, .plain ⟨h1, h2, by simpa using hb⟩ hl⟩
            · cases h

theorem strN_of_lit {q : Char} (hq : q ≠ '\\') {s : List Char} {b : Bytes} (h : Lit q s b) : ∀ {n : Nat} (r : List Char),
    s.length < n → strN q n (s ++ (q :: r)) = some (b, r) := by
  induction h with
  | nil =>
    intro n r hn
    cases n with
    | zero => cases hn
    | succ n => simp [strN, hq]
  | plain h hs ih =>
    intro n r hn
    cases n with
    | zero => cases hn
    | succ n =>
      rw [List.cons_append, strN, if_neg h.1, if_neg h.2.1, if_neg (by simp [h.2.2]),
        ih r (by simpa using hn)]
  | @esc e s x b h hs ih =>
    intro n r hn
    cases n with
    | zero => cases hn
    | succ n =>
      have he : escape (e ++ (s ++ (q :: r))) = some (x, s ++ (q :: r)) :=
        escape_iff.2 ⟨e, rfl, h.congr (by cases s <;> rfl)⟩
      rw [List.cons_append, List.append_assoc, strN, if_pos rfl, he]
      have hl : s.length < n := by
        have h1 := Nat.lt_of_succ_lt_succ hn
        rw [List.length_append] at h1
        omega
      simp only [ih r hl]

/-- **C55, literals.** Text that begins with a quote is a string literal exactly when it goes on with
plain characters and escapes up to the same quote, and its bytes are then the UTF-8 bytes of the plain
characters and what each escape stands for: a control character or quote, one to three octal digits, `x`
and one or two hexadecimal digits, `u` and four or `U` and eight of them. -/
theorem C55_escapes (fp : List Char → Option (BitVec 64)) {q : Char} (hq : q = '\'' ∨ q = '"')
    {s rest : List Char} {t : Tok} : lexStep fp (q :: s) = .tok t rest ↔
      ∃ lit b, t = .str b ∧ s = lit ++ (q :: rest) ∧ Lit q lit b := by
  have key : lexStep fp (q :: s) = match lexStr q s with
      | some (b, r') => Step.tok (.str b) r'
      | none => .bad := by
    rcases hq with rfl | rfl
    · rw [lexStep, if_neg (by decide), if_neg (by decide), if_neg (by decide), if_pos (by decide)]
      cases lexStr '\'' s <;> rfl
    · rw [lexStep, if_neg (by decide), if_neg (by decide), if_neg (by decide), if_pos (by decide)]
      cases lexStr '"' s <;> rfl
  rw [key]
  constructor
  · intro h
    split at h
    · next b r' hl =>
      cases h
      obtain ⟨lit, rfl, hL⟩ := strN_lit hl
      exact ⟨lit, b, rfl, rfl, hL⟩
    · cases h
  · rintro ⟨lit, b, rfl, rfl, hL⟩
    have : lexStr q (lit ++ (q :: rest)) = some (b, rest) :=
      strN_of_lit (by rcases hq with rfl | rfl <;> decide) hL rest (by simp; omega)
    rw [this]

/-- `\u0416` stands for the letter with that number, `\1018` for octal 101 and the digit 8. -/
example : Lit '"' "\\u0416\\1018\\xag".toList [0xD0, 0x96, 0x41, 0x38, 0x0A, 0x67] :=
  .esc (e := "u0416".toList) (s := "\\1018\\xag".toList) (x := [0xD0, 0x96])
    (.short (c := Char.ofNat 0x416) (numeral_iff.1 rfl) rfl)
    (.esc (e := "101".toList) (s := "8\\xag".toList) (x := [0x41])
      (.oct ((numeral_iff (n := 65)).1 rfl) (by decide) (by decide) (.inl rfl) (by decide))
      (.plain (c := '8') (by decide)
        (.esc (e := "xa".toList) (s := "g".toList) (x := [0x0A])
          (.hex (.inl rfl) ((numeral_iff (n := 10)).1 rfl) (by decide) (by decide)
            (.inr (noDigit16.2 (by rintro c t ⟨⟩; decide)))) (.plain (c := 'g') (by decide) .nil))))

end Verif.Props
