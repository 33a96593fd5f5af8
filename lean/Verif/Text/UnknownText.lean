import Verif.Text.RoundTrip
import Verif.Wire.UnknownLemmas
/-!
How unknown fields are printed: their tokens, and that nothing printed is ambiguous.
-/
set_option autoImplicit false
namespace Verif.Text
open Verif.Wire Verif.Dyn Verif.Pool

/-- What the text of an unknown field tells of its value. -/
inductive Shown where
  | varint (v : BitVec 64)
  | bits32 (v : BitVec 32)
  | bits64 (v : BitVec 64)
  | str (b : Bytes)
  | block (fs : List (Nat × Shown))

mutual
/-- What is told of a value: numbers exactly, groups as blocks, and a length-delimited value as a
block if it is not empty and can be read as unknown fields, else as a string. -/
inductive Shows : UVal → Shown → Prop
  | varint (v : BitVec 64) : Shows (.varint v) (.varint v)
  | bits32 (v : BitVec 32) : Shows (.thirtyTwo v) (.bits32 v)
  | bits64 (v : BitVec 64) : Shows (.sixtyFour v) (.bits64 v)
  | empty : Shows (.len []) (.str [])
  | str {b : Bytes} : decodeUSet b = none → Shows (.len b) (.str b)
  | msg {b : Bytes} {us : USet} {ss : List (Nat × Shown)} : b ≠ [] → decodeUSet b = some us → ShowsAll us ss →
      Shows (.len b) (.block ss)
  | group {us : USet} {ss : List (Nat × Shown)} : ShowsAll us ss → Shows (.group us) (.block ss)
/-- Field by field. -/
inductive ShowsAll : USet → List (Nat × Shown) → Prop
  | nil : ShowsAll [] []
  | cons {n : Nat} {u : UVal} {s : Shown} {us : USet} {ss : List (Nat × Shown)} : Shows u s → ShowsAll us ss →
      ShowsAll ((n, u) :: us) ((n, s) :: ss)
end

/-- `ds` are `w` lower-case hexadecimal digits of the value `n`. -/
def HexOf (w n : Nat) (ds : List Char) : Prop :=
  ds.length = w ∧ (∀ c ∈ ds, inR 48 57 c = true ∨ inR 97 102 c = true) ∧ posVal 16 ds = n

/-- `ds` are the decimal digits of `n`, without leading zeros. -/
def DecOf (n : Nat) (ds : List Char) : Prop := IntLit ds ds 10 ∧ posVal 10 ds = n

mutual
/-- The tokens of a field: the number; then a colon and a decimal number, eight or sixteen
hexadecimal digits or a string; or the fields of a block in braces, separated by `sep`. -/
inductive Spells (sep : List Tok) : Nat → Shown → List Tok → Prop
  | varint {n : Nat} {v : BitVec 64} {ds es : List Char} : DecOf n ds → DecOf v.toNat es →
      Spells sep n (.varint v) [.int ds 10, .colon, .int es 10]
  | bits32 {n : Nat} {v : BitVec 32} {ds es : List Char} : DecOf n ds → HexOf 8 v.toNat es →
      Spells sep n (.bits32 v) [.int ds 10, .colon, .int es 16]
  | bits64 {n : Nat} {v : BitVec 64} {ds es : List Char} : DecOf n ds → HexOf 16 v.toNat es →
      Spells sep n (.bits64 v) [.int ds 10, .colon, .int es 16]
  | str {n : Nat} {b : Bytes} {ds : List Char} : DecOf n ds → Spells sep n (.str b) [.int ds 10, .colon, .str b]
  | block {n : Nat} {ss : List (Nat × Shown)} {ds : List Char} {t : List Tok} : DecOf n ds → SpellsAll sep ss t →
      Spells sep n (.block ss) (.int ds 10 :: .lbrace :: (t ++ [.rbrace]))
/-- The tokens of fields. -/
inductive SpellsAll (sep : List Tok) : List (Nat × Shown) → List Tok → Prop
  | nil : SpellsAll sep [] []
  | one {n : Nat} {s : Shown} {t : List Tok} : Spells sep n s t → SpellsAll sep [(n, s)] t
  | cons {n : Nat} {s : Shown} {t t' : List Tok} {p : Nat × Shown} {ss : List (Nat × Shown)} : Spells sep n s t →
      SpellsAll sep (p :: ss) t' → SpellsAll sep ((n, s) :: p :: ss) (t ++ (sep ++ t'))
end

/-! ### The tokens determine what is told -/

/-- What follows a list of fields. -/
def Ends (r : List Tok) : Prop := r = [] ∨ ∃ r', r = .rbrace :: r'

theorem Spells.head {sep : List Tok} {n : Nat} {s : Shown} {t : List Tok} (h : Spells sep n s t) :
    ∃ ds c t', t = .int ds 10 :: c :: t' ∧ DecOf n ds := by
  cases h <;> exact ⟨_, _, _, rfl, by assumption⟩

theorem SpellsAll.head {sep : List Tok} {p : Nat × Shown} {ss : List (Nat × Shown)} {t : List Tok}
    (h : SpellsAll sep (p :: ss) t) : ∃ ds c t', t = .int ds 10 :: c :: t' := by
  cases h with
  | one h => obtain ⟨ds, c, t1, h, -⟩ := h.head; exact ⟨ds, c, t1, h⟩
  | cons h _ =>
    obtain ⟨ds, c, t1, rfl, -⟩ := h.head
    exact ⟨ds, c, _, rfl⟩

theorem Spells.num {sep : List Tok} {n n' : Nat} {s s' : Shown} {t t' r r' : List Tok} (h : Spells sep n s t)
    (h' : Spells sep n' s' t') (e : t ++ r = t' ++ r') : n = n' := by
  obtain ⟨ds, c, t1, rfl, h1⟩ := h.head
  obtain ⟨ds', c', t2, rfl, h2⟩ := h'.head
  simp only [List.cons_append, List.cons.injEq, Tok.int.injEq, and_true] at e
  rw [← h1.2, ← h2.2, e.1]

/-- A separator is nothing or a comma. -/
def SepOk (sep : List Tok) : Prop := sep = [] ∨ sep = [.comma]

mutual
theorem spells_unique {sep : List Tok} (hs : SepOk sep) : (s : Shown) → {n n' : Nat} → {s' : Shown} → {t t' r r' : List Tok} →
    Spells sep n s t → Spells sep n' s' t' → t ++ r = t' ++ r' → s = s' ∧ t = t' ∧ r = r'
  | .varint v, n, n', s', t, t', r, r', h, h', e => by
    cases h with
    | varint h1 h2 =>
      cases h' with
      | varint h3 h4 =>
        simp only [List.cons_append, List.nil_append, List.cons.injEq, Tok.int.injEq, and_true, true_and] at e
        obtain ⟨e1, e2, e3⟩ := e
        subst e1; subst e2
        refine ⟨?_, rfl, e3⟩
        congr 1
        apply BitVec.eq_of_toNat_eq
        rw [← h2.2, ← h4.2]
      | bits32 h3 h4 => simp at e
      | bits64 h3 h4 => simp at e
      | str h3 => simp at e
      | block h3 h4 => simp at e
  | .bits32 v, n, n', s', t, t', r, r', h, h', e => by
    cases h with
    | bits32 h1 h2 =>
      cases h' with
      | bits32 h3 h4 =>
        simp only [List.cons_append, List.nil_append, List.cons.injEq, Tok.int.injEq, and_true, true_and] at e
        obtain ⟨e1, e2, e3⟩ := e
        subst e1; subst e2
        refine ⟨?_, rfl, e3⟩
        congr 1
        apply BitVec.eq_of_toNat_eq
        rw [← h2.2.2, ← h4.2.2]
      | varint h3 h4 => simp at e
      | bits64 h3 h4 =>
        simp only [List.cons_append, List.nil_append, List.cons.injEq, Tok.int.injEq, and_true, true_and] at e
        obtain ⟨e1, e2, e3⟩ := e
        have := h2.1
        rw [e2, h4.1] at this
        omega
      | str h3 => simp at e
      | block h3 h4 => simp at e
  | .bits64 v, n, n', s', t, t', r, r', h, h', e => by
    cases h with
    | bits64 h1 h2 =>
      cases h' with
      | bits64 h3 h4 =>
        simp only [List.cons_append, List.nil_append, List.cons.injEq, Tok.int.injEq, and_true, true_and] at e
        obtain ⟨e1, e2, e3⟩ := e
        subst e1; subst e2
        refine ⟨?_, rfl, e3⟩
        congr 1
        apply BitVec.eq_of_toNat_eq
        rw [← h2.2.2, ← h4.2.2]
      | varint h3 h4 => simp at e
      | bits32 h3 h4 =>
        simp only [List.cons_append, List.nil_append, List.cons.injEq, Tok.int.injEq, and_true, true_and] at e
        obtain ⟨e1, e2, e3⟩ := e
        have := h2.1
        rw [e2, h4.1] at this
        omega
      | str h3 => simp at e
      | block h3 h4 => simp at e
  | .str b, n, n', s', t, t', r, r', h, h', e => by
    cases h with
    | str h1 =>
      cases h' with
      | str h3 =>
        simp only [List.cons_append, List.nil_append, List.cons.injEq, Tok.int.injEq, and_true, true_and, Tok.str.injEq] at e
        obtain ⟨e1, e2, e3⟩ := e
        subst e1; subst e2
        exact ⟨rfl, rfl, e3⟩
      | varint h3 h4 => simp at e
      | bits32 h3 h4 => simp at e
      | bits64 h3 h4 => simp at e
      | block h3 h4 => simp at e
  | .block ss, n, n', s', t, t', r, r', h, h', e => by
    cases h with
    | block h1 h2 =>
      cases h' with
      | block h3 h4 =>
        simp only [List.cons_append, List.append_assoc, List.nil_append, List.cons.injEq, Tok.int.injEq, and_true, true_and] at e
        obtain ⟨e1, e2⟩ := e
        obtain ⟨e3, e4, e5⟩ := spellsAll_unique hs ss h2 h4 (.inr ⟨_, rfl⟩) (.inr ⟨_, rfl⟩) e2
        subst e1; subst e3; subst e4
        exact ⟨rfl, rfl, by simpa using e5⟩
      | varint h3 h4 => simp at e
      | bits32 h3 h4 => simp at e
      | bits64 h3 h4 => simp at e
      | str h3 => simp at e
theorem spellsAll_unique {sep : List Tok} (hs : SepOk sep) : (ss : List (Nat × Shown)) → {ss' : List (Nat × Shown)} →
    {t t' r r' : List Tok} → SpellsAll sep ss t → SpellsAll sep ss' t' → Ends r → Ends r' → t ++ r = t' ++ r' →
    ss = ss' ∧ t = t' ∧ r = r'
  | [], ss', t, t', r, r', h, h', hr, hr', e => by
    cases h
    have aux : ∀ {n : Nat} {s : Shown} {t : List Tok} {x : List Tok}, Spells sep n s t → r = t ++ x → False := by
      intro n s t x h1 h2
      obtain ⟨ds, c, t1, rfl, -⟩ := h1.head
      rcases hr with rfl | ⟨_, rfl⟩ <;> simp at h2
    cases h' with
    | nil => exact ⟨rfl, rfl, e⟩
    | one h1 => exact (aux h1 e).elim
    | cons h1 h2 => rw [List.append_assoc] at e; exact (aux h1 e).elim
  | [(n, s)], ss', t, t', r, r', h, h', hr, hr', e => by
    cases h with
    | one h1 =>
      cases h' with
      | nil =>
        obtain ⟨ds, c, t1, rfl, -⟩ := h1.head
        rcases hr' with rfl | ⟨_, rfl⟩ <;> simp at e
      | one h2 =>
        have hn := h1.num h2 e
        obtain ⟨e1, e2, e3⟩ := spells_unique hs s h1 h2 e
        exact ⟨by rw [hn, e1], e2, e3⟩
      | cons h2 h3 =>
        rw [List.append_assoc] at e
        obtain ⟨e1, e2, e3⟩ := spells_unique hs s h1 h2 e
        exfalso
        obtain ⟨ds, c, t1, rfl⟩ := h3.head
        rcases hs with rfl | rfl <;> rcases hr with rfl | ⟨_, rfl⟩ <;> simp at e3
  | (n, s) :: p :: ss, ss', t, t', r, r', h, h', hr, hr', e => by
    cases h with
    | cons h1 h2 =>
      cases h' with
      | nil =>
        obtain ⟨ds, c, t1, rfl, -⟩ := h1.head
        rcases hr' with rfl | ⟨_, rfl⟩ <;> simp at e
      | one h3 =>
        rw [List.append_assoc] at e
        obtain ⟨e1, e2, e3⟩ := spells_unique hs s h1 h3 e
        exfalso
        obtain ⟨ds, c, t1, rfl⟩ := h2.head
        rcases hs with rfl | rfl <;> rcases hr' with rfl | ⟨_, rfl⟩ <;> simp at e3
      | cons h3 h4 =>
        rw [List.append_assoc, List.append_assoc _ _ r'] at e
        have hn := h1.num h3 e
        obtain ⟨e1, e2, e3⟩ := spells_unique hs s h1 h3 e
        rw [List.append_assoc, List.append_assoc, List.append_cancel_left_eq] at e3
        obtain ⟨e4, e5, e6⟩ := spellsAll_unique hs (p :: ss) h2 h4 hr hr' e3
        subst hn; subst e1; subst e2; subst e5
        exact ⟨by rw [e4], rfl, e6⟩
end

/-! ### Numbers -/

theorem hexChar_ok {n : Nat} (h : n < 16) : digitOf (hexChar n) = n ∧ (inR 48 57 (hexChar n) = true ∨ inR 97 102 (hexChar n) = true) := by
  have : ∀ n, n < 16 → digitOf (hexChar n) = n ∧ (inR 48 57 (hexChar n) = true ∨ inR 97 102 (hexChar n) = true) := by decide
  exact this n h

theorem posVal_snoc (x : Nat) (ds : List Char) (c : Char) : posVal x (ds ++ [c]) = posVal x ds * x + digitOf c := by
  induction ds with
  | nil => simp [posVal]
  | cons d r ih =>
    simp only [List.cons_append, posVal, ih, List.length_append, List.length_cons, List.length_nil, Nat.pow_succ]
    rw [Nat.add_mul, Nat.mul_assoc]
    omega

theorem hexPad_of : (w n : Nat) → n < 16 ^ w → HexOf w n (hexPad w n)
  | 0, n, h => ⟨rfl, (fun c hc => by cases hc), by simp at h; subst h; rfl⟩
  | w + 1, n, h => by
    obtain ⟨h1, h2, h3⟩ := hexPad_of w (n / 16) (by rw [Nat.pow_succ] at h; omega)
    obtain ⟨h4, h5⟩ := hexChar_ok (Nat.mod_lt n (by decide : 0 < 16))
    refine ⟨by simp [hexPad, h1], ?_, ?_⟩
    · intro c hc
      simp only [hexPad, List.mem_append, List.mem_singleton] at hc
      rcases hc with hc | rfl
      · exact h2 c hc
      · exact h5
    · rw [hexPad, posVal_snoc, h3, h4]
      omega

theorem HexOf.lit {w n : Nat} {ds : List Char} (h : HexOf (w + 1) n ds) : IntLit ('0' :: 'x' :: ds) ds 16 := by
  refine .hex (.inl rfl) ?_ ?_
  · intro e; rw [e] at h; have := h.1; simp at this
  · intro c hc
    simp only [cHex, Bool.or_eq_true]
    rcases h.2.1 c hc with h | h
    · exact .inl (.inl h)
    · exact .inr h

theorem decDigits_of (n : Nat) : DecOf n (decDigits n) := ⟨decDigits_lit n, posVal_decDigits n⟩

/-! ### The text of unknown fields -/

/-- The separator of a layout. -/
def sepTok (o : FOpts) : List Tok := if o.pretty then [] else [.comma]

theorem sepTok_ok (o : FOpts) : SepOk (sepTok o) := by
  unfold SepOk sepTok
  split <;> simp

theorem stop_pad (o : FOpts) {c : Char} {r : List Char} (h : cIdent c = false) (h' : c ≠ '.') :
    Stop (pad o ++ c :: r) := by
  unfold pad
  split
  · exact Stop.cons (by decide) (by decide)
  · exact Stop.cons h h'

/-- Separators and what may follow. -/
theorem lex_fields {fp : List Char → Option (BitVec 64)} {o : FOpts} {ind : Nat} {f : UField → Option (List Char)} :
    (us : USet) → {ss : List (List Char)} → fmtAll f us = some ss →
    (∀ n u s, f (n, u) = some s → ∃ sh t, Shows u sh ∧ Spells (sepTok o) n sh t ∧
      ∀ r, Stop r → lex fp (s ++ r) = t.map .tok ++ lex fp r) →
    ∃ shs t, ShowsAll us shs ∧ SpellsAll (sepTok o) shs t ∧
      ∀ r, Stop r → lex fp (joinWith (if o.pretty then newline ind else [',']) ss ++ r) = t.map .tok ++ lex fp r
  | [], ss, h, hf => by
    cases h
    exact ⟨[], [], .nil, .nil, fun r _ => rfl⟩
  | (n, u) :: us, ss, h, hf => by
    simp only [fmtAll] at h
    split at h
    · rename_i s ss' h1 h2
      cases h
      obtain ⟨sh, t, hsh, ht, hl⟩ := hf n u s h1
      obtain ⟨shs, t', hshs, ht', hl'⟩ := lex_fields us h2 hf
      cases us with
      | nil =>
        cases h2; cases hshs
        exact ⟨_, t, .cons hsh .nil, .one ht, fun r hr => by simp only [joinWith]; exact hl r hr⟩
      | cons p us =>
        obtain ⟨s2, ss2, rfl⟩ : ∃ s2 ss2, ss' = s2 :: ss2 := by
          simp only [fmtAll] at h2
          split at h2
          · cases h2; exact ⟨_, _, rfl⟩
          · cases h2
        cases hshs with
        | cons h5 h6 =>
          refine ⟨_, _, .cons hsh (.cons h5 h6), .cons ht ht', ?_⟩
          intro r hr
          simp only [joinWith, List.append_assoc]
          have hstop : Stop ((if o.pretty then newline ind else [',']) ++
              (joinWith (if o.pretty then newline ind else [',']) (s2 :: ss2) ++ r)) := by
            split
            · exact stop_newline _ _
            · exact Stop.cons (by decide) (by decide)
          have e1 := hl _ hstop
          rw [e1, List.map_append, List.map_append, List.append_assoc, List.append_assoc]
          congr 1
          rw [← hl' r hr]
          unfold sepTok
          split
          · simp only [List.map_nil, List.nil_append]; exact lex_newline _ _
          · exact lex_punct (t := .comma) rfl (by decide)
    · cases h

/-- The text of an unknown field is its tokens. -/
theorem fmtUnknown_lex {fp : List Char → Option (BitVec 64)} {o : FOpts} : (k : Nat) → {ind n : Nat} → {u : UVal} → {s : List Char} →
    fmtUnknown o k ind (n, u) = some s → ∃ sh t, Shows u sh ∧ Spells (sepTok o) n sh t ∧
      ∀ r, Stop r → lex fp (s ++ r) = t.map .tok ++ lex fp r
  | 0, ind, n, u, s, h => by cases h
  | k + 1, ind, n, u, s, h => by
    have scal : ∀ {lit : List Char} {t : Tok}, (∀ r, Stop r → lex fp (lit ++ r) = .tok t :: lex fp r) →
        some (decDigits n ++ ':' :: (pad o ++ lit)) = some s →
        ∀ r, Stop r → lex fp (s ++ r) = [Tok.int (decDigits n) 10, .colon, t].map .tok ++ lex fp r := by
      intro lit t hl e r hr
      cases e
      simp only [List.append_assoc, List.cons_append]
      rw [lex_int (decDigits_lit n) (Stop.cons (by decide) (by decide)), lex_punct (t := .colon) rfl (by decide), lex_pad, hl r hr]
      rfl
    have blk : ∀ {us : USet}, ((if us.isEmpty then some ['{', '}']
        else braced o ind (fun ind => fmtDelimited o ind (fmtUnknown o k ind) us)).map (fun s => decDigits n ++ (pad o ++ s))) = some s →
        ∃ shs t, ShowsAll us shs ∧ SpellsAll (sepTok o) shs t ∧
          ∀ r, Stop r → lex fp (s ++ r) = (Tok.int (decDigits n) 10 :: .lbrace :: (t ++ [.rbrace])).map .tok ++ lex fp r := by
      intro us h
      obtain ⟨b, hb, rfl⟩ := Option.map_eq_some_iff.1 h
      have fin : ∀ {body : List Char} {t : List Tok}, b = '{' :: body →
          (∀ r, lex fp (body ++ r) = t.map .tok ++ .tok .rbrace :: lex fp r) →
          ∀ r, Stop r → lex fp (decDigits n ++ (pad o ++ b) ++ r) =
            (Tok.int (decDigits n) 10 :: .lbrace :: (t ++ [.rbrace])).map .tok ++ lex fp r := by
        rintro body t rfl hl r hr
        simp only [List.append_assoc, List.cons_append]
        rw [lex_int (decDigits_lit n) (stop_pad o (by decide) (by decide)), lex_pad, lex_punct (t := .lbrace) rfl (by decide), hl r]
        simp
      cases us with
      | nil =>
        cases hb
        refine ⟨[], [], .nil, .nil, fin rfl (fun r => ?_)⟩
        exact lex_punct (t := .rbrace) rfl (by decide)
      | cons p us =>
        rw [if_neg (by simp)] at hb
        unfold braced at hb
        split at hb
        · obtain ⟨x, hx, rfl⟩ := Option.map_eq_some_iff.1 hb
          obtain ⟨ss, hss, rfl⟩ := Option.map_eq_some_iff.1 hx
          obtain ⟨shs, t, h1, h2, h3⟩ := lex_fields (fp := fp) (o := o) (ind := ind + 2) _ hss (fun n u s h => fmtUnknown_lex k h)
          refine ⟨shs, t, h1, h2, fin rfl (fun r => ?_)⟩
          rw [List.append_assoc, lex_newline, List.append_assoc, h3 _ (by rw [List.append_assoc]; exact stop_newline _ _), List.append_assoc, lex_newline]
          congr 1
          exact lex_punct (t := .rbrace) rfl (by decide)
        · obtain ⟨x, hx, rfl⟩ := Option.map_eq_some_iff.1 hb
          obtain ⟨ss, hss, rfl⟩ := Option.map_eq_some_iff.1 hx
          obtain ⟨shs, t, h1, h2, h3⟩ := lex_fields (fp := fp) (o := o) (ind := ind) _ hss (fun n u s h => fmtUnknown_lex k h)
          refine ⟨shs, t, h1, h2, fin rfl (fun r => ?_)⟩
          rw [List.append_assoc]
          show lex fp (_ ++ '}' :: r) = _
          rw [h3 _ (Stop.cons (by decide) (by decide))]
          congr 1
          exact lex_punct (t := .rbrace) rfl (by decide)
    simp only [fmtUnknown] at h
    cases u with
    | varint v =>
      exact ⟨.varint v, _, .varint v, .varint (decDigits_of n) (decDigits_of _),
        scal (fun r hr => lex_int (decDigits_lit _) hr) h⟩
    | thirtyTwo v =>
      have hv := hexPad_of 8 v.toNat v.isLt
      exact ⟨.bits32 v, _, .bits32 v, .bits32 (decDigits_of n) hv, scal (fun r hr => lex_int hv.lit hr) h⟩
    | sixtyFour v =>
      have hv := hexPad_of 16 v.toNat v.isLt
      exact ⟨.bits64 v, _, .bits64 v, .bits64 (decDigits_of n) hv, scal (fun r hr => lex_int hv.lit hr) h⟩
    | group us =>
      obtain ⟨shs, t, h1, h2, h3⟩ := blk h
      exact ⟨_, _, .group h1, .block (decDigits_of n) h2, h3⟩
    | len b =>
      simp only at h
      cases b with
      | nil => exact ⟨_, _, .empty, .str (decDigits_of n), scal (fun r _ => lex_fmtString fp [] r) h⟩
      | cons c b =>
        rw [if_neg (by simp)] at h
        cases hd : decodeUSet (c :: b) with
        | none =>
          simp only [hd] at h
          exact ⟨_, _, .str hd, .str (decDigits_of n), scal (fun r _ => lex_fmtString fp _ r) h⟩
        | some us =>
          simp only [hd] at h
          obtain ⟨shs, t, h1, h2, h3⟩ := blk h
          exact ⟨_, _, .msg (by simp) hd h1, .block (decDigits_of n) h2, h3⟩

/-! ### How deep printing goes -/

mutual
/-- A bound on the nesting of a value: the bytes it was read from. -/
def uBytes : UVal → Nat
  | .len b => b.length + 1
  | .group us => usBytes us + 1
  | _ => 1
/-- The same of fields. -/
def usBytes : List (Nat × UVal) → Nat
  | [] => 0
  | (_, u) :: us => uBytes u + usBytes us
end

theorem usBytes_append : (a b : USet) → usBytes (a ++ b) = usBytes a + usBytes b
  | [], b => by simp [usBytes]
  | (n, u) :: a, b => by simp only [List.cons_append, usBytes, usBytes_append a b]; omega

theorem usBytes_mem {us : USet} {n : Nat} {u : UVal} (h : (n, u) ∈ us) : uBytes u ≤ usBytes us := by
  induction us with
  | nil => cases h
  | cons p us ih =>
    obtain ⟨m, w⟩ := p
    simp only [usBytes]
    rcases List.mem_cons.1 h with e | h'
    · cases e; omega
    · have := ih h'; omega

/-- A loop body or field function that adds at most as many bytes as it takes. -/
def Takes (f : FieldFn USet) : Prop :=
  ∀ st n w b st' b', f st n w b = .ok (st', b') → usBytes st' + b'.length ≤ usBytes st + b.length + 1

theorem loopTo_takes {f : FieldFn USet} (hf : Takes f) {limit : Nat} : ∀ (k : Nat) (st : USet) (b : Bytes) (st' : USet) (b' : Bytes),
    loopTo limit (keyThen f) k st b = .ok (st', b') → usBytes st' + b'.length ≤ usBytes st + b.length := by
  intro k
  induction k with
  | zero => intro st b st' b' h; simp [loopTo] at h
  | succ k ih =>
    intro st b st' b' h
    unfold loopTo at h
    split at h
    · cases h; omega
    · split at h
      · cases h
      · rename_i st1 b1 he
        have h1 := ih _ _ _ _ h
        unfold keyThen at he
        split at he
        · cases he
        · rename_i n w rest hk
          obtain ⟨c, hc, rfl, -, -, -⟩ := decodeKey_good hk
          have h2 := hf _ _ _ _ _ _ he
          have := List.length_pos_iff.2 hc
          rw [List.length_append]
          omega

theorem groupLoop_takes {f : FieldFn USet} (hf : Takes f) {tag : Nat} : ∀ (k : Nat) (st : USet) (b : Bytes) (st' : USet) (b' : Bytes),
    groupLoop tag f k st b = .ok (st', b') → usBytes st' + b'.length ≤ usBytes st + b.length := by
  intro k
  induction k with
  | zero => intro st b st' b' h; simp [groupLoop] at h
  | succ k ih =>
    intro st b st' b' h
    unfold groupLoop at h
    split at h
    · cases h
    · rename_i n w rest hk
      obtain ⟨c, hc, rfl, -, -, -⟩ := decodeKey_good hk
      have := List.length_pos_iff.2 hc
      rw [List.length_append]
      split at h
      · split at h
        · cases h
        · cases h; omega
      · split at h
        · cases h
        · rename_i he
          have h1 := ih _ _ _ _ h
          have h2 := hf _ _ _ _ _ _ he
          omega

theorem push_takes {dec : Nat → WireType → Bytes → R (UVal × Bytes)}
    (h : ∀ n w b u b', dec n w b = .ok (u, b') → uBytes u + b'.length ≤ b.length + 1) : Takes (pushUnknown dec) := by
  intro st n w b st' b' e
  unfold pushUnknown at e
  split at e
  · cases e
  · rename_i v b1 hd
    cases e
    have := h _ _ _ _ _ hd
    rw [usBytes_append]
    simp only [usBytes]
    omega

theorem decUValWith_takes {nested : Option (FieldFn USet)} (hn : ∀ f, nested = some f → Takes f) {n : Nat} {w : WireType} {b : Bytes}
    {u : UVal} {b' : Bytes} (h : decUValWith nested n w b = .ok (u, b')) : uBytes u + b'.length ≤ b.length + 1 := by
  unfold decUValWith at h
  cases w with
  | varint =>
    simp only at h
    split at h
    · cases h
    · rename_i v r hv
      cases h
      have := decodeVarint_length hv
      simp only [uBytes]
      omega
  | sixtyFourBit =>
    simp only [getLE] at h
    split at h
    · cases h
    · rename_i hv
      split at hv
      · cases hv
      · cases hv; cases h
        simp only [uBytes, List.length_drop]
        omega
  | thirtyTwoBit =>
    simp only [getLE] at h
    split at h
    · cases h
    · rename_i hv
      split at hv
      · cases hv
      · cases hv; cases h
        simp only [uBytes, List.length_drop]
        omega
  | endGroup => cases h
  | lengthDelimited =>
    simp only [getLenDelim] at h
    split at h
    · cases h
    · rename_i c r hc
      cases h
      split at hc
      · cases hc
      · rename_i len rest hv
        have := decodeVarint_length hv
        split at hc
        · cases hc
        · cases hc
          simp only [uBytes, List.length_take, List.length_drop]
          omega
  | startGroup =>
    simp only [groupMerge] at h
    split at h
    · cases h
    · rename_i us r hg
      cases h
      split at hg
      · rename_i hw; exact absurd rfl hw
      · split at hg
        · cases hg
        · have := groupLoop_takes (hn _ rfl) _ _ _ _ _ hg
          simp only [uBytes, usBytes] at this ⊢
          omega

theorem decUVal_takes : (d : Nat) → Takes (pushUnknown (decUVal d))
  | 0 => push_takes (fun _ _ _ _ _ h => decUValWith_takes (nested := none) (by intro _ h; cases h) h)
  | d + 1 => push_takes (fun _ _ _ _ _ h => decUValWith_takes (nested := some _)
      (by intro f hf; cases hf; exact decUVal_takes d) h)

theorem decodeUSet_bytes {b : Bytes} {us : USet} (h : decodeUSet b = some us) : usBytes us ≤ b.length := by
  unfold decodeUSet at h
  split at h
  · rename_i us' r hm
    cases h
    have := loopTo_takes (decUVal_takes _) _ _ _ _ _ hm
    simp only [usBytes] at this
    omega
  · cases h

theorem fmtUs_total {f : UField → Option (List Char)} {us : USet} (h : ∀ p ∈ us, ∃ s, f p = some s) :
    ∃ ss, fmtAll f us = some ss := by
  induction us with
  | nil => exact ⟨_, rfl⟩
  | cons x r ih =>
    obtain ⟨ss, hss⟩ := ih (fun y hy => h y (List.mem_cons_of_mem _ hy))
    obtain ⟨s, hs⟩ := h x (by simp)
    exact ⟨s :: ss, by simp only [fmtAll, hs, hss]⟩

/-- Printing an unknown field needs no deeper a stack than the bytes it came from. -/
theorem fmtUnknown_total {o : FOpts} : (k : Nat) → {ind n : Nat} → {u : UVal} → uBytes u ≤ k →
    ∃ s, fmtUnknown o k ind (n, u) = some s
  | 0, ind, n, u, h => by cases u <;> simp [uBytes] at h
  | k + 1, ind, n, u, h => by
    have blk : ∀ us : USet, usBytes us ≤ k → ∃ s, ((if us.isEmpty then some ['{', '}']
        else braced o ind (fun ind => fmtDelimited o ind (fmtUnknown o k ind) us)).map (fun s => decDigits n ++ (pad o ++ s))) = some s := by
      intro us hu
      split
      · exact ⟨_, rfl⟩
      · unfold braced fmtDelimited
        have : ∀ i, ∃ ss, fmtAll (fmtUnknown o k i) us = some ss := by
          intro i
          apply fmtUs_total
          rintro ⟨m, w⟩ hp
          have := usBytes_mem hp
          exact fmtUnknown_total k (by omega)
        split
        · obtain ⟨ss, hss⟩ := this (ind + 2); simp only [hss]; exact ⟨_, rfl⟩
        · obtain ⟨ss, hss⟩ := this ind; simp only [hss]; exact ⟨_, rfl⟩
    simp only [fmtUnknown]
    cases u with
    | varint v => exact ⟨_, rfl⟩
    | thirtyTwo v => exact ⟨_, rfl⟩
    | sixtyFour v => exact ⟨_, rfl⟩
    | group us => simp only [uBytes] at h; exact blk us (by omega)
    | len b =>
      simp only [uBytes] at h
      simp only
      cases hd : (if b.isEmpty then none else decodeUSet b) with
      | none => exact ⟨_, rfl⟩
      | some us =>
        have hd' : decodeUSet b = some us := by
          split at hd
          · cases hd
          · exact hd
        exact blk us (by have := decodeUSet_bytes hd'; omega)

end Verif.Text
