import Verif.Text.OneField
import Verif.Text.StrLemmas
/-!
String literals: what they consist of.
-/
set_option autoImplicit false
namespace Verif.Text
open Verif.Wire Verif.Dyn Verif.Pool

/-- Neither NUL nor a line feed. -/
def Inline (s : List Char) : Prop := ∀ c ∈ s, c.toNat ≠ 0 ∧ c ≠ '\n'

theorem Inline.append {s t : List Char} (hs : Inline s) (ht : Inline t) : Inline (s ++ t) := by
  intro c hc
  rcases List.mem_append.1 hc with h | h
  · exact hs c h
  · exact ht c h

theorem Inline.single {c : Char} (h : c.toNat ≠ 0 ∧ c ≠ '\n') : Inline [c] := by
  intro x hx
  rw [List.mem_singleton] at hx
  rw [hx]
  exact h

theorem inline_hex {c : Char} (h : cHex c = true) : c.toNat ≠ 0 ∧ c ≠ '\n' := by
  simp only [cHex, Bool.or_eq_true, inR_iff] at h
  refine ⟨by omega, char_ne ?_⟩
  have : ('\n' : Char).toNat = 10 := rfl
  omega

theorem hexDigit_hex {c : Char} {n : Nat} (h : hexDigit c = some n) : cHex c = true := by
  unfold hexDigit at h
  unfold cHex
  grind

theorem radixFrom_hex {radix : Nat} {s : List Char} : ∀ {acc n : Nat}, radixFrom radix acc s = some n →
    ∀ c ∈ s, cHex c = true := by
  induction s with
  | nil => intro _ _ _ c hc; cases hc
  | cons x r ih =>
    intro acc n h c hc
    rw [radixFrom] at h
    split at h
    · rename_i d hd
      split at h
      · rcases List.mem_cons.1 hc with rfl | hc
        · exact hexDigit_hex hd
        · exact ih h c hc
      · cases h
    · cases h

theorem radixVal_hex {radix : Nat} {s : List Char} {n : Nat} (h : radixVal radix s = some n) :
    ∀ c ∈ s, cHex c = true := by
  unfold radixVal at h
  split at h
  · cases h
  · exact radixFrom_hex h

theorem charEscape_inline {c : Char} {b : UInt8} (h : charEscape c = some b) : c.toNat ≠ 0 ∧ c ≠ '\n' := by
  constructor
  · intro e
    have : c = Char.ofNat 0 := by
      apply Char.ext
      apply UInt32.toNat_inj.1
      exact e
    subst this
    have h0 : charEscape (Char.ofNat 0) = none := by decide
    rw [h0] at h
    cases h
  · rintro rfl
    have h0 : charEscape '\n' = none := by decide
    rw [h0] at h
    cases h

theorem unicodeEscape_inline {k : Nat} {s r : List Char} {b : Bytes} (h : unicodeEscape k s = some (b, r)) :
    ∃ e, s = e ++ r ∧ Inline e := by
  unfold unicodeEscape at h
  split at h
  · split at h
    · rename_i n hn
      split at h
      · cases h
        exact ⟨s.take k, (List.take_append_drop k s).symm, fun c hc => inline_hex (radixVal_hex hn c hc)⟩
      · cases h
    · cases h
  · cases h

theorem upTo_split (k : Nat) (p : Char → Bool) (s : List Char) :
    s = upTo k p s ++ s.drop (upTo k p s).length := by
  have h1 : upTo k p s <+: s := (List.takeWhile_prefix p).trans (List.take_prefix k s)
  conv => lhs; rw [List.prefix_iff_eq_append.1 h1 |>.symm]

/-- An escape contains neither NUL nor a line feed. -/
theorem escape_inline {s r : List Char} {b : Bytes} (h : escape s = some (b, r)) :
    ∃ e, s = e ++ r ∧ Inline e := by
  cases s with
  | nil => cases h
  | cons c t =>
    simp only [escape] at h
    split at h
    · rename_i x hx
      cases h
      exact ⟨[c], rfl, .single (charEscape_inline hx)⟩
    · split at h
      · split at h
        · rename_i n hn
          split at h
          · cases h
            exact ⟨_, upTo_split 3 cOctal (c :: t), fun x hx => inline_hex (radixVal_hex hn x hx)⟩
          · cases h
        · cases h
      · have hc : Inline [c] → ∀ {u : List Char}, (∃ e, t = e ++ u ∧ Inline e) →
            ∃ e, c :: t = e ++ u ∧ Inline e := by
          rintro hc u ⟨e, rfl, he⟩
          exact ⟨c :: e, rfl, hc.append he⟩
        split at h
        · rename_i hx
          have hi : Inline [c] := .single (by rcases hx with rfl | rfl <;> decide)
          split at h
          · rename_i n hn
            cases h
            exact hc hi ⟨_, upTo_split 2 cHex t, fun x hx => inline_hex (radixVal_hex hn x hx)⟩
          · cases h
        · split at h
          · rename_i hx
            exact hc (.single (by subst hx; decide)) (unicodeEscape_inline h)
          · split at h
            · rename_i hx
              exact hc (.single (by subst hx; decide)) (unicodeEscape_inline h)
            · cases h

theorem strN_inline {q : Char} {n : Nat} : ∀ {s r : List Char} {b : Bytes}, strN q n s = some (b, r) →
    ∃ lit, s = lit ++ (q :: r) ∧ Inline lit := by
  induction n with
  | zero => intro s r b h; cases h
  | succ n ih =>
    intro s r b h
    cases s with
    | nil => cases h
    | cons c t =>
      rw [strN] at h
      split at h
      · rename_i hc
        split at h
        · rename_i b' r' he
          split at h
          · rename_i bs r'' hs
            cases h
            obtain ⟨e, rfl, hi⟩ := escape_inline he
            obtain ⟨lit, rfl, hl⟩ := ih hs
            refine ⟨c :: (e ++ lit), by simp, ?_⟩
            exact (Inline.single (by subst hc; decide)).append (hi.append hl)
          · cases h
        · cases h
      · split at h
        · rename_i hq
          cases h
          exact ⟨[], by rw [hq]; rfl, fun _ hx => by cases hx⟩
        · split at h
          · cases h
          · rename_i hb
            split at h
            · rename_i bs r' hs
              cases h
              obtain ⟨lit, rfl, hl⟩ := ih hs
              exact ⟨c :: lit, rfl, (Inline.single (by simpa using hb)).append hl⟩
            · cases h

/-- Characters that stand for themselves between quotes `q`. -/
def Plain (q : Char) (s : List Char) : Prop := ∀ c ∈ s, c ≠ '\\' ∧ c ≠ q ∧ c.toNat ≠ 0 ∧ c ≠ '\n'

theorem strN_plain {q : Char} (hq : q ≠ '\\') {s : List Char} : ∀ {n : Nat} {r : List Char}, s.length < n →
    Plain q s → strN q n (s ++ (q :: r)) = some (utf8Encode s, r) := by
  induction s with
  | nil =>
    intro n r hn _
    cases n with
    | zero => cases hn
    | succ n =>
      rw [List.nil_append, strN, if_neg hq, if_pos rfl]
      rfl
  | cons c t ih =>
    intro n r hn hp
    cases n with
    | zero => cases hn
    | succ n =>
      have hc := hp c (List.mem_cons_self ..)
      rw [List.cons_append, strN, if_neg hc.1, if_neg hc.2.1, if_neg (by simp [hc.2.2]),
        ih (by simpa using hn) (fun x hx => hp x (List.mem_cons_of_mem _ hx))]
      simp [utf8Encode]

end Verif.Text
