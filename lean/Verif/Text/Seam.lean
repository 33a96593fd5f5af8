import Verif.Text.Lines
/-!
The rest of a text is read as if it stood alone, whether it can be read or not.
-/
set_option autoImplicit false
namespace Verif.Text
open Verif.Wire Verif.Dyn Verif.Pool

theorem topLoop_steps {pf : FieldSet → List LTok → PR FieldSet} (hg : ∀ fs ts, Good ts (pf fs ts)) :
    ∀ (n m : Nat) (fs : FieldSet) (ts : List LTok), ts.length ≤ n → ts.length ≤ m → topLoop pf n fs ts = topLoop pf m fs ts := by
  intro n
  induction n with
  | zero =>
    intro m fs ts hn _
    obtain rfl := List.length_eq_zero_iff.1 (Nat.le_zero.1 hn)
    cases m <;> rfl
  | succ n ih =>
    intro m fs ts hn hm
    cases ts with
    | nil => cases m <;> rfl
    | cons x xs =>
      obtain ⟨m, rfl⟩ : ∃ m', m = m' + 1 := ⟨m - 1, by simp only [List.length_cons] at hm; omega⟩
      simp only [topLoop]
      split
      · rfl
      · next hv =>
        have := ((hg _ _).ok hv).2
        simp only [List.length_cons] at hn hm this
        exact ih m _ _ (by omega) (by omega)

theorem topLoop_seam {pf : FieldSet → List LTok → PR FieldSet} (hg : ∀ fs ts, Good ts (pf fs ts))
    (hp : ∀ fs, Grow (pf fs)) : ∀ (n : Nat) (u t : List LTok) (fs fs1 : FieldSet), Fresh t →
    topLoop pf n fs u = .ok fs1 → topLoop pf (u ++ t).length fs (u ++ t) = topLoop pf t.length fs1 t := by
  intro n
  induction n with
  | zero =>
    intro u t fs fs1 _ h1
    cases u with
    | nil => cases h1; rfl
    | cons x xs => cases h1
  | succ n ih =>
    intro u t fs fs1 ht h1
    cases u with
    | nil => cases h1; rfl
    | cons x xs =>
      simp only [topLoop] at h1
      split at h1
      · cases h1
      · next fs' r hv =>
        have hlen := ((hg _ _).ok hv).2
        have h3 := hp _ _ t _ _ ht hv
        simp only [List.cons_append, List.length_cons, topLoop] at h3 hlen ⊢
        rw [h3]
        simp only
        rw [← ih r t _ _ ht h1]
        exact topLoop_steps hg _ _ _ _ (by simp only [List.length_append]; omega) (Nat.le_refl _)

theorem mergeText_seam (env : TEnv) (S : Schema) (k : Nat) {m m1 : DynMsg} {a b : List Char}
    (hb : Fresh (lex env.parse64 b)) (h : mergeText env S k m a = .ok m1) :
    mergeText env S k m (a ++ '\n' :: b) = mergeText env S k m1 b := by
  unfold mergeText at h ⊢
  rw [lex_nl b _ a (Nat.le_refl _) (mergeToks_clean env S k h)]
  unfold mergeToks at h
  split at h
  · cases h
  · next md hmd =>
    split at h
    · cases h
    · next fs1 hl =>
      cases h
      unfold mergeToks
      simp only [hmd]
      rw [topLoop_seam (fun fs ts => parseField_good (parseMsg_good env S k) md m.desc fs ts)
        (parseField_grow (parseMsg_good env S k) (parseMsg_grow env S k) md m.desc) _ _ _ _ _ hb hl]

end Verif.Text
