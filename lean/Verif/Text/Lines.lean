import Verif.Text.Grow
import Verif.Text.LexGrow
/-!
A parser that succeeds has read no lexical error.
-/
set_option autoImplicit false
namespace Verif.Text
open Verif.Wire Verif.Dyn Verif.Pool

/-- Whatever is no token is still there after a successful parse. -/
def Spares {α : Type} (p : List LTok → PR α) : Prop :=
  ∀ u a r, p u = .ok (a, r) → ∀ x ∈ u, (∀ t, x ≠ .tok t) → x ∈ r

theorem spare1 {t : Tok} {x : LTok} {r : List LTok} (hx : x ∈ .tok t :: r) (hn : ∀ t, x ≠ .tok t) : x ∈ r := by
  rcases List.mem_cons.1 hx with h | h
  · exact absurd h (hn t)
  · exact h

theorem Spares.map {α β : Type} {f : α → β} {p : List LTok → PR α} (h : Spares p) : Spares (fun ts => mapP f (p ts)) := by
  intro u a r he
  simp only at he
  cases hp : p u with
  | error e => rw [hp] at he; cases he
  | ok x =>
    obtain ⟨b, s⟩ := x
    rw [hp] at he
    cases he
    exact h u _ _ hp

theorem parseInt_spares : Spares parseInt := by
  intro u a r h x hx hn
  unfold parseInt at h
  split at h
  · cases h; exact spare1 (spare1 hx hn) hn
  · exact absurd h unexpected_ok
  · cases h; exact spare1 hx hn
  · exact absurd h unexpected_ok

theorem parseSigned_spares (w : Nat) : Spares (parseSigned w) := by
  intro u a r h
  unfold parseSigned at h
  split at h
  · cases h
  · next hp =>
    split at h
    · cases h; exact parseInt_spares u _ _ hp
    · cases h

theorem parseUnsigned_spares (w : Nat) : Spares (parseUnsigned w) := by
  intro u a r h
  unfold parseUnsigned at h
  split at h
  · cases h
  · next hp =>
    split at h
    · cases h; exact parseInt_spares u _ _ hp
    · cases h

theorem parseFloatAbs_spares (env : TEnv) : Spares (parseFloatAbs env) := by
  intro u a r h x hx hn
  unfold parseFloatAbs at h
  split at h
  · cases h; exact spare1 hx hn
  · split at h
    · split at h
      · cases h; exact spare1 hx hn
      · cases h
    · cases h
  · split at h
    · cases h; exact spare1 hx hn
    · split at h
      · cases h; exact spare1 hx hn
      · cases h
  · exact absurd h unexpected_ok

theorem parseFloat_spares (env : TEnv) : Spares (parseFloat env) := by
  intro u a r h x hx hn
  unfold parseFloat at h
  split at h
  · split at h
    · next hv => cases h; exact parseFloatAbs_spares env _ _ _ hv x (spare1 hx hn) hn
    · cases h
  · exact parseFloatAbs_spares env _ _ _ h x hx hn

theorem parseBool_spares : Spares parseBool := by
  intro u a r h x hx hn
  unfold parseBool at h
  split at h
  · split at h
    · cases h; exact spare1 hx hn
    · split at h
      · cases h; exact spare1 hx hn
      · cases h
  · split at h
    · split at h
      · cases h; exact spare1 hx hn
      · split at h
        · cases h; exact spare1 hx hn
        · cases h
    · cases h
  · exact absurd h unexpected_ok

theorem moreStrings_spares : Spares moreStrings := by
  intro u
  induction u with
  | nil => intro a r h; cases h; exact fun x hx _ => hx
  | cons y ys ih =>
    intro a r h x hx hn
    cases y with
    | tok y =>
      cases y with
      | str b =>
        simp only [moreStrings] at h
        split at h
        · next hv => cases h; exact ih _ _ hv x (spare1 hx hn) hn
        · cases h
      | _ => cases h; exact hx
    | _ => cases h

theorem parseBytes_spares : Spares parseBytes := by
  intro u a r h x hx hn
  unfold parseBytes at h
  split at h
  · split at h
    · next hv => cases h; exact moreStrings_spares _ _ _ hv x (spare1 hx hn) hn
    · cases h
  · exact absurd h unexpected_ok

theorem parseEnum_spares (S : Schema) (e : Nat) : Spares (parseEnum S e) := by
  intro u a r h x hx hn
  unfold parseEnum at h
  split at h
  · split at h
    · cases h
    · split at h
      · cases h; exact spare1 hx hn
      · cases h
  · exact parseSigned_spares 32 _ _ _ h x hx hn
  · exact parseSigned_spares 32 _ _ _ h x hx hn
  · exact absurd h unexpected_ok

section
variable {env : TEnv} {S : Schema} {sub : Nat → List LTok → PR FieldSet}

theorem parseVal_spares (hs : ∀ i, Spares (sub i)) (k : Kind) : Spares (parseVal env S sub k) := by
  cases k with
  | string =>
    intro u a r h
    simp only [parseVal] at h
    split at h
    · next hv =>
      split at h
      · cases h; exact parseBytes_spares u _ _ hv
      · cases h
    · cases h
  | float => exact (parseFloat_spares env).map
  | double => exact (parseFloat_spares env).map
  | int32 => exact (parseSigned_spares 32).map
  | sint32 => exact (parseSigned_spares 32).map
  | sfixed32 => exact (parseSigned_spares 32).map
  | int64 => exact (parseSigned_spares 64).map
  | sint64 => exact (parseSigned_spares 64).map
  | sfixed64 => exact (parseSigned_spares 64).map
  | uint32 => exact (parseUnsigned_spares 32).map
  | fixed32 => exact (parseUnsigned_spares 32).map
  | uint64 => exact (parseUnsigned_spares 64).map
  | fixed64 => exact (parseUnsigned_spares 64).map
  | bool => exact parseBool_spares.map
  | bytes => exact parseBytes_spares.map
  | message i => exact (hs i).map
  | enum e => exact (parseEnum_spares S e).map

theorem listTail_spares {pv : List LTok → PR Value} (hp : Spares pv) : ∀ n, Spares (listTail pv n) := by
  intro n
  induction n with
  | zero => intro u a r h; cases h
  | succ n ih =>
    intro u a r h x hx hn
    unfold listTail at h
    split at h
    · contradiction
    · next he =>
      cases he
      split at h
      · cases h
      · next hv =>
        split at h
        · cases h
        · next hw => cases h; exact ih _ _ _ hw x (hp _ _ _ hv x (spare1 hx hn) hn) hn
    · cases h; exact spare1 hx hn
    · exact absurd h unexpected_ok

theorem parseRep_spares {pv : List LTok → PR Value} (hp : Spares pv) : Spares (parseRep pv) := by
  intro u a r h x hx hn
  unfold parseRep at h
  split at h
  · cases h; exact spare1 (spare1 hx hn) hn
  · split at h
    · cases h
    · next hv =>
      split at h
      · cases h
      · next hw => cases h; exact listTail_spares hp _ _ _ _ hw x (hp _ _ _ hv x (spare1 hx hn) hn) hn
  · exact hp.map (f := fun v => [v]) _ _ _ h x hx hn

theorem parseFieldValue_spares (hs : ∀ i, Spares (sub i)) (sib : List Nat) (mem : List FieldDesc) (f : FieldDesc)
    (fs : FieldSet) : Spares (parseFieldValue env S sub sib mem f fs) := by
  intro u a r h
  have hr := parseRep_spares (parseVal_spares (env := env) (S := S) hs f.kind)
  unfold parseFieldValue at h
  split at h
  · split at h
    · cases h
    · next hv =>
      split at h
      · cases h; exact hr u _ _ hv
      · cases h
  · split at h
    · split at h
      · cases h
      · next hv =>
        split at h
        · split at h
          · cases h
          · cases h; exact hr u _ _ hv
        · cases h
    · split at h
      · cases h
      · next hv =>
        split at h
        · cases h
        · cases h
        · split at h
          · cases h
          · cases h
          · cases h; exact parseVal_spares hs f.kind u _ _ hv

theorem fullIdentLoop_spares (terms : List Tok) : ∀ (n : Nat) (u : List LTok) (acc a : List Char) (r : List LTok),
    u.length ≤ n → fullIdentLoop terms acc u = .ok (a, r) → ∀ x ∈ u, (∀ t, x ≠ .tok t) → x ∈ r := by
  intro n
  induction n with
  | zero =>
    intro u acc a r hu h
    cases u with
    | nil => exact absurd (show unexpected [] = _ from h) unexpected_ok
    | cons x xs => simp at hu
  | succ n ih =>
    intro u acc a r hu h x hx hn
    unfold fullIdentLoop at h
    split at h
    · simp only [List.length_cons] at hu
      exact ih _ _ _ _ (by omega) h x (spare1 (spare1 hx hn) hn) hn
    · exact absurd h unexpected_ok
    · split at h
      · cases h; exact hx
      · cases h
    · exact absurd h unexpected_ok

theorem parseFullIdent_spares (terms : List Tok) : Spares (parseFullIdent terms) := by
  intro u a r h x hx hn
  unfold parseFullIdent at h
  split at h
  · exact fullIdentLoop_spares terms _ _ _ _ _ (Nat.le_refl _) h x (spare1 hx hn) hn
  · exact absurd h unexpected_ok

theorem parseFieldName_spares : Spares parseFieldName := by
  intro u a r h x hx hn
  unfold parseFieldName at h
  split at h
  · cases h; exact spare1 hx hn
  · split at h
    · cases h
    · next hv => cases h; exact spare1 (parseFullIdent_spares _ _ _ _ hv x (spare1 hx hn) hn) hn
    · next hv =>
      have hy := spare1 (parseFullIdent_spares _ _ _ _ hv x (spare1 hx hn) hn) hn
      split at h
      · cases h
      · next hw => cases h; exact spare1 (parseFullIdent_spares _ _ _ _ hw x hy hn) hn
      · exact absurd h unexpected_ok
    · exact absurd h unexpected_ok
  · exact absurd h unexpected_ok

theorem parseColon_spares {u r : List LTok} (h : parseColon u = .ok r) : ∀ x ∈ u, (∀ t, x ≠ .tok t) → x ∈ r := by
  intro x hx hn
  unfold parseColon at h
  split at h
  · cases h; exact spare1 hx hn
  · cases h; exact hx
  · cases h; exact hx
  · exact absurd h unexpected_ok

theorem parseNamed_spares (hs : ∀ i, Spares (sub i)) (md : MsgDesc) (d : Nat) (name : FName) (fs : FieldSet) :
    Spares (parseNamed env S sub md d name fs) := by
  intro u a r h
  unfold parseNamed at h
  cases name with
  | ident n =>
    simp only at h
    split at h
    · cases h
    · cases h
    · exact parseFieldValue_spares hs _ _ _ _ u a r h
  | ext n =>
    simp only at h
    split at h
    · cases h
    · exact parseFieldValue_spares hs _ _ _ _ u a r h
  | any dom n =>
    simp only [parseAny] at h
    split at h
    · cases h
    · next i _ =>
      split at h
      · cases h
      · next hv =>
        split at h
        · cases h
        · split at h
          · cases h
          · split at h
            · cases h
            · cases h
            · split at h
              · cases h
              · cases h
              · cases h; exact hs i u _ _ hv

theorem parseSep_spares (fs : FieldSet) : Spares (parseSep fs) := by
  intro u a r h x hx hn
  unfold parseSep at h
  split at h
  · cases h; exact spare1 hx hn
  · cases h; exact spare1 hx hn
  · cases h
  · cases h
  · cases h; exact hx

theorem parseField_spares (hs : ∀ i, Spares (sub i)) (md : MsgDesc) (d : Nat) (fs : FieldSet) :
    Spares (parseField env S sub md d fs) := by
  intro u a r h x hx hn
  unfold parseField at h
  split at h
  · cases h
  · next h1 =>
    split at h
    · cases h
    · next h2 =>
      split at h
      · cases h
      · next h3 =>
        exact parseSep_spares _ _ _ _ h x (parseNamed_spares hs md d _ fs _ _ _ h3 x
          (parseColon_spares h2 x (parseFieldName_spares _ _ _ h1 x hx hn) hn) hn) hn

theorem bodyLoop_spares {pf : FieldSet → List LTok → PR FieldSet} (hp : ∀ fs, Spares (pf fs)) (term : Tok) :
    ∀ (n : Nat) (fs : FieldSet), Spares (bodyLoop pf term n fs) := by
  intro n
  induction n with
  | zero => intro fs u a r h; cases h
  | succ n ih =>
    intro fs u a r h x hx hn
    unfold bodyLoop at h
    split at h
    · contradiction
    · next he =>
      cases he
      split at h
      · split at h
        · cases h
        · next hv => exact ih _ _ _ _ h x (hp _ _ _ _ hv x hx hn) hn
      · split at h
        · cases h; exact spare1 hx hn
        · cases h
    · exact absurd h unexpected_ok

theorem topLoop_clean {pf : FieldSet → List LTok → PR FieldSet} (hp : ∀ fs, Spares (pf fs)) :
    ∀ (n : Nat) (u : List LTok) (fs fs1 : FieldSet), topLoop pf n fs u = .ok fs1 → Clean u := by
  intro n
  induction n with
  | zero =>
    intro u fs fs1 h
    cases u with
    | nil => intro x hx; cases hx
    | cons x xs => cases h
  | succ n ih =>
    intro u fs fs1 h
    cases u with
    | nil => intro x hx; cases hx
    | cons y ys =>
      simp only [topLoop] at h
      split at h
      · cases h
      · next hv =>
        intro x hx
        apply Classical.byContradiction
        intro hne
        have hn : ∀ t, x ≠ .tok t := fun t ht => hne ⟨t, ht⟩
        obtain ⟨t, ht⟩ := ih _ _ _ h x (hp _ _ _ _ hv x hx hn)
        exact hn t ht
end

theorem parseMsg_spares (env : TEnv) (S : Schema) (k : Nat) : ∀ i, Spares (parseMsg env S k i) := by
  induction k with
  | zero => intro i u a r h; cases h
  | succ k ih =>
    intro i u a r h x hx hn
    unfold parseMsg at h
    split at h
    · cases h
    · split at h
      · exact bodyLoop_spares (parseField_spares ih _ i) _ _ _ _ _ _ h x (spare1 hx hn) hn
      · exact bodyLoop_spares (parseField_spares ih _ i) _ _ _ _ _ _ h x (spare1 hx hn) hn
      · exact absurd h unexpected_ok

/-- A text that was merged has no lexical error. -/
theorem mergeToks_clean (env : TEnv) (S : Schema) (k : Nat) {m m1 : DynMsg} {u : List LTok}
    (h : mergeToks env S k m u = .ok m1) : Clean u := by
  unfold mergeToks at h
  split at h
  · cases h
  · split at h
    · cases h
    · next hl => exact topLoop_clean (parseField_spares (parseMsg_spares env S k) _ _) _ _ _ _ hl

/-- A text that was merged is empty or begins with a field. -/
theorem mergeToks_fresh (env : TEnv) (S : Schema) (k : Nat) {m m1 : DynMsg} {u : List LTok}
    (h : mergeToks env S k m u = .ok m1) : Fresh u := by
  unfold mergeToks at h
  split at h
  · cases h
  · split at h
    · cases h
    · next hl =>
      cases u with
      | nil => exact trivial
      | cons x xs =>
        simp only [List.length_cons, topLoop] at hl
        split at hl
        · cases hl
        · next hv =>
          unfold parseField at hv
          split at hv
          · cases hv
          · next hn =>
            unfold parseFieldName at hn
            split at hn
            · next he => cases he; exact rfl
            · next he => cases he; exact rfl
            · exact absurd hn unexpected_ok

/-- Two texts merged one after the other, and the two with a line break between them. -/
theorem mergeText_lines (env : TEnv) (S : Schema) (k : Nat) {m m1 m2 : DynMsg} {a b : List Char}
    (h1 : mergeText env S k m a = .ok m1) (h2 : mergeText env S k m1 b = .ok m2) :
    mergeText env S k m (a ++ '\n' :: b) = .ok m2 := by
  unfold mergeText at h1 h2 ⊢
  rw [lex_nl b _ a (Nat.le_refl _) (mergeToks_clean env S k h1)]
  exact mergeToks_grow env S k (mergeToks_fresh env S k h2) h1 h2

end Verif.Text
