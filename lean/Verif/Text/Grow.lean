import Verif.Text.Left
/-!
A parser that has read its tokens reads the same when more fields follow.
-/
set_option autoImplicit false
namespace Verif.Text
open Verif.Wire Verif.Dyn Verif.Pool

/-- Nothing, or tokens that begin like a field. -/
def Fresh : List LTok → Prop
  | [] => True
  | .tok t :: _ => startsField t = true
  | _ => False

/-- What follows is left over and changes nothing else. -/
def Grow {α : Type} (p : List LTok → PR α) : Prop :=
  ∀ u t a r, Fresh t → p u = .ok (a, r) → p (u ++ t) = .ok (a, r ++ t)

theorem Grow.map {α β : Type} {f : α → β} {p : List LTok → PR α} (h : Grow p) : Grow (fun ts => mapP f (p ts)) := by
  intro u t a r ht he
  simp only at he ⊢
  cases hp : p u with
  | error e => rw [hp] at he; cases he
  | ok x =>
    obtain ⟨b, s⟩ := x
    rw [hp] at he
    cases he
    rw [h u t _ _ ht hp]
    rfl

theorem parseInt_grow : Grow parseInt := by
  intro u t a r ht h
  unfold parseInt at h
  split at h
  · cases h; rfl
  · exact absurd h unexpected_ok
  · cases h; rfl
  · exact absurd h unexpected_ok

theorem parseSigned_grow (w : Nat) : Grow (parseSigned w) := by
  intro u t a r ht h
  unfold parseSigned at h ⊢
  split at h
  · cases h
  · next hp =>
    rw [parseInt_grow u t _ _ ht hp]
    simp only
    split at h
    · cases h; rfl
    · cases h

theorem parseUnsigned_grow (w : Nat) : Grow (parseUnsigned w) := by
  intro u t a r ht h
  unfold parseUnsigned at h ⊢
  split at h
  · cases h
  · next hp =>
    rw [parseInt_grow u t _ _ ht hp]
    simp only
    split at h
    · cases h; rfl
    · cases h

theorem parseFloatAbs_grow (env : TEnv) : Grow (parseFloatAbs env) := by
  intro u t a r ht h
  unfold parseFloatAbs at h
  split at h
  · cases h; rfl
  · simp only [List.cons_append, parseFloatAbs]
    split at h
    · next hx =>
      rw [if_pos hx]
      split at h
      · cases h; rfl
      · cases h
    · cases h
  · simp only [List.cons_append, parseFloatAbs]
    split at h
    · next hx => cases h; rw [if_pos hx]
    · next hx =>
      rw [if_neg hx]
      split at h
      · next hy => cases h; rw [if_pos hy]
      · cases h
  · exact absurd h unexpected_ok

theorem parseFloat_grow (env : TEnv) : Grow (parseFloat env) := by
  intro u t a r ht h
  unfold parseFloat at h
  split at h
  · next r1 =>
    split at h
    · next hv =>
      cases h
      simp only [List.cons_append, parseFloat, parseFloatAbs_grow env _ t _ _ ht hv]
    · cases h
  · next hne =>
    have h2 := parseFloatAbs_grow env u t a r ht h
    unfold parseFloat
    split
    · next r2 heq =>
      cases u with
      | nil => exact absurd (show unexpected [] = _ from h) unexpected_ok
      | cons x xs =>
        simp only [List.cons_append, List.cons.injEq] at heq
        exact absurd (by rw [heq.1]) (hne xs)
    · exact h2

theorem parseBool_grow : Grow parseBool := by
  intro u t a r ht h
  unfold parseBool at h
  split at h
  · simp only [List.cons_append, parseBool]
    split at h
    · next hx => cases h; rw [if_pos hx]
    · next hx =>
      rw [if_neg hx]
      split at h
      · next hy => cases h; rw [if_pos hy]
      · cases h
  · simp only [List.cons_append, parseBool]
    split at h
    · split at h
      · next hx => cases h; rw [if_pos hx]
      · next hx =>
        rw [if_neg hx]
        split at h
        · next hy => cases h; rw [if_pos hy]
        · cases h
    · cases h
  · exact absurd h unexpected_ok

theorem moreStrings_fresh {t : List LTok} (ht : Fresh t) : moreStrings t = .ok ([], t) := by
  cases t with
  | nil => rfl
  | cons x xs =>
    cases x with
    | tok y => cases y <;> first | rfl | exact absurd ht (by simp [Fresh, startsField])
    | _ => exact absurd ht (by simp [Fresh])

theorem moreStrings_grow : Grow moreStrings := by
  intro u
  induction u with
  | nil => intro t a r ht h; cases h; exact moreStrings_fresh ht
  | cons x xs ih =>
    intro t a r ht h
    cases x with
    | tok y =>
      cases y with
      | str b =>
        simp only [List.cons_append, moreStrings] at h ⊢
        split at h
        · next hv => cases h; rw [ih t _ _ ht hv]
        · cases h
      | _ => cases h; rfl
    | _ => cases h

theorem parseBytes_grow : Grow parseBytes := by
  intro u t a r ht h
  unfold parseBytes at h
  split at h
  · simp only [List.cons_append, parseBytes]
    split at h
    · next hv => cases h; rw [moreStrings_grow _ t _ _ ht hv]
    · cases h
  · exact absurd h unexpected_ok

theorem parseEnum_grow (S : Schema) (e : Nat) : Grow (parseEnum S e) := by
  intro u t a r ht h
  unfold parseEnum at h
  split at h
  · simp only [List.cons_append, parseEnum]
    split at h
    · cases h
    · split at h
      · cases h; rfl
      · cases h
  · exact parseSigned_grow 32 _ t a r ht h
  · exact parseSigned_grow 32 _ t a r ht h
  · exact absurd h unexpected_ok

section
variable {env : TEnv} {S : Schema} {sub : Nat → List LTok → PR FieldSet}

theorem parseVal_grow (hs : ∀ i, Grow (sub i)) (k : Kind) : Grow (parseVal env S sub k) := by
  cases k with
  | string =>
    intro u t a r ht h
    simp only [parseVal] at h ⊢
    split at h
    · next hv =>
      rw [parseBytes_grow u t _ _ ht hv]
      simp only
      split at h
      · next hx => cases h; rw [if_pos hx]
      · cases h
    · cases h
  | float => exact (parseFloat_grow env).map
  | double => exact (parseFloat_grow env).map
  | int32 => exact (parseSigned_grow 32).map
  | sint32 => exact (parseSigned_grow 32).map
  | sfixed32 => exact (parseSigned_grow 32).map
  | int64 => exact (parseSigned_grow 64).map
  | sint64 => exact (parseSigned_grow 64).map
  | sfixed64 => exact (parseSigned_grow 64).map
  | uint32 => exact (parseUnsigned_grow 32).map
  | fixed32 => exact (parseUnsigned_grow 32).map
  | uint64 => exact (parseUnsigned_grow 64).map
  | fixed64 => exact (parseUnsigned_grow 64).map
  | bool => exact parseBool_grow.map
  | bytes => exact parseBytes_grow.map
  | message i => exact (hs i).map
  | enum e => exact (parseEnum_grow S e).map

theorem listTail_grow {pv : List LTok → PR Value} (hp : Grow pv) : ∀ n, Grow (listTail pv n) := by
  intro n
  induction n with
  | zero => intro u t a r _ h; cases h
  | succ n ih =>
    intro u t a r ht h
    unfold listTail at h
    split at h
    · contradiction
    · next hn =>
      cases hn
      simp only [List.cons_append, listTail]
      split at h
      · cases h
      · next hv =>
        rw [hp _ t _ _ ht hv]
        simp only
        split at h
        · cases h
        · next hw => cases h; rw [ih _ t _ _ ht hw]
    · cases h; rfl
    · exact absurd h unexpected_ok

theorem parseRep_grow {pv : List LTok → PR Value} (hg : ∀ ts, Good ts (pv ts)) (hp : Grow pv) : Grow (parseRep pv) := by
  intro u t a r ht h
  unfold parseRep at h
  split at h
  · cases h; rfl
  · next r1 hne =>
    split at h
    · cases h
    · next v r2 hv =>
      have hv2 := hp _ t _ _ ht hv
      have hlen := ((hg _).ok hv).2
      split at h
      · cases h
      · next hw =>
        cases h
        have hw2 := listTail_more hg (listTail_grow hp _ _ t _ _ ht hw) (m := (r1 ++ t).length + 1)
          (by simp only [List.length_append]; omega)
        unfold parseRep
        split
        · next heq =>
          simp only [List.cons_append, List.cons.injEq, true_and] at heq
          cases r1 with
          | nil => simp at hlen
          | cons x xs => 
            simp only [List.cons_append, List.cons.injEq] at heq
            exact absurd (by rw [heq.1]) (hne xs)
        · next r3 _ heq =>
          simp only [List.cons_append, List.cons.injEq, true_and] at heq
          subst heq
          rw [hv2]
          simp only
          rw [hw2]
        · next hn => exact absurd rfl (hn _)
  · next hn1 hn2 =>
    have h2 := hp.map (f := fun v => [v]) u t a r ht h
    cases u with
    | nil =>
      have : Good [] (pv []) := hg []
      cases hx : pv [] with
      | error e => rw [hx] at h; cases h
      | ok y => obtain ⟨v, s⟩ := y; exact absurd ((hg _).ok hx).2 (by simp)
    | cons x xs =>
      unfold parseRep
      split
      · next heq =>
        simp only [List.cons_append, List.cons.injEq] at heq
        exact absurd (by rw [heq.1]) (hn2 xs)
      · next heq =>
        simp only [List.cons_append, List.cons.injEq] at heq
        exact absurd (by rw [heq.1]) (hn2 xs)
      · exact h2

theorem parseFieldValue_grow (hg : ∀ i ts, Good ts (sub i ts)) (hs : ∀ i, Grow (sub i)) (sib : List Nat)
    (mem : List FieldDesc) (f : FieldDesc) (fs : FieldSet) : Grow (parseFieldValue env S sub sib mem f fs) := by
  intro u t a r ht h
  have hr := parseRep_grow (parseVal_good (env := env) (S := S) hg f.kind) (parseVal_grow hs f.kind)
  unfold parseFieldValue at h ⊢
  split at h
  · next hl =>
    rw [if_pos hl]
    split at h
    · cases h
    · next hv =>
      rw [hr u t _ _ ht hv]
      simp only
      split at h
      · cases h; rfl
      · cases h
  · next hl =>
    rw [if_neg hl]
    split at h
    · next hm =>
      rw [if_pos hm]
      split at h
      · cases h
      · next hv =>
        rw [hr u t _ _ ht hv]
        simp only
        split at h
        · split at h
          · cases h
          · cases h; rfl
        · cases h
    · next hm =>
      rw [if_neg hm]
      split at h
      · cases h
      · next hv =>
        rw [parseVal_grow hs f.kind u t _ _ ht hv]
        simp only
        split at h
        · cases h
        · cases h
        · split at h
          · cases h
          · cases h
          · cases h; rfl

theorem fullIdentLoop_grow (terms : List Tok) (hd : terms.contains .dot = false) : ∀ (n : Nat) (u t : List LTok)
    (acc a : List Char) (r : List LTok), u.length ≤ n → fullIdentLoop terms acc u = .ok (a, r) → fullIdentLoop terms acc (u ++ t) = .ok (a, r ++ t) := by
  intro n
  induction n with
  | zero =>
    intro u t acc a r hu h
    cases u with
    | nil => exact absurd (show unexpected [] = _ from h) unexpected_ok
    | cons x xs => simp at hu
  | succ n ih =>
    intro u t acc a r hu h
    unfold fullIdentLoop at h
    split at h
    · simp only [List.length_cons] at hu
      simp only [List.cons_append]
      rw [fullIdentLoop]
      exact ih _ t _ _ _ (by omega) h
    · exact absurd h unexpected_ok
    · next tk r1 _ hn =>
      split at h
      · next hc =>
        cases h
        simp only [List.cons_append]
        unfold fullIdentLoop
        split
        · next heq =>
          simp only [List.cons.injEq, LTok.tok.injEq] at heq
          rw [heq.1, hd] at hc
          cases hc
        · next heq =>
          simp only [List.cons.injEq, LTok.tok.injEq] at heq
          rw [heq.1, hd] at hc
          cases hc
        · next heq =>
          simp only [List.cons.injEq, LTok.tok.injEq] at heq
          rw [← heq.1, ← heq.2, if_pos hc]
        · next hx => exact absurd rfl (hx _ _)
      · cases h
    · exact absurd h unexpected_ok

theorem parseFullIdent_grow (terms : List Tok) (hd : terms.contains .dot = false) : Grow (parseFullIdent terms) := by
  intro u t a r ht h
  unfold parseFullIdent at h
  split at h
  · exact fullIdentLoop_grow terms hd _ _ t _ _ _ (Nat.le_refl _) h
  · exact absurd h unexpected_ok

theorem parseFieldName_grow : Grow parseFieldName := by
  intro u t a r ht h
  unfold parseFieldName at h
  split at h
  · cases h; rfl
  · simp only [List.cons_append, parseFieldName]
    split at h
    · cases h
    · next hv => cases h; rw [parseFullIdent_grow _ (by decide) _ t _ _ ht hv]; rfl
    · next hv =>
      rw [parseFullIdent_grow _ (by decide) _ t _ _ ht hv]
      simp only [List.cons_append]
      split at h
      · cases h
      · next hw => cases h; rw [parseFullIdent_grow _ (by decide) _ t _ _ ht hw]; rfl
      · exact absurd h unexpected_ok
    · exact absurd h unexpected_ok
  · exact absurd h unexpected_ok

theorem parseColon_grow {u t r : List LTok} (h : parseColon u = .ok r) : parseColon (u ++ t) = .ok (r ++ t) := by
  unfold parseColon at h
  split at h
  · cases h; rfl
  · cases h; rfl
  · cases h; rfl
  · exact absurd h unexpected_ok

theorem parseNamed_grow (hg : ∀ i ts, Good ts (sub i ts)) (hs : ∀ i, Grow (sub i)) (md : MsgDesc) (d : Nat)
    (name : FName) (fs : FieldSet) : Grow (parseNamed env S sub md d name fs) := by
  intro u t a r ht h
  unfold parseNamed at h ⊢
  cases name with
  | ident n =>
    simp only at h ⊢
    split at h
    · cases h
    · cases h
    · exact parseFieldValue_grow hg hs _ _ _ _ u t a r ht h
  | ext n =>
    simp only at h ⊢
    split at h
    · cases h
    · exact parseFieldValue_grow hg hs _ _ _ _ u t a r ht h
  | any dom n =>
    simp only [parseAny] at h ⊢
    split at h
    · cases h
    · next i _ =>
      split at h
      · cases h
      · next hv =>
        rw [hs i u t _ _ ht hv]
        simp only
        split at h
        · cases h
        · split at h
          · cases h
          · next hn =>
            rw [if_neg hn]
            split at h
            · cases h
            · cases h
            · split at h
              · cases h
              · cases h
              · cases h; rfl

theorem parseSep_grow (fs : FieldSet) : Grow (parseSep fs) := by
  intro u t a r ht h
  cases u with
  | nil =>
    cases h
    cases t with
    | nil => rfl
    | cons x xs =>
      cases x with
      | tok y => cases y <;> first | rfl | exact absurd ht (by simp [Fresh, startsField])
      | _ => exact absurd ht (by simp [Fresh])
  | cons x xs =>
    cases x with
    | tok y => cases y <;> (cases h; rfl)
    | _ => cases h

theorem parseField_grow (hg : ∀ i ts, Good ts (sub i ts)) (hs : ∀ i, Grow (sub i)) (md : MsgDesc) (d : Nat)
    (fs : FieldSet) : Grow (parseField env S sub md d fs) := by
  intro u t a r ht h
  unfold parseField at h ⊢
  split at h
  · cases h
  · next h1 =>
    rw [parseFieldName_grow u t _ _ ht h1]
    simp only
    split at h
    · cases h
    · next h2 =>
      rw [parseColon_grow h2]
      simp only
      split at h
      · cases h
      · next h3 =>
        rw [parseNamed_grow hg hs md d _ fs _ t _ _ ht h3]
        exact parseSep_grow _ _ t _ _ ht h

theorem bodyLoop_grow {pf : FieldSet → List LTok → PR FieldSet} (hp : ∀ fs, Grow (pf fs)) (term : Tok) :
    ∀ (n : Nat) (fs : FieldSet), Grow (bodyLoop pf term n fs) := by
  intro n
  induction n with
  | zero => intro fs u t a r _ h; cases h
  | succ n ih =>
    intro fs u t a r ht h
    unfold bodyLoop at h
    split at h
    · contradiction
    · next hn =>
      cases hn
      simp only [List.cons_append, bodyLoop]
      split at h
      · next hst =>
        rw [if_pos hst]
        split at h
        · cases h
        · next hv =>
          have := hp _ _ t _ _ ht hv
          simp only [List.cons_append] at this
          rw [this]
          exact ih _ _ t _ _ ht h
      · next hst =>
        rw [if_neg hst]
        split at h
        · next hx => cases h; rw [if_pos hx]
        · cases h
    · exact absurd h unexpected_ok

theorem topLoop_grow {pf : FieldSet → List LTok → PR FieldSet} (hg : ∀ fs ts, Good ts (pf fs ts))
    (hp : ∀ fs, Grow (pf fs)) : ∀ (n : Nat) (u t : List LTok) (fs fs1 fs2 : FieldSet), Fresh t →
    topLoop pf n fs u = .ok fs1 → topLoop pf t.length fs1 t = .ok fs2 →
    topLoop pf (u ++ t).length fs (u ++ t) = .ok fs2 := by
  intro n
  induction n with
  | zero =>
    intro u t fs fs1 fs2 ht h1 h2
    cases u with
    | nil => cases h1; exact h2
    | cons x xs => cases h1
  | succ n ih =>
    intro u t fs fs1 fs2 ht h1 h2
    cases u with
    | nil => cases h1; exact h2
    | cons x xs =>
      simp only [topLoop] at h1
      split at h1
      · cases h1
      · next fs' r hv =>
        have hlen := ((hg _ _).ok hv).2
        have h3 := hp _ _ t _ _ ht hv
        have h4 := ih r t _ _ _ ht h1 h2
        simp only [List.cons_append, List.length_cons, topLoop] at h3 hlen ⊢
        rw [h3]
        exact topLoop_more hg h4 (by simp only [List.length_append]; omega)

end

theorem parseMsg_grow (env : TEnv) (S : Schema) (k : Nat) : ∀ i, Grow (parseMsg env S k i) := by
  induction k with
  | zero => intro i u t a r _ h; cases h
  | succ k ih =>
    intro i u t a r ht h
    have hg := parseMsg_good env S k
    unfold parseMsg at h ⊢
    split at h
    · cases h
    · next md hmd =>
      have hgf : ∀ fs ts, Good ts (parseField env S (parseMsg env S k) md i fs ts) := parseField_good hg md i
      split at h
      · simp only [List.cons_append]
        exact bodyLoop_more hgf (bodyLoop_grow (parseField_grow hg ih md i) _ _ _ _ t _ _ ht h) (Nat.lt_succ_self _)
      · simp only [List.cons_append]
        exact bodyLoop_more hgf (bodyLoop_grow (parseField_grow hg ih md i) _ _ _ _ t _ _ ht h) (Nat.lt_succ_self _)
      · exact absurd h unexpected_ok

/-- On tokens: one merge after the other is one merge of all the tokens. -/
theorem mergeToks_grow (env : TEnv) (S : Schema) (k : Nat) {m m1 m2 : DynMsg} {u t : List LTok} (ht : Fresh t)
    (h1 : mergeToks env S k m u = .ok m1) (h2 : mergeToks env S k m1 t = .ok m2) :
    mergeToks env S k m (u ++ t) = .ok m2 := by
  unfold mergeToks at h1
  split at h1
  · cases h1
  · next md hmd =>
    split at h1
    · cases h1
    · next fs1 hl =>
      cases h1
      unfold mergeToks at h2 ⊢
      simp only [hmd] at h2 ⊢
      split at h2
      · cases h2
      · next fs2 hl2 =>
        cases h2
        rw [topLoop_grow (fun fs ts => parseField_good (parseMsg_good env S k) md m.desc fs ts)
          (parseField_grow (parseMsg_good env S k) (parseMsg_grow env S k) md m.desc) _ u t _ _ _ ht hl hl2]

end Verif.Text
