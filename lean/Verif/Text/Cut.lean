import Verif.Text.ParseLemmas
/-!
A parser that left some of its tokens does not need them: without the end of what it left,
it reads the same.
-/
set_option autoImplicit false
namespace Verif.Text
open Verif.Wire Verif.Dyn Verif.Pool

/-- Cutting off the end `t` of the tokens the parser did not use changes nothing. -/
def Cut {α : Type} (p : List LTok → PR α) : Prop :=
  ∀ u t a r, p (u ++ t) = .ok (a, r ++ t) → p u = .ok (a, r)

/-- The same, when something is left besides what is cut off. -/
def CutNe {α : Type} (p : List LTok → PR α) : Prop :=
  ∀ u t a r, r ≠ [] → p (u ++ t) = .ok (a, r ++ t) → p u = .ok (a, r)

theorem cut1 {u t r : List LTok} {x : LTok} (h : u ++ t = x :: (r ++ t)) : u = x :: r :=
  List.append_cancel_right (by simpa using h)

theorem cut2 {u t r : List LTok} {x y : LTok} (h : u ++ t = x :: y :: (r ++ t)) : u = x :: y :: r :=
  List.append_cancel_right (by simpa using h)

/-- What a later step leaves is the end of what an earlier one left. -/
theorem split_suffix {r t s : List LTok} (h : r ++ t <:+ s) : ∃ w, s = w ++ t ∧ r <:+ w := by
  obtain ⟨w, hw⟩ := h
  exact ⟨w ++ r, by rw [← hw, List.append_assoc], ⟨w, rfl⟩⟩

theorem Cut.map {α β : Type} {f : α → β} {p : List LTok → PR α} (h : Cut p) :
    Cut (fun ts => mapP f (p ts)) := by
  intro u t b r hb
  unfold mapP at hb ⊢
  simp only at hb ⊢
  split at hb
  · rename_i a r' ha
    simp only [Except.ok.injEq, Prod.mk.injEq] at hb
    obtain ⟨rfl, rfl⟩ := hb
    rw [h u t a r ha]
  · cases hb

theorem parseInt_cut : Cut parseInt := by
  intro u t a r h
  unfold parseInt at h
  split at h
  · rename_i heq
    cases h
    rw [cut2 heq]; rfl
  · exact absurd h unexpected_ok
  · rename_i heq
    cases h
    rw [cut1 heq]; rfl
  · exact absurd h unexpected_ok

theorem parseSigned_cut (w : Nat) : Cut (parseSigned w) := by
  intro u t a r h
  unfold parseSigned at h ⊢
  split at h
  · cases h
  · rename_i hp
    split at h
    · rename_i hv
      cases h
      rw [parseInt_cut _ _ _ _ hp]
      simp only [hv]
    · cases h

theorem parseUnsigned_cut (w : Nat) : Cut (parseUnsigned w) := by
  intro u t a r h
  unfold parseUnsigned at h ⊢
  split at h
  · cases h
  · rename_i hp
    split at h
    · rename_i hv
      cases h
      rw [parseInt_cut _ _ _ _ hp]
      simp only [hv]
    · cases h

theorem parseFloatAbs_cut (env : TEnv) : Cut (parseFloatAbs env) := by
  intro u t a r h
  unfold parseFloatAbs at h
  split at h
  · rename_i heq
    cases h
    rw [cut1 heq]; rfl
  · rename_i heq
    split at h
    · rename_i hx
      split at h
      · rename_i hv
        cases h
        rw [cut1 heq]
        simp only [parseFloatAbs, hx, if_true, hv]
      · cases h
    · cases h
  · rename_i heq
    split at h
    · rename_i hx
      cases h
      rw [cut1 heq]
      simp only [parseFloatAbs]
      rw [if_pos hx]
    · rename_i hx
      split at h
      · rename_i hy
        cases h
        rw [cut1 heq]
        simp only [parseFloatAbs]
        rw [if_neg hx, if_pos hy]
      · cases h
  · exact absurd h unexpected_ok

theorem parseFloat_cut (env : TEnv) : Cut (parseFloat env) := by
  intro u t a r h
  unfold parseFloat at h
  split at h
  · rename_i r1 heq
    split at h
    · rename_i v r' hv
      cases h
      obtain ⟨w, rfl, _⟩ := split_suffix ((parseFloatAbs_good env _).ok hv).1
      rw [cut1 heq]
      simp only [parseFloat, parseFloatAbs_cut env _ _ _ _ hv]
    · cases h
  · rename_i hne
    have := parseFloatAbs_cut env _ _ _ _ h
    unfold parseFloat
    split
    · rename_i r1 
      exact absurd rfl (hne (r1 ++ t))
    · exact this

theorem parseBool_cut : Cut parseBool := by
  intro u t a r h
  unfold parseBool at h
  split at h
  · rename_i heq
    split at h
    · rename_i hx
      cases h
      rw [cut1 heq]
      simp only [parseBool]
      rw [if_pos hx]
    · rename_i hx
      split at h
      · rename_i hy
        cases h
        rw [cut1 heq]
        simp only [parseBool]
        rw [if_neg hx, if_pos hy]
      · cases h
  · rename_i heq
    split at h
    · rename_i hv
      split at h
      · rename_i hx
        cases h
        rw [cut1 heq]
        simp only [parseBool, hv, hx, if_true]
      · rename_i hx
        split at h
        · rename_i hy
          cases h
          rw [cut1 heq]
          simp only [parseBool, hv]
          rw [if_neg hx, if_pos hy]
        · cases h
    · cases h
  · exact absurd h unexpected_ok

theorem moreStrings_cut : Cut moreStrings := by
  intro u
  induction u with
  | nil =>
    intro t a r h
    rw [List.nil_append] at h
    have hs := moreStrings_good t
    rw [h] at hs
    have hl := List.IsSuffix.length_le hs
    have hr : r = [] := by
      simp only [List.length_append] at hl
      exact List.length_eq_zero_iff.1 (by omega)
    subst hr
    unfold moreStrings at h
    split at h
    · rename_i b r1
      split at h
      · rename_i bs r' hb
        cases h
        have hs := moreStrings_good r1
        rw [hb] at hs
        have := List.IsSuffix.length_le hs
        simp at this
        omega
      · cases h
    · cases h
    · cases h
    · cases h; rfl
  | cons x u ih =>
    intro t a r h
    rw [List.cons_append] at h
    unfold moreStrings at h
    split at h
    · rename_i b r1 heq
      cases heq
      split at h
      · rename_i bs r' hb
        cases h
        simp only [moreStrings, ih _ _ _ hb]
      · cases h
    · cases h
    · cases h
    · rename_i h1 h2 h3
      simp only [Except.ok.injEq, Prod.mk.injEq] at h
      obtain ⟨rfl, h⟩ := h
      rw [← List.cons_append] at h
      have hr := List.append_cancel_right h
      subst hr
      unfold moreStrings
      split
      · rename_i heq; cases heq; exact absurd rfl (h1 _ _)
      · rename_i heq; cases heq; exact absurd rfl (h2 _)
      · rename_i heq; cases heq; exact absurd rfl (h3 _)
      · rfl

theorem parseBytes_cut : Cut parseBytes := by
  intro u t a r h
  unfold parseBytes at h
  split at h
  · rename_i b r1 heq
    split at h
    · rename_i bs r' hb
      cases h
      have hs := moreStrings_good r1
      rw [hb] at hs
      obtain ⟨w, rfl, _⟩ := split_suffix hs
      rw [cut1 heq]
      simp only [parseBytes, moreStrings_cut _ _ _ _ hb]
    · cases h
  · exact absurd h unexpected_ok

theorem parseEnum_cut (S : Schema) (e : Nat) : Cut (parseEnum S e) := by
  intro u t a r h
  unfold parseEnum at h
  split at h
  · rename_i heq
    split at h
    · cases h
    · rename_i hed
      split at h
      · rename_i hv
        cases h
        rw [cut1 heq]
        simp only [parseEnum, hed, hv]
      · cases h
  · rename_i r1 heq
    rw [← heq] at h
    have hc := parseSigned_cut 32 _ _ _ _ h
    have hlen := ((parseSigned_good 32 _).ok hc).2
    cases u with
    | nil => simp at hlen
    | cons x u =>
      simp only [List.cons_append, List.cons.injEq] at heq
      rw [heq.1] at hc ⊢
      exact hc
  · rename_i d x r1 heq
    rw [← heq] at h
    have hc := parseSigned_cut 32 _ _ _ _ h
    have hlen := ((parseSigned_good 32 _).ok hc).2
    cases u with
    | nil => simp at hlen
    | cons x u =>
      simp only [List.cons_append, List.cons.injEq] at heq
      rw [heq.1] at hc ⊢
      exact hc
  · exact absurd h unexpected_ok

section
variable {env : TEnv} {S : Schema} {sub : Nat → List LTok → PR FieldSet}

theorem parseVal_cut (hs : ∀ i, Cut (sub i)) (k : Kind) : Cut (parseVal env S sub k) := by
  cases k with
  | string =>
    intro u t a r h
    simp only [parseVal] at h ⊢
    split at h
    · rename_i hb
      split at h
      · rename_i hu
        cases h
        simp only [parseBytes_cut _ _ _ _ hb, hu, if_true]
      · cases h
    · cases h
  | float => exact (parseFloat_cut env).map
  | double => exact (parseFloat_cut env).map
  | int32 => exact (parseSigned_cut 32).map
  | sint32 => exact (parseSigned_cut 32).map
  | sfixed32 => exact (parseSigned_cut 32).map
  | int64 => exact (parseSigned_cut 64).map
  | sint64 => exact (parseSigned_cut 64).map
  | sfixed64 => exact (parseSigned_cut 64).map
  | uint32 => exact (parseUnsigned_cut 32).map
  | fixed32 => exact (parseUnsigned_cut 32).map
  | uint64 => exact (parseUnsigned_cut 64).map
  | fixed64 => exact (parseUnsigned_cut 64).map
  | bool => exact parseBool_cut.map
  | bytes => exact parseBytes_cut.map
  | message i => exact (hs i).map
  | «enum» e => exact (parseEnum_cut S e).map

theorem listTail_suffix {pv : List LTok → PR Value} (hg : ∀ ts, Good ts (pv ts)) :
    ∀ (n : Nat) (ts : List LTok) (a : List Value) (r : List LTok), listTail pv n ts = .ok (a, r) → r <:+ ts := by
  intro n
  induction n with
  | zero => intro ts a r h; cases h
  | succ n ih =>
    intro ts a r h
    unfold listTail at h
    split at h
    · contradiction
    · rename_i n' r1 heq
      cases heq
      split at h
      · cases h
      · rename_i v r' hv
        split at h
        · cases h
        · rename_i hl
          cases h
          exact (ih _ _ _ hl).trans (((hg r1).ok hv).1.trans (List.suffix_cons _ _))
    · cases h; exact List.suffix_cons _ _
    · exact absurd h unexpected_ok

theorem listTail_cut {pv : List LTok → PR Value} (hg : ∀ ts, Good ts (pv ts)) (hp : Cut pv) :
    ∀ n, Cut (listTail pv n) := by
  intro n
  induction n with
  | zero => intro u t a r h; cases h
  | succ n ih =>
    intro u t a r h
    unfold listTail at h
    split at h
    · contradiction
    · rename_i n' r1 heq hx
      cases heq
      split at h
      · cases h
      · rename_i v r' hv
        split at h
        · cases h
        · rename_i vs r'' hl
          cases h
          have hsl := listTail_suffix hg _ _ _ _ hl
          obtain ⟨w, rfl, _⟩ := split_suffix hsl
          obtain ⟨w', rfl, _⟩ := split_suffix ((hg r1).ok hv).1
          rw [cut1 hx]
          simp only [listTail, hp _ _ _ _ hv, ih _ _ _ _ hl]
    · rename_i heq
      cases h
      rw [cut1 heq]; rfl
    · exact absurd h unexpected_ok

theorem listTail_more {pv : List LTok → PR Value} {n : Nat} {ts : List LTok} {a : List Value}
    {r : List LTok} (hg : ∀ ts, Good ts (pv ts)) (h : listTail pv n ts = .ok (a, r)) {m : Nat}
    (hm : ts.length < m) : listTail pv m ts = .ok (a, r) := by
  induction n generalizing m ts a with
  | zero => cases h
  | succ n ih =>
    cases m with
    | zero => omega
    | succ m =>
      unfold listTail at h
      split at h
      · contradiction
      · rename_i r1 heq
        cases heq
        split at h
        · cases h
        · rename_i v r' hv
          split at h
          · cases h
          · rename_i hl
            cases h
            have := ((hg _).ok hv).2
            simp only [List.length_cons] at hm
            simp only [listTail, hv, ih hl (m := m) (by omega)]
      · cases h; rfl
      · exact absurd h unexpected_ok

theorem parseRep_cut {pv : List LTok → PR Value} (hg : ∀ ts, Good ts (pv ts)) (hp : Cut pv) :
    Cut (parseRep pv) := by
  intro u t a r h
  unfold parseRep at h
  split at h
  · rename_i heq
    cases h
    rw [cut2 heq]; rfl
  · rename_i r1 hne heq
    split at h
    · cases h
    · rename_i v r' hv
      split at h
      · cases h
      · rename_i vs r'' hl
        cases h
        obtain ⟨w, rfl, _⟩ := split_suffix (listTail_suffix hg _ _ _ _ hl)
        obtain ⟨w', rfl, _⟩ := split_suffix ((hg r1).ok hv).1
        rw [cut1 heq]
        have hv' := hp _ _ _ _ hv
        have hl' := listTail_cut hg hp _ _ _ _ _ hl
        have hlen := ((hg w').ok hv').2
        unfold parseRep
        split
        · rename_i r0 heq'
          simp only [List.cons.injEq, true_and] at heq'
          subst heq'
          exact absurd rfl (hne (r0 ++ t))
        · rename_i heq'
          simp only [List.cons.injEq, true_and] at heq'
          subst heq'
          simp only [hv', listTail_more hg hl' (m := w'.length + 1) (by omega)]
        · rename_i hnn
          exact absurd rfl (hnn w')
  · rename_i h1 h2
    have hc := (hp.map (f := fun v => [v])) u t a r h
    unfold parseRep
    split
    · rename_i r0
      exact absurd rfl (h1 (r0 ++ t))
    · rename_i r0 _
      exact absurd rfl (h2 (r0 ++ t))
    · exact hc

theorem parseFieldValue_cut (hg : ∀ i ts, Good ts (sub i ts)) (hs : ∀ i, Cut (sub i)) (sib : List Nat)
    (mem : List FieldDesc) (f : FieldDesc) (fs : FieldSet) :
    Cut (parseFieldValue env S sub sib mem f fs) := by
  have hgv := parseVal_good (env := env) (S := S) hg f.kind
  have hcv := parseVal_cut (env := env) (S := S) hs f.kind
  have hcr := parseRep_cut hgv hcv
  intro u t a r h
  unfold parseFieldValue at h ⊢
  split at h
  · rename_i hl
    rw [if_pos hl]
    split at h
    · cases h
    · rename_i hv
      split at h
      · rename_i hm
        cases h
        simp only [hcr _ _ _ _ hv, hm]
      · cases h
  · rename_i hl
    rw [if_neg hl]
    split at h
    · rename_i hm
      rw [if_pos hm]
      split at h
      · cases h
      · rename_i hv
        split at h
        · rename_i hgm hk
          split at h
          · cases h
          · rename_i hi
            cases h
            simp only [hcr _ _ _ _ hv]
            simp only [hi]
        · cases h
    · rename_i hm
      rw [if_neg hm]
      split at h
      · cases h
      · rename_i hv
        split at h
        · cases h
        · cases h
        · rename_i hh
          split at h
          · cases h
          · cases h
          · rename_i ha
            cases h
            simp only [hcv _ _ _ _ hv, hh, ha]

theorem fullIdentLoop_cut (terms : List Tok) (acc : List Char) : CutNe (fullIdentLoop terms acc) := by
  intro u t a r hr h
  generalize hu : u ++ t = ts at h
  fun_induction fullIdentLoop terms acc ts generalizing u with
  | case1 acc s r1 ih =>
    have hs := fullIdentLoop_good terms (acc ++ '.' :: s) r1
    rw [h] at hs
    obtain ⟨w, rfl, _⟩ := split_suffix hs
    rw [cut2 hu]
    simp only [fullIdentLoop]
    exact ih w rfl h
  | case2 => exact absurd h unexpected_ok
  | case3 acc t' r1 _ _ hc =>
    simp only [Except.ok.injEq, Prod.mk.injEq] at h
    obtain ⟨rfl, h⟩ := h
    rw [h] at hu
    have := List.append_cancel_right hu
    subst this
    cases u with
    | nil => exact absurd rfl hr
    | cons x u =>
      simp only [List.cons_append, List.cons.injEq] at h
      rw [← h.1]
      unfold fullIdentLoop
      split
      · rename_i heq
        simp_all
      · rename_i heq
        simp_all
      · rename_i heq
        simp only [List.cons.injEq, LTok.tok.injEq] at heq
        obtain ⟨rfl, rfl⟩ := heq
        rw [if_pos hc]
      · rename_i hn
        exact absurd rfl (hn _ _)
  | case4 => cases h
  | case5 => exact absurd h unexpected_ok

theorem parseFullIdent_cut (terms : List Tok) : CutNe (parseFullIdent terms) := by
  intro u t a r hr h
  unfold parseFullIdent at h
  split at h
  · rename_i s r1 heq
    have hs := fullIdentLoop_good terms s r1
    rw [h] at hs
    obtain ⟨w, rfl, _⟩ := split_suffix hs
    rw [cut1 heq]
    exact fullIdentLoop_cut _ _ _ _ _ _ hr h
  · exact absurd h unexpected_ok

theorem parseFieldName_cut : Cut parseFieldName := by
  intro u t a r h
  unfold parseFieldName at h
  split at h
  · rename_i heq
    cases h
    rw [cut1 heq]; rfl
  · rename_i r1 heq
    split at h
    · cases h
    · rename_i n r' hn
      cases h
      have hs := ((parseFullIdent_good _ _).ok hn).1
      rw [← List.cons_append] at hs hn
      obtain ⟨w, rfl, _⟩ := split_suffix hs
      rw [cut1 heq]
      simp only [parseFieldName, parseFullIdent_cut _ _ _ _ _ (by simp) hn]
    · rename_i n r' hn
      split at h
      · cases h
      · rename_i n2 r2 hn2
        cases h
        have hs2 := ((parseFullIdent_good _ _).ok hn2).1
        rw [← List.cons_append] at hs2 hn2
        obtain ⟨w2, rfl, _⟩ := split_suffix hs2
        have hs := ((parseFullIdent_good _ _).ok hn).1
        rw [← List.cons_append] at hs hn
        obtain ⟨w, rfl, _⟩ := split_suffix hs
        rw [cut1 heq]
        simp only [parseFieldName, parseFullIdent_cut _ _ _ _ _ (by simp) hn,
          parseFullIdent_cut _ _ _ _ _ (by simp) hn2]
      · exact absurd h unexpected_ok
    · exact absurd h unexpected_ok
  · exact absurd h unexpected_ok

theorem parseColon_cut {u t r : List LTok} (hr : r ≠ []) (h : parseColon (u ++ t) = .ok (r ++ t)) :
    parseColon u = .ok r := by
  have key : ∀ x y : LTok, ∀ l : List LTok, u ++ t = x :: l → x :: l = r ++ t → ∃ v, u = x :: v ∧ r = x :: v := by
    intro x y l h1 h2
    rw [h2] at h1
    have := List.append_cancel_right h1
    subst this
    cases u with
    | nil => exact absurd rfl hr
    | cons z u =>
      simp only [List.cons_append, List.cons.injEq] at h2
      exact ⟨u, by rw [h2.1], by rw [h2.1]⟩
  unfold parseColon at h
  split at h
  · rename_i heq
    cases h
    rw [cut1 heq]; rfl
  · rename_i heq
    simp only [Except.ok.injEq] at h
    obtain ⟨v, rfl, rfl⟩ := key _ .bad _ heq h
    rfl
  · rename_i heq
    simp only [Except.ok.injEq] at h
    obtain ⟨v, rfl, rfl⟩ := key _ .bad _ heq h
    rfl
  · exact absurd h unexpected_ok

theorem parseAny_cut (hs : ∀ i, Cut (sub i)) (md : MsgDesc) (d : Nat) (dom name : List Char)
    (fs : FieldSet) : Cut (parseAny S sub md d dom name fs) := by
  intro u t a r h
  unfold parseAny at h ⊢
  split at h
  · cases h
  · rename_i i hi
    split at h
    · cases h
    · rename_i body r' hb
      split at h
      · cases h
      · rename_i b he
        split at h
        · cases h
        · rename_i hn
          split at h
          · cases h
          · cases h
          · rename_i m1 h1
            split at h
            · cases h
            · cases h
            · rename_i m2 h2
              cases h
              simp only [hs i _ _ _ _ hb, he, h1, h2]
              rw [if_neg hn]

theorem parseNamed_cut (hg : ∀ i ts, Good ts (sub i ts)) (hs : ∀ i, Cut (sub i)) (md : MsgDesc) (d : Nat)
    (name : FName) (fs : FieldSet) : Cut (parseNamed env S sub md d name fs) := by
  intro u t a r h
  unfold parseNamed at h ⊢
  split at h
  · split at h
    · cases h
    · cases h
    · exact parseFieldValue_cut hg hs _ _ _ _ _ _ _ _ h
  · split at h
    · cases h
    · exact parseFieldValue_cut hg hs _ _ _ _ _ _ _ _ h
  · exact parseAny_cut hs _ _ _ _ _ _ _ _ _ h

theorem parseSep_cut (fs : FieldSet) : Cut (parseSep fs) := by
  intro u t a r h
  unfold parseSep at h
  split at h
  · rename_i heq
    cases h
    rw [cut1 heq]; rfl
  · rename_i heq
    cases h
    rw [cut1 heq]; rfl
  · cases h
  · cases h
  · rename_i h1 h2 h3 h4
    simp only [Except.ok.injEq, Prod.mk.injEq] at h
    obtain ⟨rfl, h⟩ := h
    have := List.append_cancel_right h
    subst this
    unfold parseSep
    split
    · rename_i r0; exact absurd rfl (h1 (r0 ++ t))
    · rename_i r0; exact absurd rfl (h2 (r0 ++ t))
    · rename_i r0; exact absurd rfl (h3 (r0 ++ t))
    · rename_i r0; exact absurd rfl (h4 (r0 ++ t))
    · rfl

/-- The name, the colon and the value of a field, up to the separator. -/
theorem named_cut (hg : ∀ i ts, Good ts (sub i ts)) (hs : ∀ i, Cut (sub i)) {md : MsgDesc} {d : Nat}
    {fs fs' : FieldSet} {u t r1 r2 r : List LTok} {name : FName} (h1 : parseFieldName (u ++ t) = .ok (name, r1))
    (h2 : parseColon r1 = .ok r2) (h3 : parseNamed env S sub md d name fs r2 = .ok (fs', r ++ t)) :
    ∃ w1 w2, parseFieldName u = .ok (name, w1) ∧ parseColon w1 = .ok w2 ∧
      parseNamed env S sub md d name fs w2 = .ok (fs', r) := by
  obtain ⟨hsuf, hlt⟩ := (parseNamed_good (env := env) (S := S) hg md d name fs r2).ok h3
  obtain ⟨w2, rfl, _⟩ := split_suffix hsuf
  have hne : w2 ≠ [] := by
    rintro rfl
    simp only [List.length_append, List.length_nil] at hlt
    omega
  obtain ⟨w1, rfl, _⟩ := split_suffix (parseColon_ok h2)
  exact ⟨w1, w2, parseFieldName_cut _ _ _ _ h1, parseColon_cut hne h2,
    parseNamed_cut hg hs _ _ _ _ _ _ _ _ h3⟩

theorem parseField_cut (hg : ∀ i ts, Good ts (sub i ts)) (hs : ∀ i, Cut (sub i)) (md : MsgDesc) (d : Nat)
    (fs : FieldSet) : Cut (parseField env S sub md d fs) := by
  intro u t a r h
  unfold parseField at h
  split at h
  · cases h
  · rename_i name r1 h1
    split at h
    · cases h
    · rename_i r2 h2
      split at h
      · cases h
      · rename_i fs' r3 h3
        have hsep := parseSep_good fs' r3
        rw [h] at hsep
        obtain ⟨w3, rfl, _⟩ := split_suffix hsep
        obtain ⟨w1, w2, g1, g2, g3⟩ := named_cut hg hs h1 h2 h3
        unfold parseField
        simp only [g1, g2, g3, parseSep_cut _ _ _ _ _ h]

theorem bodyLoop_suffix {pf : FieldSet → List LTok → PR FieldSet} (hg : ∀ fs ts, Good ts (pf fs ts))
    {term : Tok} : ∀ (n : Nat) (fs fs' : FieldSet) (ts r : List LTok),
      bodyLoop pf term n fs ts = .ok (fs', r) → r <:+ ts := by
  intro n
  induction n with
  | zero => intro fs fs' ts r h; cases h
  | succ n ih =>
    intro fs fs' ts r h
    unfold bodyLoop at h
    split at h
    · contradiction
    · rename_i heq
      cases heq
      split at h
      · split at h
        · cases h
        · rename_i hp
          exact (ih _ _ _ _ h).trans ((hg _ _).ok hp).1
      · split at h
        · cases h; exact List.suffix_cons _ _
        · cases h
    · exact absurd h unexpected_ok

theorem bodyLoop_cut {pf : FieldSet → List LTok → PR FieldSet} (hg : ∀ fs ts, Good ts (pf fs ts))
    (hp : ∀ fs, Cut (pf fs)) {term : Tok} : ∀ n fs, Cut (bodyLoop pf term n fs) := by
  intro n
  induction n with
  | zero => intro fs u t a r h; cases h
  | succ n ih =>
    intro fs u t a r h
    unfold bodyLoop at h
    split at h
    · contradiction
    · rename_i n' fs0 t1 r1 _ _ _ heq hts
      cases heq
      split at h
      · rename_i hst
        split at h
        · cases h
        · rename_i fs1 r' hv
          obtain ⟨w, rfl, _⟩ := split_suffix (bodyLoop_suffix hg _ _ _ _ _ h)
          rw [← hts] at hv
          have hc := hp _ _ _ _ _ hv
          have hlen := ((hg _ _).ok hc).2
          cases u with
          | nil => simp at hlen
          | cons x u =>
            simp only [List.cons_append, List.cons.injEq] at hts
            rw [hts.1] at hc ⊢
            unfold bodyLoop
            rw [if_pos hst]
            simp only [hc]
            exact ih _ _ _ _ _ h
      · rename_i hst
        split at h
        · rename_i hterm
          cases h
          rw [cut1 hts]
          unfold bodyLoop
          rw [if_neg hst, if_pos hterm]
        · cases h
    · exact absurd h unexpected_ok

theorem bodyLoop_more {pf : FieldSet → List LTok → PR FieldSet} (hg : ∀ fs ts, Good ts (pf fs ts))
    {term : Tok} {n : Nat} {fs fs' : FieldSet} {ts r : List LTok}
    (h : bodyLoop pf term n fs ts = .ok (fs', r)) {m : Nat} (hm : ts.length < m) :
    bodyLoop pf term m fs ts = .ok (fs', r) := by
  induction n generalizing fs ts m with
  | zero => cases h
  | succ n ih =>
    cases m with
    | zero => omega
    | succ m =>
      unfold bodyLoop at h
      split at h
      · contradiction
      · rename_i heq
        cases heq
        unfold bodyLoop
        split at h
        · rename_i hst
          rw [if_pos hst]
          split at h
          · cases h
          · rename_i hv
            have := ((hg _ _).ok hv).2
            exact ih h (by omega)
        · rename_i hst
          rw [if_neg hst]
          exact h
      · exact absurd h unexpected_ok

theorem parseMsg_cut (env : TEnv) (S : Schema) (k : Nat) : ∀ i, Cut (parseMsg env S k i) := by
  induction k with
  | zero => intro i u t a r h; cases h
  | succ k ih =>
    intro i u t a r h
    have hg := parseMsg_good env S k
    unfold parseMsg at h ⊢
    split at h
    · cases h
    · rename_i md hmd
      have hgf : ∀ fs ts, Good ts (parseField env S (parseMsg env S k) md i fs ts) :=
        parseField_good hg md i
      split at h
      · rename_i r1 hts
        obtain ⟨w, rfl, _⟩ := split_suffix (bodyLoop_suffix hgf _ _ _ _ _ h)
        rw [cut1 hts]
        simp only
        exact bodyLoop_more hgf (bodyLoop_cut hgf (parseField_cut hg ih md i) _ _ _ _ _ _ h) (by omega)
      · rename_i r1 hts
        obtain ⟨w, rfl, _⟩ := split_suffix (bodyLoop_suffix hgf _ _ _ _ _ h)
        rw [cut1 hts]
        simp only
        exact bodyLoop_more hgf (bodyLoop_cut hgf (parseField_cut hg ih md i) _ _ _ _ _ _ h) (by omega)
      · exact absurd h unexpected_ok

end
end Verif.Text
