import Verif.Json.Mask
/-!
Facts about the field mask conversion.
-/
set_option autoImplicit false
namespace Verif.Json

/-! ### Characters -/

theorem upper_ascii {c : Char} (h : isUpper c = true) : ∃ n, 65 ≤ n ∧ n ≤ 90 ∧ c = Char.ofNat n := by
  simp only [isUpper, decide_eq_true_eq] at h
  exact ⟨c.toNat, h.1, h.2, (Char.ofNat_toNat c).symm⟩

theorem lower_ascii {c : Char} (h : isLower c = true) : ∃ n, 97 ≤ n ∧ n ≤ 122 ∧ c = Char.ofNat n := by
  simp only [isLower, decide_eq_true_eq] at h
  exact ⟨c.toNat, h.1, h.2, (Char.ofNat_toNat c).symm⟩

theorem upper_facts {c : Char} (h : isUpper c = true) :
    isLower (toLower c) = true ∧ toUpper (toLower c) = c ∧ toUpper (toLower c) ≠ toLower c ∧ toLower c ≠ '.' ∧
      isUpper (toLower c) = false ∧ toLower c ≠ '_' ∧ toLower c ≠ ',' ∧ c ≠ '.' ∧ c ≠ '_' ∧ c ≠ ',' := by
  obtain ⟨n, h1, h2, rfl⟩ := upper_ascii h
  have key : ∀ m : Fin 26, (let c := Char.ofNat (65 + m.val)
      isLower (toLower c) = true ∧ toUpper (toLower c) = c ∧ toUpper (toLower c) ≠ toLower c ∧ toLower c ≠ '.' ∧
      isUpper (toLower c) = false ∧ toLower c ≠ '_' ∧ toLower c ≠ ',' ∧ c ≠ '.' ∧ c ≠ '_' ∧ c ≠ ',') := by decide +kernel
  have := key ⟨n - 65, by omega⟩
  simpa only [show 65 + (n - 65) = n by omega] using this

theorem lower_facts {c : Char} (h : isLower c = true) :
    isUpper (toUpper c) = true ∧ toLower (toUpper c) = c ∧ toUpper c ≠ c ∧ c ≠ '.' ∧ c ≠ '_' ∧ c ≠ ',' ∧
      isUpper c = false ∧ toUpper c ≠ ',' := by
  obtain ⟨n, h1, h2, rfl⟩ := lower_ascii h
  have key : ∀ m : Fin 26, (let c := Char.ofNat (97 + m.val)
      isUpper (toUpper c) = true ∧ toLower (toUpper c) = c ∧ toUpper c ≠ c ∧ c ≠ '.' ∧ c ≠ '_' ∧ c ≠ ',' ∧
      isUpper c = false ∧ toUpper c ≠ ',') := by decide +kernel
  have := key ⟨n - 97, by omega⟩
  simpa only [show 97 + (n - 97) = n by omega] using this

theorem lower_iff {c : Char} : isLower c = true ↔ toUpper c ≠ c := by
  constructor
  · intro h; exact (lower_facts h).2.2.1
  · intro h
    cases hl : isLower c with
    | true => rfl
    | false => exact absurd (by simp [toUpper, hl]) h

/-! ### Splitting -/

theorem splitAt_ne (d : Char) (s : List Char) : splitAt d s ≠ [] := by
  induction s with
  | nil => simp [splitAt]
  | cons x r ih =>
    unfold splitAt
    split
    · simp
    · split <;> simp

theorem splitAt_cons (d : Char) (s : List Char) : ∃ p ps, splitAt d s = p :: ps := by
  cases h : splitAt d s with
  | nil => exact absurd h (splitAt_ne d s)
  | cons p ps => exact ⟨p, ps, rfl⟩

theorem joinAt_cons_cons (d x : Char) (p : List Char) (ps : List (List Char)) :
    joinAt d ((x :: p) :: ps) = x :: joinAt d (p :: ps) := by
  cases ps <;> rfl

theorem joinAt_nil_cons (d : Char) (ps : List (List Char)) (h : ps ≠ []) :
    joinAt d ([] :: ps) = d :: joinAt d ps := by
  cases ps with
  | nil => contradiction
  | cons q r => rfl

theorem join_split (d : Char) (s : List Char) : joinAt d (splitAt d s) = s := by
  induction s with
  | nil => rfl
  | cons x r ih =>
    unfold splitAt
    split
    · rename_i h
      rw [joinAt_nil_cons _ _ (splitAt_ne d r), ih, h]
    · obtain ⟨p, ps, h⟩ := splitAt_cons d r
      rw [h] at ih ⊢
      dsimp only
      rw [joinAt_cons_cons, ih]

theorem split_no (d : Char) {p : List Char} (h : d ∉ p) : splitAt d p = [p] := by
  induction p with
  | nil => rfl
  | cons x r ih =>
    unfold splitAt
    rw [if_neg (by rintro rfl; simp at h), ih (by intro hr; exact h (by simp [hr]))]

theorem split_append (d : Char) {p : List Char} (h : d ∉ p) (r : List Char) :
    splitAt d (p ++ d :: r) = p :: splitAt d r := by
  induction p with
  | nil => simp [splitAt]
  | cons x q ih =>
    rw [List.cons_append, splitAt]
    rw [if_neg (by rintro rfl; simp at h), ih (by intro hr; exact h (by simp [hr]))]

theorem split_join (d : Char) : ∀ {ps : List (List Char)}, ps ≠ [] → (∀ p ∈ ps, d ∉ p) → splitAt d (joinAt d ps) = ps
  | [], h, _ => absurd rfl h
  | [p], _, h => split_no d (h p (by simp))
  | p :: q :: r, _, h => by
    have h1 := split_append d (h p (by simp)) (joinAt d (q :: r))
    have h2 := split_join d (ps := q :: r) (by simp) (fun p hp => h p (List.mem_cons_of_mem _ hp))
    rw [h2] at h1
    exact h1

theorem split_mem (d : Char) (s : List Char) : ∀ p ∈ splitAt d s, d ∉ p := by
  induction s with
  | nil => simp [splitAt]
  | cons x r ih =>
    unfold splitAt
    split
    · intro p hp
      rcases List.mem_cons.1 hp with rfl | hp
      · simp
      · exact ih p hp
    · rename_i hx
      obtain ⟨q, qs, h⟩ := splitAt_cons d r
      rw [h] at ih ⊢
      intro p hp
      rcases List.mem_cons.1 hp with rfl | hp
      · have := ih q (by simp)
        intro hm
        rcases List.mem_cons.1 hm with hm | hm
        · exact hx hm.symm
        · exact this hm
      · exact ih p (List.mem_cons_of_mem _ hp)

/-! ### One path -/

/-- `snake_case_to_camel_case` applied between dots. -/
def camelP : Bool → List Char → Option (List Char)
  | _, [] => some []
  | u, c :: r =>
    if c = '.' then (camelP false r).map ('.' :: ·)
    else if isUpper c then none
    else if u then
      if toUpper c = c then none else (camelP false r).map (toUpper c :: ·)
    else if c = '_' then camelP true r
    else (camelP false r).map (c :: ·)

theorem serPath_aux (s : List Char) : ∀ (u : Bool) (p : List Char) (ps : List (List Char)), splitAt '.' s = p :: ps →
    ((snakeToCamel u p).bind fun q => (mapParts (snakeToCamel false) ps).map fun qs => joinAt '.' (q :: qs)) =
      camelP u s := by
  induction s with
  | nil =>
    intro u p ps h
    cases h
    cases u <;> rfl
  | cons c r ih =>
    intro u p ps h
    unfold splitAt at h
    obtain ⟨q, qs, hr⟩ := splitAt_cons '.' r
    rw [hr] at h
    have ih0 := fun u => ih u q qs hr
    unfold camelP
    by_cases hc : c = '.'
    · rw [if_pos hc] at h ⊢
      cases h
      have : snakeToCamel u [] = some [] := by cases u <;> rfl
      rw [← ih0 false, this]
      simp only [mapParts, Option.bind_some]
      cases snakeToCamel false q with
      | none => rfl
      | some q' =>
        cases mapParts (snakeToCamel false) qs with
        | none => rfl
        | some qs' => rfl
    · rw [if_neg hc] at h ⊢
      cases h
      unfold snakeToCamel
      split
      · rfl
      · split
        · split
          · rfl
          · rw [← ih0 false]
            cases snakeToCamel false q with
            | none => rfl
            | some q' =>
              cases mapParts (snakeToCamel false) ps with
              | none => rfl
              | some qs' =>
                simp only [Option.map_some, Option.bind_some, joinAt_cons_cons]
        · split
          · exact ih0 true
          · rw [← ih0 false]
            cases snakeToCamel false q with
            | none => rfl
            | some q' =>
              cases mapParts (snakeToCamel false) ps with
              | none => rfl
              | some qs' =>
                simp only [Option.map_some, Option.bind_some, joinAt_cons_cons]

theorem serPath_eq (s : List Char) : serPath s = camelP false s := by
  obtain ⟨p, ps, h⟩ := splitAt_cons '.' s
  rw [← serPath_aux s false p ps h, serPath, h, mapParts]
  cases snakeToCamel false p with
  | none => rfl
  | some q =>
    cases mapParts (snakeToCamel false) ps <;> rfl

theorem dePath_aux (s : List Char) : ∀ (p : List Char) (ps : List (List Char)), splitAt '.' s = p :: ps →
    ((camelToSnake p).bind fun q => (mapParts camelToSnake ps).map fun qs => joinAt '.' (q :: qs)) =
      camelToSnake s := by
  induction s with
  | nil => intro p ps h; cases h; rfl
  | cons c r ih =>
    intro p ps h
    unfold splitAt at h
    obtain ⟨q, qs, hr⟩ := splitAt_cons '.' r
    rw [hr] at h
    have ih0 := ih q qs hr
    by_cases hc : c = '.'
    · rw [if_pos hc] at h
      cases h
      have e : camelToSnake (c :: r) = (camelToSnake r).map ('.' :: ·) := by
        subst hc
        rw [camelToSnake, if_neg (by decide), if_neg (by decide)]
      rw [e, ← ih0]
      simp only [mapParts, camelToSnake, Option.bind_some]
      cases camelToSnake q with
      | none => rfl
      | some q' =>
        cases mapParts camelToSnake qs with
        | none => rfl
        | some qs' => rfl
    · rw [if_neg hc] at h
      cases h
      unfold camelToSnake
      rw [← ih0]
      split
      · cases camelToSnake q with
        | none => rfl
        | some q' =>
          cases mapParts camelToSnake ps with
          | none => rfl
          | some qs' => simp only [Option.map_some, Option.bind_some, joinAt_cons_cons]
      · split
        · rfl
        · cases camelToSnake q with
          | none => rfl
          | some q' =>
            cases mapParts camelToSnake ps with
            | none => rfl
            | some qs' => simp only [Option.map_some, Option.bind_some, joinAt_cons_cons]

theorem dePath_eq (s : List Char) : dePath s = camelToSnake s := by
  obtain ⟨p, ps, h⟩ := splitAt_cons '.' s
  rw [← dePath_aux s p ps h, dePath, h, mapParts]
  cases camelToSnake p with
  | none => rfl
  | some q => cases mapParts camelToSnake ps <;> rfl

/-! ### What is accepted and what survives -/

/-- An underscore with nothing to capitalise after it: at the end, or before a dot. -/
def Dangling (s : List Char) : Prop := ∃ pre post, s = pre ++ '_' :: post ∧ (post = [] ∨ post.head? = some '.')

/-- What may be written: no capital letter, and an underscore only at the end, before a dot, or
before a small letter. -/
def Writable (s : List Char) : Prop :=
  ∀ pre c post, s = pre ++ c :: post → isUpper c = false ∧
    (c = '_' → post = [] ∨ ∃ d r, post = d :: r ∧ (d = '.' ∨ isLower d = true))

theorem Writable.tail {c : Char} {s : List Char} (h : Writable (c :: s)) : Writable s := by
  intro pre d post e
  exact h (c :: pre) d post (by rw [e]; rfl)

/-- With the flag set, the next character must be a small letter, a dot, or missing. -/
def Next (u : Bool) (s : List Char) : Prop :=
  u = true → s = [] ∨ ∃ d r, s = d :: r ∧ (d = '.' ∨ isLower d = true)

theorem camelP_isSome (s : List Char) : ∀ u, (camelP u s).isSome = true ↔ Writable s ∧ Next u s := by
  induction s with
  | nil =>
    intro u
    have : camelP u [] = some [] := by cases u <;> rfl
    rw [this]
    refine ⟨fun _ => ⟨?_, fun _ => Or.inl rfl⟩, fun _ => rfl⟩
    intro pre c post h
    simp at h
  | cons c r ih =>
    intro u
    have wcons : Writable (c :: r) ↔ (isUpper c = false ∧ (c = '_' → Next true r)) ∧ Writable r := by
      constructor
      · intro h
        have h0 := h [] c r rfl
        exact ⟨⟨h0.1, fun hc _ => h0.2 hc⟩, h.tail⟩
      · rintro ⟨⟨h1, h2⟩, h3⟩ pre d post e
        cases pre with
        | nil =>
          cases e
          exact ⟨h1, fun hc => h2 hc rfl⟩
        | cons x pre =>
          simp only [List.cons_append, List.cons.injEq] at e
          exact h3 pre d post e.2
    have nextF : Next false r := fun h => by cases h
    unfold camelP
    by_cases hc : c = '.'
    · rw [if_pos hc, Option.isSome_map, ih false, wcons]
      subst hc
      constructor
      · rintro ⟨h, _⟩
        exact ⟨⟨⟨by decide, fun h => absurd h (by decide)⟩, h⟩, fun _ => Or.inr ⟨_, _, rfl, Or.inl rfl⟩⟩
      · rintro ⟨⟨_, h⟩, _⟩
        exact ⟨h, nextF⟩
    · rw [if_neg hc]
      by_cases hu : isUpper c = true
      · rw [if_pos hu]
        constructor
        · intro h; cases h
        · rintro ⟨h, _⟩
          rw [wcons] at h
          rw [h.1.1] at hu
          cases hu
      · rw [if_neg hu]
        simp only [Bool.not_eq_true] at hu
        cases u with
        | true =>
          rw [if_pos rfl]
          by_cases hl : isLower c = true
          · rw [if_neg (lower_iff.1 hl), Option.isSome_map, ih false, wcons]
            have hne := (lower_facts hl).2.2.2.2.1
            constructor
            · rintro ⟨h, _⟩
              exact ⟨⟨⟨hu, fun h => absurd h hne⟩, h⟩, fun _ => Or.inr ⟨_, _, rfl, Or.inr hl⟩⟩
            · rintro ⟨⟨_, h⟩, _⟩
              exact ⟨h, nextF⟩
          · have : toUpper c = c := by
              apply Classical.byContradiction
              intro h
              exact hl (lower_iff.2 h)
            rw [if_pos this]
            constructor
            · intro h; cases h
            · rintro ⟨_, h⟩
              rcases h rfl with h | ⟨d, r', h, h'⟩
              · cases h
              · cases h
                rcases h' with h' | h'
                · exact absurd h' hc
                · exact absurd h' hl
        | false =>
          simp only [Bool.false_eq_true, if_false]
          by_cases h_ : c = '_'
          · rw [if_pos h_, ih true, wcons]
            constructor
            · rintro ⟨h1, h2⟩
              exact ⟨⟨⟨hu, fun _ => h2⟩, h1⟩, fun h => by cases h⟩
            · rintro ⟨⟨⟨_, h1⟩, h2⟩, _⟩
              exact ⟨h2, h1 h_⟩
          · rw [if_neg h_, Option.isSome_map, ih false, wcons]
            constructor
            · rintro ⟨h, _⟩
              exact ⟨⟨⟨hu, fun h => absurd h h_⟩, h⟩, fun h => by cases h⟩
            · rintro ⟨⟨_, h⟩, _⟩
              exact ⟨h, nextF⟩

theorem Dangling.cons {c : Char} {s : List Char} (h : Dangling s) : Dangling (c :: s) := by
  obtain ⟨pre, post, rfl, h⟩ := h
  exact ⟨c :: pre, post, rfl, h⟩

theorem camelToSnake_upper {c : Char} (h : isUpper c = true) (r : List Char) :
    camelToSnake (c :: r) = (camelToSnake r).map (fun s => '_' :: toLower c :: s) := by
  rw [camelToSnake, if_pos h]

theorem camelToSnake_other {c : Char} (h : isUpper c = false) (h' : c ≠ '_') (r : List Char) :
    camelToSnake (c :: r) = (camelToSnake r).map (c :: ·) := by
  rw [camelToSnake, h, if_neg (by simp), if_neg h']

/-- What is written is read back, unless an underscore dangles. -/
theorem camelP_snake (s : List Char) : ∀ u t, camelP u s = some t → ¬ Dangling s →
    (u = true → s ≠ [] ∧ s.head? ≠ some '.') →
    camelToSnake t = some (if u then '_' :: s else s) ∧ (',' ∉ s → ',' ∉ t) ∧ (s ≠ [] → t ≠ []) := by
  induction s with
  | nil =>
    intro u t h _ hu
    have : camelP u [] = some [] := by cases u <;> rfl
    rw [this] at h
    cases h
    cases u with
    | true => exact absurd rfl (hu rfl).1
    | false => exact ⟨rfl, id, id⟩
  | cons c r ih =>
    intro u t h hd hu
    have hd' : ¬ Dangling r := fun h => hd h.cons
    unfold camelP at h
    by_cases hc : c = '.'
    · rw [if_pos hc] at h
      cases hr : camelP false r with
      | none => rw [hr] at h; cases h
      | some t' =>
        rw [hr] at h
        cases h
        have := ih false t' hr hd' (by simp)
        cases u with
        | true => exact absurd (by rw [hc]; rfl) (hu rfl).2
        | false =>
          refine ⟨?_, ?_, by simp⟩
          · rw [camelToSnake_other (by decide) (by decide), this.1, hc]; rfl
          · intro h
            have := this.2.1 (by intro h'; exact h (by simp [h']))
            simp [this]
    · rw [if_neg hc] at h
      by_cases hup : isUpper c = true
      · rw [if_pos hup] at h; cases h
      · rw [if_neg hup] at h
        simp only [Bool.not_eq_true] at hup
        cases u with
        | true =>
          rw [if_pos rfl] at h
          by_cases hl : toUpper c = c
          · rw [if_pos hl] at h; cases h
          · rw [if_neg hl] at h
            have hlow := lower_iff.2 hl
            cases hr : camelP false r with
            | none => rw [hr] at h; cases h
            | some t' =>
              rw [hr] at h
              cases h
              have := ih false t' hr hd' (by simp)
              obtain ⟨f1, f2, _, _, _, f6, _, f8⟩ := lower_facts hlow
              refine ⟨?_, ?_, by simp⟩
              · rw [camelToSnake_upper f1, this.1, f2]; rfl
              · intro h
                have := this.2.1 (by intro h'; exact h (by simp [h']))
                simp [this, f8.symm]
        | false =>
          simp only [Bool.false_eq_true, if_false] at h
          by_cases h_ : c = '_'
          · rw [if_pos h_] at h
            subst h_
            have hr : r ≠ [] ∧ r.head? ≠ some '.' :=
              ⟨fun e => hd ⟨[], r, rfl, Or.inl e⟩, fun e => hd ⟨[], r, rfl, Or.inr e⟩⟩
            have := ih true t h hd' (fun _ => hr)
            refine ⟨by simpa using this.1, ?_, fun _ => this.2.2 hr.1⟩
            intro h
            exact this.2.1 (by intro h'; exact h (by simp [h']))
          · rw [if_neg h_] at h
            cases hr : camelP false r with
            | none => rw [hr] at h; cases h
            | some t' =>
              rw [hr] at h
              cases h
              have := ih false t' hr hd' (by simp)
              refine ⟨?_, ?_, by simp⟩
              · rw [camelToSnake_other hup h_, this.1]; rfl
              · intro h
                have h1 := this.2.1 (by intro h'; exact h (by simp [h']))
                intro hm
                rcases List.mem_cons.1 hm with hm | hm
                · exact h (hm ▸ List.mem_cons_self)
                · exact h1 hm

/-- What is read has no dangling underscore, and is written back. -/
theorem snake_camelP (t : List Char) : ∀ s, camelToSnake t = some s →
    camelP false s = some t ∧ ¬ Dangling s ∧ (',' ∉ t → ',' ∉ s) ∧ (t ≠ [] → s ≠ []) := by
  induction t with
  | nil =>
    intro s h
    cases h
    refine ⟨rfl, ?_, id, id⟩
    rintro ⟨pre, post, h, _⟩
    simp at h
  | cons c r ih =>
    intro s h
    by_cases hup : isUpper c = true
    · rw [camelToSnake_upper hup] at h
      cases hr : camelToSnake r with
      | none => rw [hr] at h; cases h
      | some s' =>
        rw [hr] at h
        cases h
        obtain ⟨i1, i2, i3, i4⟩ := ih s' hr
        obtain ⟨f1, f2, f3, f4, f5, f6, f7, _⟩ := upper_facts hup
        refine ⟨?_, ?_, ?_, by simp⟩
        · rw [camelP, if_neg (by decide), if_neg (by decide), if_neg (by simp), if_pos rfl, camelP, if_neg f4,
            f5, if_neg (by simp), if_pos rfl, if_neg f3, i1, f2]
          rfl
        · rintro ⟨pre, post, e, h⟩
          match pre with
          | [] =>
            cases e
            rcases h with h | h
            · cases h
            · simp only [List.head?_cons, Option.some.injEq] at h
              exact f4 h
          | [x] =>
            simp only [List.cons_append, List.nil_append, List.cons.injEq] at e
            exact f6 e.2.1
          | x :: y :: pre =>
            simp only [List.cons_append, List.cons.injEq] at e
            exact i2 ⟨pre, post, e.2.2, h⟩
        · intro h
          have := i3 (by intro h'; exact h (by simp [h']))
          simp [this, f7.symm]
    · simp only [Bool.not_eq_true] at hup
      by_cases h_ : c = '_'
      · subst h_
        rw [camelToSnake, if_neg (by decide), if_pos rfl] at h
        cases h
      · rw [camelToSnake_other hup h_] at h
        cases hr : camelToSnake r with
        | none => rw [hr] at h; cases h
        | some s' =>
          rw [hr] at h
          cases h
          obtain ⟨i1, i2, i3, i4⟩ := ih s' hr
          refine ⟨?_, ?_, ?_, by simp⟩
          · rw [camelP, i1]
            by_cases hc : c = '.'
            · rw [if_pos hc, hc]; rfl
            · rw [if_neg hc, hup, if_neg (by simp), if_neg (by simp), if_neg h_]; rfl
          · rintro ⟨pre, post, e, h⟩
            cases pre with
            | nil => cases e; exact h_ rfl
            | cons x pre =>
              simp only [List.cons_append, List.cons.injEq] at e
              exact i2 ⟨pre, post, e.2, h⟩
          · intro h
            have h1 := i3 (by intro h'; exact h (by simp [h']))
            intro hm
            rcases List.mem_cons.1 hm with hm | hm
            · exact h (hm ▸ List.mem_cons_self)
            · exact h1 hm

/-! ### The whole mask -/

theorem mapParts_some {f : List Char → Option (List Char)} : ∀ {ps qs : List (List Char)},
    mapParts f ps = some qs ↔ ps.map f = qs.map some
  | [], qs => by
    cases qs with
    | nil => simp [mapParts]
    | cons q qs => simp [mapParts]
  | p :: ps, qs => by
    unfold mapParts
    cases h : f p with
    | none =>
      cases qs <;> simp [h]
    | some q =>
      cases hr : mapParts f ps with
      | none =>
        cases qs with
        | nil => simp
        | cons q' qs =>
          simp only [Option.map_none, List.map_cons, List.cons.injEq, h, Option.some.injEq]
          constructor
          · intro h; cases h
          · rintro ⟨_, h2⟩
            rw [mapParts_some.2 h2] at hr
            cases hr
      | some rs =>
        cases qs with
        | nil => simp
        | cons q' qs =>
          have := mapParts_some (f := f) (ps := ps) (qs := qs)
          rw [hr] at this
          simp only [Option.some.injEq] at this
          simp only [Option.map_some, Option.some.injEq, List.map_cons, List.cons.injEq, h, this]

/-- The outer loop, when no path is empty in the result. -/
theorem serPaths_join : ∀ (ps qs : List (List Char)) (acc : List Char), ps.map serPath = qs.map some →
    (∀ q ∈ qs, q ≠ []) → serPaths acc ps =
      some (if qs = [] then acc else if acc = [] then joinAt ',' qs else acc ++ ',' :: joinAt ',' qs)
  | [], qs, acc, h, _ => by
    cases qs with
    | nil => rfl
    | cons _ _ => cases h
  | p :: ps, [], acc, h, _ => by cases h
  | p :: ps, q :: qs, acc, h, hq => by
    simp only [List.map_cons, List.cons.injEq] at h
    unfold serPaths
    rw [h.1]
    dsimp only
    rw [serPaths_join ps qs _ h.2 (fun q hq' => hq q (List.mem_cons_of_mem _ hq'))]
    have hqne := hq q (by simp)
    cases acc with
    | nil =>
      cases qs with
      | nil => simp [joinAt]
      | cons q' qs => simp [joinAt, hqne]
    | cons a acc =>
      cases qs with
      | nil => simp [joinAt]
      | cons q' qs => simp [joinAt]

theorem serPaths_isSome : ∀ (ps : List (List Char)) (acc : List Char),
    (serPaths acc ps).isSome = true ↔ ∀ p ∈ ps, (serPath p).isSome = true
  | [], acc => by simp [serPaths]
  | p :: ps, acc => by
    unfold serPaths
    cases h : serPath p with
    | none => simp [h]
    | some q =>
      dsimp only
      rw [serPaths_isSome ps]
      simp [h]

end Verif.Json
