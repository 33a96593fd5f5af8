import Verif.Json.MaskLemmas
import Verif.Dyn.DecEq
/-!
Field masks and JSON (C38).
-/
set_option autoImplicit false
namespace Verif.Props
open Verif.Json Verif.Dyn

/-- The path keeps its identity through the camel-case form: it is not empty, has no comma, and
no underscore at its end or before a dot. -/
def Survives (p : List Char) : Prop :=
  p ≠ [] ∧ ',' ∉ p ∧ ¬ ∃ pre post, p = pre ++ '_' :: post ∧ (post = [] ∨ post.head? = some '.')

/-- C38: a mask is written exactly when no path has a capital letter, and every underscore is
followed by a small letter, a dot, or nothing. -/
theorem C38_written (ps : List (List Char)) :
    (∃ s, serMask ps = some s) ↔
      ∀ p ∈ ps, ∀ pre c post, p = pre ++ c :: post →
        ¬ (65 ≤ c.toNat ∧ c.toNat ≤ 90) ∧
        (c = '_' → post = [] ∨ ∃ d r, post = d :: r ∧ (d = '.' ∨ 97 ≤ d.toNat ∧ d.toNat ≤ 122)) := by
  rw [← Option.isSome_iff_exists]
  unfold serMask
  rw [serPaths_isSome]
  have key : ∀ p, (serPath p).isSome = true ↔ Writable p := by
    intro p
    rw [serPath_eq, camelP_isSome]
    exact ⟨fun h => h.1, fun h => ⟨h, fun h => by cases h⟩⟩
  simp only [key, Writable, isUpper, isLower, decide_eq_true_eq, decide_eq_false_iff_not]

theorem deMask_iff {s : List Char} {ps : List (List Char)} :
    deMask s = some ps ↔ ((splitAt ',' s).filter (fun p => !p.isEmpty)).map camelToSnake = ps.map some := by
  unfold deMask
  rw [mapParts_some]
  have : dePath = camelToSnake := funext dePath_eq
  rw [this]

theorem map_some_mem {α : Type} {f : α → Option α} : ∀ {xs ys : List α}, xs.map f = ys.map some → ∀ y ∈ ys, ∃ x ∈ xs, f x = some y
  | [], [], _, y, h => by simp at h
  | [], _ :: _, h, _, _ => by simp at h
  | _ :: _, [], h, _, _ => by simp at h
  | x :: xs, z :: ys, h, y, hy => by
    simp only [List.map_cons, List.cons.injEq] at h
    rcases List.mem_cons.1 hy with rfl | hy
    · exact ⟨x, by simp, h.1⟩
    · obtain ⟨x', h1, h2⟩ := map_some_mem h.2 y hy
      exact ⟨x', List.mem_cons_of_mem _ h1, h2⟩

/-- The paths that are read are ones that survive. -/
theorem C38_read_survives (s : List Char) (ps : List (List Char)) (h : deMask s = some ps) : ∀ p ∈ ps, Survives p := by
  intro p hp
  obtain ⟨t, ht, htp⟩ := map_some_mem (deMask_iff.1 h) p hp
  obtain ⟨ht1, ht2⟩ := List.mem_filter.1 ht
  obtain ⟨_, h2, h3, h4⟩ := snake_camelP t p htp
  refine ⟨h4 (by intro e; rw [e] at ht2; simp at ht2), h3 (split_mem ',' s t ht1), h2⟩

theorem serPaths_parts : ∀ (ps : List (List Char)) (acc s : List Char), serPaths acc ps = some s →
    ∃ qs : List (List Char), ps.map serPath = qs.map some
  | [], _, _, _ => ⟨[], rfl⟩
  | p :: ps, acc, s, h => by
    unfold serPaths at h
    cases hp : serPath p with
    | none => rw [hp] at h; cases h
    | some q =>
      rw [hp] at h
      obtain ⟨qs, hq⟩ := serPaths_parts ps _ s h
      exact ⟨q :: qs, by simp [hp, hq]⟩

theorem map_back : ∀ {ps qs : List (List Char)}, ps.map serPath = qs.map some →
    (∀ p ∈ ps, Survives p) → qs.map camelToSnake = ps.map some ∧ ∀ q ∈ qs, q ≠ [] ∧ ',' ∉ q
  | [], [], _, _ => ⟨rfl, by simp⟩
  | [], _ :: _, h, _ => by simp at h
  | _ :: _, [], h, _ => by simp at h
  | p :: ps, q :: qs, h, hs => by
    simp only [List.map_cons, List.cons.injEq] at h
    obtain ⟨h1, h2, h3⟩ := hs p (by simp)
    have := camelP_snake p false q (by rw [← serPath_eq]; exact h.1) h3 (by simp)
    obtain ⟨i1, i2⟩ := map_back h.2 (fun p hp => hs p (List.mem_cons_of_mem _ hp))
    refine ⟨by simpa [this.1] using i1, ?_⟩
    intro q' hq'
    rcases List.mem_cons.1 hq' with rfl | hq'
    · exact ⟨this.2.2 h1, this.2.1 h2⟩
    · exact i2 q' hq'

/-- C38: exactly which written masks are read back. -/
theorem C38_survives (ps : List (List Char)) (s : List Char) (h : serMask ps = some s) :
    deMask s = some ps ↔ ∀ p ∈ ps, Survives p := by
  constructor
  · exact C38_read_survives s ps
  · intro hs
    obtain ⟨qs, hq⟩ := serPaths_parts ps [] s h
    obtain ⟨h1, h2⟩ := map_back hq hs
    have := serPaths_join ps qs [] hq (fun q hq => (h2 q hq).1)
    unfold serMask at h
    rw [this] at h
    rw [deMask_iff]
    by_cases he : qs = []
    · subst he
      simp only [if_true, Option.some.injEq] at h
      subst h
      have : ps = [] := by cases ps with
        | nil => rfl
        | cons _ _ => simp at hq
      subst this
      rfl
    · rw [if_neg he, if_pos rfl] at h
      cases h
      rw [split_join ',' he (fun q hq => (h2 q hq).2), ← h1]
      congr 1
      rw [List.filter_eq_self]
      intro q hq
      have := (h2 q hq).1
      cases q with
      | nil => contradiction
      | cons _ _ => rfl

/-- C38, partial: a mask whose paths are not empty and have no comma and no dangling underscore
is rejected or read back.  Missing: masks with other paths, see `C38_false`. -/
theorem C38_roundtrip_partial (ps : List (List Char)) (hs : ∀ p ∈ ps, Survives p) :
    serMask ps = none ∨ ∃ s, serMask ps = some s ∧ deMask s = some ps := by
  cases h : serMask ps with
  | none => exact Or.inl rfl
  | some s => exact Or.inr ⟨s, rfl, (C38_survives ps s h).2 hs⟩

/-- The other direction: a mask that has been read is written back, without the empty parts of
the string. -/
theorem C38_reverse (s : List Char) (ps : List (List Char)) (h : deMask s = some ps) :
    serMask ps = some (joinAt ',' ((splitAt ',' s).filter (fun p => !p.isEmpty))) := by
  have hs := C38_read_survives s ps h
  rw [deMask_iff] at h
  have key : ∀ (ts ps : List (List Char)), ts.map camelToSnake = ps.map some → ps.map serPath = ts.map some := by
    intro ts
    induction ts with
    | nil =>
      intro ps h
      cases ps with
      | nil => rfl
      | cons _ _ => simp at h
    | cons t ts ih =>
      intro ps h
      cases ps with
      | nil => simp at h
      | cons p ps =>
        simp only [List.map_cons, List.cons.injEq] at h
        have := snake_camelP t p h.1
        simp only [List.map_cons, List.cons.injEq]
        exact ⟨by rw [serPath_eq]; exact this.1, ih ps h.2⟩
  have := serPaths_join ps _ [] (key _ _ h) (by
    intro q hq
    have := (List.mem_filter.1 hq).2
    intro e
    subst e
    simp at this)
  unfold serMask
  rw [this]
  split
  · rename_i he; rw [he]; rfl
  · rfl

/-- C38 fails: a final underscore, an empty path and a comma are accepted when writing and do
not come back. -/
theorem C38_false :
    (serMask ["a_".toList] = some "a".toList ∧ deMask "a".toList = some ["a".toList]) ∧
    (serMask ["a_.b".toList] = some "a.b".toList ∧ deMask "a.b".toList = some ["a.b".toList]) ∧
    (serMask [[], "a".toList] = some "a".toList ∧ deMask "a".toList = some ["a".toList]) ∧
    (serMask ["a,b".toList] = some "a,b".toList ∧ deMask "a,b".toList = some ["a".toList, "b".toList]) := by
  decide +kernel

example : serMask ["foo_bar.baz".toList, "x1".toList] = some "fooBar.baz,x1".toList := by decide +kernel
example : deMask "fooBar.baz,x1".toList = some ["foo_bar.baz".toList, "x1".toList] := by decide +kernel
example : serMask ["foo__bar".toList] = none ∧ serMask ["foo_3".toList] = none ∧ serMask ["fooBar".toList] = none := by
  decide +kernel
example : Survives "foo_bar.baz".toList := by
  refine ⟨by decide, by decide, ?_⟩
  exact (snake_camelP "fooBar.baz".toList _ (by decide +kernel)).2.1

end Verif.Props
