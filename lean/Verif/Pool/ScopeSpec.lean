import Verif.Pool.Located
/-!
Resolution of names, described without reference to how the search proceeds.
-/
set_option autoImplicit false
namespace Verif.Pool
open Verif.Wire Verif.Dyn

/-- `p` is `scope` or one of the scopes around it. -/
def Encloses (p scope : Name) : Prop := p = scope ∨ p = [] ∨ ∃ r, scope = p ++ '.' :: r

/-- `n` names a definition of the wanted kind in a visible file. -/
def Good (deps : List Nat) (names : List (Name × Def)) (filter : Filter) (n : Name) (d : Def) : Prop :=
  lookupN names n = some d ∧ d.file ∈ deps ∧ filter.isMatch d.kind = true

/-- `n` names something with members: a package, message, enum or service. -/
def HasMembers (names : List (Name × Def)) (n : Name) : Prop :=
  ∃ d, lookupN names n = some d ∧
    (d.kind = .package ∨ (∃ i, d.kind = .message i) ∨ (∃ i, d.kind = .enum i) ∨ ∃ i, d.kind = .service i)

/-- `p` is the innermost scope around `scope` that satisfies `P`. -/
def Innermost (scope : Name) (P : Name → Prop) (p : Name) : Prop :=
  Encloses p scope ∧ P p ∧ ∀ p', Encloses p' scope → p.length < p'.length → ¬ P p'

theorem Encloses.prefix {p scope : Name} (h : Encloses p scope) : p <+: scope := by
  rcases h with rfl | rfl | ⟨r, rfl⟩
  · exact List.prefix_refl _
  · exact List.nil_prefix
  · exact List.prefix_append _ _

theorem prefix_eq {α : Type} {a b c : List α} (ha : a <+: c) (hb : b <+: c)
    (h : a.length = b.length) : a = b := by
  rw [List.prefix_iff_eq_take] at ha hb
  rw [ha, hb, h]

theorem mem_candidateParents {p scope : Name} : p ∈ candidateParents scope ↔ Encloses p scope := by
  unfold candidateParents Encloses
  simp only [List.mem_cons, List.mem_append, List.mem_reverse, mem_dotPrefixes, List.not_mem_nil,
    or_false]
  constructor
  · rintro (h | h | h)
    · exact .inl h
    · exact .inr (.inr h)
    · exact .inr (.inl h)
  · rintro (h | h | h)
    · exact .inl h
    · exact .inr (.inr h)
    · exact .inr (.inl h)

theorem dotPrefixes_sorted : ∀ s : Name, (dotPrefixes s).Pairwise fun a b => a.length < b.length
  | [] => .nil
  | c :: r => by
    have ih := dotPrefixes_sorted r
    have : ((dotPrefixes r).map (c :: ·)).Pairwise fun a b => a.length < b.length := by
      rw [List.pairwise_map]
      exact ih.imp fun h => by simpa using h
    simp only [dotPrefixes]
    split
    · refine List.pairwise_cons.2 ⟨fun a ha => ?_, this⟩
      obtain ⟨b, _, rfl⟩ := List.mem_map.1 ha
      simp
    · exact this

theorem candidateParents_sorted (s : Name) :
    (candidateParents s).Pairwise fun a b => b.length ≤ a.length := by
  unfold candidateParents
  rw [List.pairwise_cons]
  refine ⟨fun a ha => ?_, ?_⟩
  · have : a ∈ candidateParents s := List.mem_cons_of_mem _ ha
    exact (mem_candidateParents.1 this).prefix.length_le
  · rw [List.pairwise_append]
    refine ⟨?_, by simp, by simp⟩
    rw [List.pairwise_reverse]
    exact (dotPrefixes_sorted s).imp fun h => Nat.le_of_lt h

/-- The first candidate that satisfies a condition is the innermost scope that does. -/
theorem first_iff_innermost {scope : Name} {P : Name → Prop} {p : Name} :
    (∃ pre post, candidateParents scope = pre ++ p :: post ∧ P p ∧ ∀ p' ∈ pre, ¬ P p') ↔
      Innermost scope P p := by
  have hs := candidateParents_sorted scope
  constructor
  · rintro ⟨pre, post, h1, h2, h3⟩
    refine ⟨mem_candidateParents.1 (h1 ▸ by simp), h2, fun p' he hlt => ?_⟩
    have hm := mem_candidateParents.2 he
    rw [h1] at hm hs
    rw [List.pairwise_append, List.pairwise_cons] at hs
    rw [List.mem_append, List.mem_cons] at hm
    rcases hm with hm | rfl | hm
    · exact h3 p' hm
    · omega
    · have := hs.2.1.1 p' hm
      omega
  · rintro ⟨h1, h2, h3⟩
    have hm := mem_candidateParents.2 h1
    obtain ⟨pre, post, heq, hn⟩ := List.eq_append_cons_of_mem hm
    refine ⟨pre, post, heq, h2, fun p' hp' => ?_⟩
    have he : Encloses p' scope := mem_candidateParents.1 (heq ▸ List.mem_append_left _ hp')
    refine h3 p' he ?_
    rw [heq, List.pairwise_append] at hs
    have hle := hs.2.2 p' hp' p (List.mem_cons_self ..)
    rcases Nat.lt_or_eq_of_le hle with hlt | heq'
    · exact hlt
    · exact absurd (prefix_eq he.prefix h1.prefix heq'.symm ▸ hp') hn

section
variable {deps : List Nat} {names : List (Name × Def)} {filter : Filter}

theorem RR.new_found_iff {n n' : Name} {d : Def} : RR.new deps names n filter = .found n' d ↔
    n' = n ∧ Good deps names filter n d := by
  unfold RR.new Good
  split
  · next e he =>
    simp only [List.contains_iff_mem, Bool.not_eq_true]
    split
    · next hc => 
      constructor
      · intro h; cases h
      · rintro ⟨_, h, hd, _⟩; cases he.symm.trans h; exact absurd hd hc
    · split
      · next hf =>
        constructor
        · intro h; cases h
        · rintro ⟨_, h, _, hd⟩; cases he.symm.trans h; rw [hd] at hf; cases hf
      · next hc hf =>
        constructor
        · intro h; cases h
          exact ⟨rfl, he, Classical.not_not.1 hc, by simpa using hf⟩
        · rintro ⟨rfl, h, _⟩; cases he.symm.trans h; rfl
  · next he => simp [he]

theorem relLoop_simple {n : Name} (hn : (firstPart n).length = n.length) {n' : Name} {d : Def} :
    ∀ (ps : List Name) (err : RR), (∀ a b, err ≠ .found a b) →
      (relLoop deps names n filter err ps = .found n' d ↔
        ∃ pre p post, ps = pre ++ p :: post ∧ n' = pushScope p (firstPart n) ∧
          Good deps names filter (pushScope p (firstPart n)) d ∧
          ∀ p' ∈ pre, ∀ d', ¬ Good deps names filter (pushScope p' (firstPart n)) d')
  | [], err, he => by
    simp only [relLoop]
    constructor
    · intro h; exact absurd h (he _ _)
    · rintro ⟨pre, p, post, h, _⟩; simp at h
  | p :: ps, err, he => by
    rw [relLoop]
    simp only [hn, if_true]
    cases hr : RR.new deps names (pushScope p (firstPart n)) filter with
    | found a b =>
      obtain ⟨h1, h2⟩ := RR.new_found_iff.1 hr
      simp only [RR.found.injEq]
      constructor
      · rintro ⟨rfl, rfl⟩
        exact ⟨[], p, ps, rfl, h1, h2, by simp⟩
      · rintro ⟨pre, q, post, hq, g1, g2, g3⟩
        cases pre with
        | nil =>
          cases hq
          exact ⟨h1.trans g1.symm, Option.some.inj (h2.1.symm.trans g2.1)⟩
        | cons x pre =>
          cases hq
          exact absurd h2 (g3 _ (List.mem_cons_self ..) _)
    | _ =>
      have hno : ∀ d', ¬ Good deps names filter (pushScope p (firstPart n)) d' := by
        intro d' hd
        rw [RR.new_found_iff.2 ⟨rfl, hd⟩] at hr
        cases hr
      simp only
      rw [relLoop_simple hn ps _ (by split <;> first | exact he | simp)]
      constructor
      · rintro ⟨pre, q, post, rfl, g1, g2, g3⟩
        refine ⟨p :: pre, q, post, rfl, g1, g2, ?_⟩
        intro p' hp'
        rcases List.mem_cons.1 hp' with rfl | hp'
        · exact hno
        · exact g3 p' hp'
      · rintro ⟨pre, q, post, hq, g1, g2, g3⟩
        cases pre with
        | nil => cases hq; exact absurd g2 (hno _)
        | cons x pre =>
          cases hq
          exact ⟨pre, q, post, rfl, g1, g2, fun p' hp' => g3 p' (List.mem_cons_of_mem _ hp')⟩

theorem isParent_iff {n : Name} : (∃ d, lookupN names n = some d ∧ d.kind.isParent = true) ↔
    HasMembers names n := by
  unfold HasMembers
  constructor
  · rintro ⟨d, h, hp⟩
    refine ⟨d, h, ?_⟩
    cases hk : d.kind <;> rw [hk] at hp <;> simp [DefKind.isParent] at hp ⊢
  · rintro ⟨d, h, hp⟩
    refine ⟨d, h, ?_⟩
    rcases hp with hp | ⟨i, hp⟩ | ⟨i, hp⟩ | ⟨i, hp⟩ <;> rw [hp] <;> rfl

theorem relLoop_dotted {n : Name} (hn : (firstPart n).length ≠ n.length) {n' : Name} {d : Def} :
    ∀ (ps : List Name) (err : RR), (∀ a b, err ≠ .found a b) →
      (relLoop deps names n filter err ps = .found n' d ↔
        ∃ pre p post, ps = pre ++ p :: post ∧ HasMembers names (pushScope p (firstPart n)) ∧
          (∀ p' ∈ pre, ¬ HasMembers names (pushScope p' (firstPart n))) ∧
          n' = pushScope p n ∧ Good deps names filter (pushScope p n) d)
  | [], err, he => by
    simp only [relLoop]
    constructor
    · intro h; exact absurd h (he _ _)
    · rintro ⟨pre, p, post, h, _⟩; simp at h
  | p :: ps, err, he => by
    rw [relLoop]
    simp only [hn, if_false]
    have skip : ¬ HasMembers names (pushScope p (firstPart n)) →
        (relLoop deps names n filter err ps = .found n' d ↔
        ∃ pre p' post, p :: ps = pre ++ p' :: post ∧ HasMembers names (pushScope p' (firstPart n)) ∧
          (∀ p' ∈ pre, ¬ HasMembers names (pushScope p' (firstPart n))) ∧
          n' = pushScope p' n ∧ Good deps names filter (pushScope p' n) d) := by
      intro hno
      rw [relLoop_dotted hn ps _ he]
      constructor
      · rintro ⟨pre, q, post, rfl, g1, g2, g3⟩
        refine ⟨p :: pre, q, post, rfl, g1, ?_, g3⟩
        intro p' hp'
        rcases List.mem_cons.1 hp' with rfl | hp'
        · exact hno
        · exact g2 p' hp'
      · rintro ⟨pre, q, post, hq, g1, g2, g3⟩
        cases pre with
        | nil => cases hq; exact absurd g1 hno
        | cons x pre =>
          cases hq
          exact ⟨pre, q, post, rfl, g1, fun p' hp' => g2 p' (List.mem_cons_of_mem _ hp'), g3⟩
    cases hl : lookupN names (pushScope p (firstPart n)) with
    | none =>
      refine skip fun h => ?_
      obtain ⟨_, h, _⟩ := h
      rw [hl] at h
      cases h
    | some e =>
      simp only
      cases hp : e.kind.isParent with
      | false =>
        exact skip fun h => by
          obtain ⟨d', h1, h2⟩ := isParent_iff.2 h
          rw [hl] at h1; cases h1
          rw [hp] at h2; cases h2
      | true =>
        have hm : HasMembers names (pushScope p (firstPart n)) := isParent_iff.1 ⟨e, hl, hp⟩
        have key : (RR.new deps names (pushScope p n) filter = .found n' d) ↔
            ∃ pre p' post, p :: ps = pre ++ p' :: post ∧
              HasMembers names (pushScope p' (firstPart n)) ∧
              (∀ p' ∈ pre, ¬ HasMembers names (pushScope p' (firstPart n))) ∧
              n' = pushScope p' n ∧ Good deps names filter (pushScope p' n) d := by
          rw [RR.new_found_iff]
          constructor
          · rintro ⟨h1, h2⟩
            exact ⟨[], p, ps, rfl, hm, by simp, h1, h2⟩
          · rintro ⟨pre, q, post, hq, g1, g2, g3⟩
            cases pre with
            | nil => cases hq; exact g3
            | cons x pre =>
              cases hq
              exact absurd hm (g2 _ (List.mem_cons_self ..))
        rw [← key]
        simp only [if_true]
        cases RR.new deps names (pushScope p n) filter <;> simp

end
end Verif.Pool
