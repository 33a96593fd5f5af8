import Verif.Pool.Visible
/-!
What a type name refers to, stated over the declarations of the accepted files only.
-/
set_option autoImplicit false
namespace Verif.Pool
open Verif.Wire Verif.Dyn

/-- File number `i` declares `x`, with full name `n`. -/
def DeclaredAs (acc : List FileP) (i : Nat) (n : Name) (x : Item) : Prop :=
  ∃ f path s, acc[i]? = some f ∧ Has f path s x ∧ n = qualified s x.name

/-- One of the files in `vis` declares a message (or an enum, if those are wanted) named `n`. -/
def TypeAt (acc : List FileP) (vis : Nat → Prop) (enums : Bool) (n : Name) : Prop :=
  ∃ j, vis j ∧ ((∃ m, DeclaredAs acc j n (.message m)) ∨
    (enums = true ∧ ∃ e, DeclaredAs acc j n (.enum e)))

/-- Something with members is named `n`, in whatever file: a message, enum or service, or a
package or part of one. -/
def ScopeAt (acc : List FileP) (n : Name) : Prop :=
  (∃ j m, DeclaredAs acc j n (.message m)) ∨ (∃ j e, DeclaredAs acc j n (.enum e)) ∨
  (∃ j s, DeclaredAs acc j n (.service s)) ∨
  ∃ f ∈ acc, f.package = n ∨ ∃ r, f.package = n ++ '.' :: r

/-- `Refers acc vis enums scope name n`: seen from `scope`, `name` means the type called `n`. -/
inductive Refers (acc : List FileP) (vis : Nat → Prop) (enums : Bool) (scope : Name) :
    Name → Name → Prop where
  /-- a leading dot: the name is complete -/
  | full (n : Name) : TypeAt acc vis enums n → Refers acc vis enums scope ('.' :: n) n
  /-- no dot: the innermost scope with such a type -/
  | simple (name p : Name) : '.' ∉ name →
      Innermost scope (fun p => TypeAt acc vis enums (qualified p name)) p →
      Refers acc vis enums scope name (qualified p name)
  /-- dotted: the innermost scope where the first part has members; no other is tried -/
  | dotted (first rest p : Name) : first ≠ [] → '.' ∉ first →
      Innermost scope (fun p => ScopeAt acc (qualified p first)) p →
      TypeAt acc vis enums (qualified p (first ++ '.' :: rest)) →
      Refers acc vis enums scope (first ++ '.' :: rest) (qualified p (first ++ '.' :: rest))

theorem Innermost.congr {scope : Name} {P Q : Name → Prop} (h : ∀ p, P p ↔ Q p) {p : Name} :
    Innermost scope P p ↔ Innermost scope Q p := by
  unfold Innermost
  simp only [h]

theorem Innermost.unique {scope : Name} {P : Name → Prop} {p q : Name} (hp : Innermost scope P p)
    (hq : Innermost scope P q) : p = q := by
  obtain ⟨p1, p2, p3⟩ := hp
  obtain ⟨q1, q2, q3⟩ := hq
  refine prefix_eq p1.prefix q1.prefix ?_
  have h1 : ¬ p.length < q.length := fun h => p3 q q1 h q2
  have h2 : ¬ q.length < p.length := fun h => q3 p p1 h p2
  omega

theorem firstPart_simple {n : Name} (h : '.' ∉ n) : firstPart n = n := by
  induction n with
  | nil => rfl
  | cons c r ih =>
    simp only [List.mem_cons, not_or] at h
    have : c ≠ '.' := fun hc => h.1 hc.symm
    simp only [firstPart, List.takeWhile_cons, ne_eq, this, not_false_eq_true, decide_true, if_true,
      List.cons.injEq, true_and]
    exact ih h.2

theorem firstPart_dotted {first rest : Name} (h : '.' ∉ first) :
    firstPart (first ++ '.' :: rest) = first := by
  induction first with
  | nil => rfl
  | cons c r ih =>
    simp only [List.mem_cons, not_or] at h
    simp only [firstPart, List.cons_append, List.takeWhile_cons]
    have : c ≠ '.' := fun hc => h.1 hc.symm
    simp only [ne_eq, this, not_false_eq_true, decide_true, if_true, List.cons.injEq, true_and]
    exact ih h.2

theorem split_first {n : Name} (h : '.' ∈ n) : ∃ first rest, n = first ++ '.' :: rest ∧ '.' ∉ first := by
  obtain ⟨a, b, h1, h2⟩ := List.eq_append_cons_of_mem h
  exact ⟨a, b, h1, h2⟩

/-- A name refers to one type at most. -/
theorem Refers.unique {acc : List FileP} {vis : Nat → Prop} {enums : Bool} {scope name n n' : Name}
    (h : Refers acc vis enums scope name n) (h' : Refers acc vis enums scope name n') : n = n' := by
  cases h with
  | full n _ =>
    generalize hx : '.' :: n = x at h'
    cases h' with
    | full => cases hx; rfl
    | simple _ q hn => exact absurd (by rw [← hx]; exact List.mem_cons_self ..) hn
    | dotted first rest q h1 h2 =>
      cases first with
      | nil => exact absurd rfl h1
      | cons c first => cases hx; exact absurd (List.mem_cons_self ..) h2
  | simple _ q hn hi =>
    cases h' with
    | full => exact absurd (List.mem_cons_self ..) hn
    | simple _ q' _ hi' => rw [hi.unique hi']
    | dotted first rest q => exact absurd (by simp) hn
  | dotted first rest q h1 h2 h3 h4 =>
    generalize hx : first ++ '.' :: rest = x at h'
    cases h' with
    | full m =>
      cases first with
      | nil => exact absurd rfl h1
      | cons c first => cases hx; exact absurd (List.mem_cons_self ..) h2
    | simple _ q' hn => exact absurd (by rw [← hx]; simp) hn
    | dotted first' rest' q' g1 g2 g3 g4 =>
      have e1 : first = first' := by
        rw [← firstPart_dotted (rest := rest) h2, hx, firstPart_dotted g2]
      subst e1
      rw [h3.unique g3]

theorem qualified_ne_nil {p n : Name} (h : n ≠ []) : qualified p n ≠ [] := by
  unfold qualified
  split
  · exact h
  · simp

/-- The name table is that of the declarations and packages of `acc`; a package with an empty name
may be there as well. -/
structure NamesAre (acc : List FileP) (names : List (Name × Def)) : Prop where
  defs : ∀ e ∈ visit {} acc, ∀ n d, e.defn = some (n, d) → lookupN names n = some d
  pkgs : ∀ f ∈ acc, ∀ n ∈ packageNames f.package, ∃ d, lookupN names n = some d ∧ d.kind = .package
  src : ∀ x ∈ names, (∃ e ∈ visit {} acc, e.defn = some x) ∨
    (x.2.kind = .package ∧ (x.1 = [] ∨ ∃ f ∈ acc, x.1 ∈ packageNames f.package))

section
variable {env : Env} {acc : List FileP} {p : Pool} {names : List (Name × Def)}

theorem Desc.namesAre (h : Desc env acc p) : NamesAre acc p.names where
  defs e he n d hd := (h.evs _ he).1 _ _ hd
  pkgs f hf n hn := by
    obtain ⟨i, hi⟩ := List.getElem?_of_mem hf
    have hv := visit_files acc {} i f hi
    obtain ⟨_, _, _, hpk⟩ := h.evs _ hv
    exact hpk n hn
  src := h.names

theorem declared_of_event {e : Event} (he : e ∈ visit {} acc) {fi : Nat}
    {path : Path} {n : Name} {x : Item} (hx : e.item = some (fi, path, n, x)) :
    DeclaredAs acc fi n x := by
  obtain ⟨j, f, s, h1, h2, h3, h4⟩ := visited_has he hx
  have h0 : ({} : Offs).file = 0 := rfl
  rw [h0, Nat.zero_add] at h1
  subst h1
  exact ⟨f, path, s, h2, h4, h3⟩

theorem NamesAre.event_of_declared (h : NamesAre acc names) {i : Nat} {n : Name} {x : Item}
    (hd : DeclaredAs acc i n x) : ∃ path k, lookupN names n = some ⟨i, path, k⟩ ∧ k.tag = x.tag := by
  obtain ⟨f, path, s, h1, h2, rfl⟩ := hd
  obtain ⟨e, he, hx⟩ := has_visited (o := {}) h1 h2
  have h0 : ({} : Offs).file = 0 := rfl
  rw [h0, Nat.zero_add] at hx
  obtain ⟨k, hk, ht⟩ := Event.item_tag hx
  exact ⟨path, k, h.defs _ he _ _ hk, ht⟩

/-- The kinds a reference may have. -/
def wants (enums : Bool) : Filter := if enums then .fieldType else .message

theorem NamesAre.typeAt_iff (h : NamesAre acc names) {deps : List Nat} {enums : Bool} {n : Name} :
    TypeAt acc (· ∈ deps) enums n ↔ ∃ d, Good deps names (wants enums) n d := by
  constructor
  · rintro ⟨j, hj, ⟨m, hm⟩ | ⟨rfl, m, hm⟩⟩
    · obtain ⟨path, k, hl, ht⟩ := h.event_of_declared hm
      refine ⟨_, hl, hj, ?_⟩
      cases k <;> simp [DefKind.tag, Item.tag] at ht
      cases enums <;> rfl
    · obtain ⟨path, k, hl, ht⟩ := h.event_of_declared hm
      refine ⟨_, hl, hj, ?_⟩
      cases k <;> simp [DefKind.tag, Item.tag] at ht
      rfl
  · rintro ⟨⟨fi, path, k⟩, hl, hj, hf⟩
    refine ⟨fi, hj, ?_⟩
    rcases h.src _ (lookupN_mem hl) with ⟨e, he, hd⟩ | ⟨hk, _⟩
    · cases k with
      | message k =>
        cases e <;> simp only [Event.defn, Option.some.injEq, Prod.mk.injEq, Def.mk.injEq,
          reduceCtorEq, and_false] at hd
        obtain ⟨rfl, rfl, rfl, _⟩ := hd
        exact .inl ⟨_, declared_of_event he rfl⟩
      | enum k =>
        cases e <;> simp only [Event.defn, Option.some.injEq, Prod.mk.injEq, Def.mk.injEq,
          reduceCtorEq, and_false] at hd
        obtain ⟨rfl, rfl, rfl, _⟩ := hd
        cases enums
        · cases hf
        · exact .inr ⟨rfl, _, declared_of_event he rfl⟩
      | _ => cases enums <;> cases hf
    · simp only at hk
      subst hk
      cases enums <;> cases hf

theorem NamesAre.scopeAt_iff (h : NamesAre acc names) {n : Name} (hn : n ≠ []) :
    ScopeAt acc n ↔ HasMembers names n := by
  constructor
  · rintro (⟨j, m, hm⟩ | ⟨j, m, hm⟩ | ⟨j, m, hm⟩ | ⟨f, hf, hp⟩)
    · obtain ⟨path, k, hl, ht⟩ := h.event_of_declared hm
      refine ⟨_, hl, ?_⟩
      cases k <;> simp [DefKind.tag, Item.tag] at ht ⊢
    · obtain ⟨path, k, hl, ht⟩ := h.event_of_declared hm
      refine ⟨_, hl, ?_⟩
      cases k <;> simp [DefKind.tag, Item.tag] at ht ⊢
    · obtain ⟨path, k, hl, ht⟩ := h.event_of_declared hm
      refine ⟨_, hl, ?_⟩
      cases k <;> simp [DefKind.tag, Item.tag] at ht ⊢
    · have hm : n ∈ packageNames f.package := by
        rw [mem_packageNames]
        refine ⟨?_, hp.imp (fun h => h.symm) id⟩
        rcases hp with rfl | ⟨r, hr⟩
        · exact hn
        · rw [hr]; simp
      obtain ⟨d, hl, hk⟩ := h.pkgs f hf n hm
      exact ⟨d, hl, .inl hk⟩
  · rintro ⟨⟨fi, path, k⟩, hl, hk⟩
    rcases h.src _ (lookupN_mem hl) with ⟨e, he, hd⟩ | ⟨_, hp⟩
    · simp only at hk
      rcases hk with rfl | ⟨i, rfl⟩ | ⟨i, rfl⟩ | ⟨i, rfl⟩ <;>
      cases e <;> simp only [Event.defn, Option.some.injEq, Prod.mk.injEq, Def.mk.injEq,
          reduceCtorEq, and_false] at hd <;>
      obtain ⟨rfl, rfl, rfl, _⟩ := hd
      · exact .inl ⟨_, _, declared_of_event he rfl⟩
      · exact .inr (.inl ⟨_, _, declared_of_event he rfl⟩)
      · exact .inr (.inr (.inl ⟨_, _, declared_of_event he rfl⟩))
    · rcases hp with hp | ⟨f, hf, hp⟩
      · exact absurd hp hn
      · rw [mem_packageNames] at hp
        exact .inr (.inr (.inr ⟨f, hf, hp.2.imp (fun h => h.symm) id⟩))

/-- Resolution of a name finds what the name refers to, and nothing else. -/
theorem NamesAre.resolve_iff (h : NamesAre acc names) {deps : List Nat} {enums : Bool} {scope name : Name}
    (hs : scope ≠ []) {n : Name} :
    (∃ d, resolveName deps names scope name (wants enums) = .found n d) ↔
      Refers acc (· ∈ deps) enums scope name n := by
  by_cases hlead : ∃ r, name = '.' :: r
  · obtain ⟨r, rfl⟩ := hlead
    simp only [resolveName, RR.new_found_iff]
    constructor
    · rintro ⟨d, rfl, hg⟩
      exact .full _ (h.typeAt_iff.2 ⟨d, hg⟩)
    · intro hr
      generalize hx : '.' :: r = x at hr
      cases hr with
      | full n hr => cases hx; obtain ⟨d, hd⟩ := h.typeAt_iff.1 hr; exact ⟨d, rfl, hd⟩
      | simple n p hn _ => exact absurd (by rw [← hx]; exact List.mem_cons_self ..) hn
      | dotted first rest p h1 h2 =>
        cases first with
        | nil => exact absurd rfl h1
        | cons c first => cases hx; exact absurd (List.mem_cons_self ..) h2
  · have hrn : ∀ x, resolveName deps names scope name (wants enums) = x ↔
        relLoop deps names name (wants enums) .notFound (candidateParents scope) = x := by
      intro x
      unfold resolveName
      split
      · next full => exact absurd ⟨_, rfl⟩ hlead
      · rw [if_neg hs]
    by_cases hdot : '.' ∈ name
    · obtain ⟨first, rest, rfl, hf⟩ := split_first hdot
      have hf0 : first ≠ [] := by
        rintro rfl
        exact hlead ⟨rest, rfl⟩
      have hlen : (firstPart (first ++ '.' :: rest)).length ≠ (first ++ '.' :: rest).length := by
        rw [firstPart_dotted hf]
        simp
      have hinn : ∀ p0, Innermost scope (fun p => ScopeAt acc (qualified p first)) p0 ↔
          Innermost scope (fun q => HasMembers names (pushScope q first)) p0 := fun p0 =>
        Innermost.congr fun q => by rw [h.scopeAt_iff (qualified_ne_nil hf0), qualified_eq]
      simp only [hrn]
      constructor
      · rintro ⟨d, hd⟩
        obtain ⟨pre, q, post, g1, g2, g3, rfl, g5⟩ := (relLoop_dotted hlen _ _ (by simp)).1 hd
        rw [firstPart_dotted hf] at g2 g3
        rw [← qualified_eq] at g5 ⊢
        refine .dotted first rest q hf0 hf ((hinn q).2 ?_) (h.typeAt_iff.2 ⟨d, g5⟩)
        exact first_iff_innermost.1 ⟨pre, post, g1, g2, g3⟩
      · intro hr
        generalize hx : first ++ '.' :: rest = x at hr
        cases hr with
        | full n hr => exact absurd ⟨n, hx⟩ hlead
        | simple n q hn _ => exact absurd (by rw [← hx]; simp) hn
        | dotted first' rest' q h1 h2 h3 h4 =>
          have e1 : first = first' := by
            rw [← firstPart_dotted (rest := rest) hf, hx, firstPart_dotted h2]
          subst e1
          simp only [List.append_cancel_left_eq, List.cons.injEq, true_and] at hx
          subst hx
          obtain ⟨pre, post, g1, g2, g3⟩ := first_iff_innermost.2 ((hinn q).1 h3)
          obtain ⟨d, hd⟩ := h.typeAt_iff.1 h4
          refine ⟨d, (relLoop_dotted hlen _ _ (by simp)).2
            ⟨pre, q, post, g1, ?_, ?_, qualified_eq _ _, by rw [← qualified_eq]; exact hd⟩⟩
          · rw [firstPart_dotted hf]; exact g2
          · rw [firstPart_dotted hf]; exact g3
    · have hlen : (firstPart name).length = name.length := by rw [firstPart_simple hdot]
      have hinn : ∀ p0, Innermost scope (fun p => TypeAt acc (· ∈ deps) enums (qualified p name)) p0 ↔
          Innermost scope (fun q => ∃ d, Good deps names (wants enums) (pushScope q name) d) p0 :=
        fun p0 => Innermost.congr fun q => by rw [h.typeAt_iff, qualified_eq]
      simp only [hrn]
      constructor
      · rintro ⟨d, hd⟩
        obtain ⟨pre, q, post, g1, rfl, g2, g3⟩ := (relLoop_simple hlen _ _ (by simp)).1 hd
        rw [firstPart_simple hdot] at g2 g3 ⊢
        rw [← qualified_eq]
        refine .simple name q hdot ((hinn q).2 ?_)
        exact first_iff_innermost.1 ⟨pre, post, g1, ⟨d, g2⟩, fun p' hp ⟨d', hd'⟩ => g3 p' hp d' hd'⟩
      · intro hr
        cases hr with
        | full n hr => exact absurd ⟨n, rfl⟩ hlead
        | simple _ q hn hi =>
          obtain ⟨pre, post, g1, ⟨d, g2⟩, g3⟩ := first_iff_innermost.2 ((hinn q).1 hi)
          refine ⟨d, (relLoop_simple hlen _ _ (by simp)).2 ⟨pre, q, post, g1, ?_, ?_, ?_⟩⟩
          · rw [firstPart_simple hdot, qualified_eq]
          · rw [firstPart_simple hdot]; exact g2
          · rw [firstPart_simple hdot]
            intro p' hp d' hd'
            exact g3 p' hp ⟨d', hd'⟩
        | dotted first rest q h1 h2 h3 h4 => simp at hdot

theorem Desc.resolve_iff (h : Desc env acc p) {deps : List Nat} {enums : Bool} {scope name : Name}
    (hs : scope ≠ []) {n : Name} :
    (∃ d, resolveName deps p.names scope name (wants enums) = .found n d) ↔
      Refers acc (· ∈ deps) enums scope name n := h.namesAre.resolve_iff hs

end
end Verif.Pool
