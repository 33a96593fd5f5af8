import Verif.Pool.Rebuild3
/-!
Two pools that have some files in common, in whatever order and whatever else they hold: the visible
files and the meaning of names.
-/
set_option autoImplicit false
namespace Verif.Pool
open Verif.Wire Verif.Dyn Verif.Props

/-- Files of the same name are the same file. -/
def Coherent (acc acc' : List FileP) : Prop := ∀ f ∈ acc, ∀ g ∈ acc', f.name = g.name → f = g

theorem Coherent.symm {acc acc' : List FileP} (h : Coherent acc acc') : Coherent acc' acc :=
  fun f hf g hg he => (h g hg f hf he.symm).symm

/-- The same file is number `i` in one list and number `j` in the other. -/
def Shared (acc acc' : List FileP) (i j : Nat) : Prop := ∃ f, acc[i]? = some f ∧ acc'[j]? = some f

theorem Shared.symm {acc acc' : List FileP} {i j : Nat} (h : Shared acc acc' i j) : Shared acc' acc j i := by
  obtain ⟨f, h1, h2⟩ := h
  exact ⟨f, h2, h1⟩

/-- The same files. -/
structure SharedSet (acc acc' : List FileP) (a b : List Nat) : Prop where
  left : ∀ i ∈ a, ∃ j ∈ b, Shared acc acc' i j
  right : ∀ j ∈ b, ∃ i ∈ a, Shared acc acc' i j

section
variable {env : Env} {acc acc' : List FileP} {p q : Pool}

theorem Desc.shared_right (D' : Desc env acc' q) {i j j' : Nat} (h : Shared acc acc' i j)
    (h' : Shared acc acc' i j') : j = j' := by
  obtain ⟨f, h1, h2⟩ := h
  obtain ⟨g, g1, g2⟩ := h'
  rw [h1] at g1; cases g1
  have e1 := D'.filesAre.name_iff.2 ⟨f, h2, rfl⟩
  have e2 := D'.filesAre.name_iff.2 ⟨f, g2, rfl⟩
  rw [e1] at e2
  exact Option.some.inj e2

theorem Desc.shared_left (D : Desc env acc p) {i i' j : Nat} (h : Shared acc acc' i j)
    (h' : Shared acc acc' i' j) : i = i' := D.shared_right h.symm h'.symm

theorem SharedSet.contains (D : Desc env acc p) (D' : Desc env acc' q) {a b : List Nat} (h : SharedSet acc acc' a b)
    {i j : Nat} (hs : Shared acc acc' i j) : a.contains i = b.contains j := by
  rw [Bool.eq_iff_iff]
  simp only [List.contains_eq_mem, decide_eq_true_eq]
  constructor
  · intro hi
    obtain ⟨j', h1, h2⟩ := h.left i hi
    rw [D'.shared_right hs h2]; exact h1
  · intro hj
    obtain ⟨i', h1, h2⟩ := h.right j hj
    rw [D.shared_left hs h2]; exact h1

theorem SharedSet.cons {a b : List Nat} (h : SharedSet acc acc' a b) {i j : Nat} (hs : Shared acc acc' i j) :
    SharedSet acc acc' (i :: a) (j :: b) where
  left x hx := by
    rcases List.mem_cons.1 hx with rfl | hx
    · exact ⟨j, by simp, hs⟩
    · obtain ⟨y, h1, h2⟩ := h.left x hx; exact ⟨y, by simp [h1], h2⟩
  right x hx := by
    rcases List.mem_cons.1 hx with rfl | hx
    · exact ⟨i, by simp, hs⟩
    · obtain ⟨y, h1, h2⟩ := h.right x hx; exact ⟨y, by simp [h1], h2⟩

/-- The imports of a file in common are in common. -/
theorem Desc.shared_deps (hc : Coherent acc acc') (D : Desc env acc p) (D' : Desc env acc' q) {i j : Nat}
    (hs : Shared acc acc' i j) : ∃ fp fq, p.files[i]? = some fp ∧ q.files[j]? = some fq ∧ fp.syn = fq.syn ∧
      fp.raw.deps = fq.raw.deps ∧ fp.raw.publicDeps = fq.raw.publicDeps ∧
      ∀ n ∈ fp.raw.deps, ∃ a b, lookupN p.fileNames n = some a ∧ lookupN q.fileNames n = some b ∧
        Shared acc acc' a b := by
  obtain ⟨f, h1, h2⟩ := hs
  obtain ⟨fp, a1, a2, a3, _⟩ := D.file_at h1
  obtain ⟨fq, b1, b2, b3, _⟩ := D'.file_at h2
  have e := a3.trans b3.symm
  refine ⟨fp, fq, a1, b1, Option.some.inj (a2.symm.trans b2), (stripFile_deps e).1, (stripFile_deps e).2, fun n hn => ?_⟩
  obtain ⟨x, _, hx⟩ := (D.deps_found a1).1 n hn
  rw [(stripFile_deps e).1] at hn
  obtain ⟨y, _, hy⟩ := (D'.deps_found b1).1 n hn
  obtain ⟨g, g1, g2⟩ := D.filesAre.name_iff.1 hx
  obtain ⟨g', g1', g2'⟩ := D'.filesAre.name_iff.1 hy
  obtain rfl := hc g (List.mem_of_getElem? g1) g' (List.mem_of_getElem? g1') (g2.trans g2'.symm)
  exact ⟨x, y, hx, hy, g, g1, g1'⟩

theorem publicLoop_shared (D : Desc env acc p) (D' : Desc env acc' q) {pub : List Int}
    {r r' : List Nat → Nat → Res (List Nat)}
    (hr : ∀ a b i j t, SharedSet acc acc' a b → Shared acc acc' i j → r a i = .ok t →
      ∃ t', r' b j = .ok t' ∧ SharedSet acc acc' t t') : ∀ (ns : List Name) (i : Nat) (a b t : List Nat),
      (∀ n ∈ ns, ∃ x y, lookupN p.fileNames n = some x ∧ lookupN q.fileNames n = some y ∧ Shared acc acc' x y) →
      SharedSet acc acc' a b → publicLoop p.fileNames pub r i ns a = .ok t →
      ∃ t', publicLoop q.fileNames pub r' i ns b = .ok t' ∧ SharedSet acc acc' t t'
  | [], _, a, b, t, _, hab, h => by cases h; exact ⟨b, rfl, hab⟩
  | n :: ns, i, a, b, t, hn, hab, h => by
    obtain ⟨x, y, h1, h2, h3⟩ := hn n (by simp)
    have ih := fun i a b t => publicLoop_shared D D' (pub := pub) hr ns i a b t fun m hm => hn m (by simp [hm])
    simp only [publicLoop, h1, h2] at h ⊢
    rw [← hab.contains D D' h3]
    split at h
    · next hp =>
      rw [if_pos hp]
      split at h
      · next hx =>
        rw [if_pos hx]
        split at h
        · next s hs =>
          obtain ⟨s', g1, g2⟩ := hr _ _ _ _ _ hab h3 hs
          rw [g1]
          exact ih _ _ _ _ g2 h
        · cases h
      · next hx =>
        rw [if_neg hx]
        exact ih _ _ _ _ (hab.cons h3) h
    · next hp =>
      rw [if_neg hp]
      exact ih _ _ _ _ hab h

theorem resolvePublic_shared (hc : Coherent acc acc') (D : Desc env acc p) (D' : Desc env acc' q) :
    ∀ (n : Nat) (a b : List Nat) (i j : Nat) (t : List Nat), SharedSet acc acc' a b → Shared acc acc' i j →
      resolvePublic p.files p.fileNames n a i = .ok t →
      ∃ t', resolvePublic q.files q.fileNames n b j = .ok t' ∧ SharedSet acc acc' t t'
  | 0, _, _, _, _, _, _, _, h => by cases h
  | n + 1, a, b, i, j, t, hab, hij, h => by
    obtain ⟨fp, fq, h1, h2, _, h3, h4, h5⟩ := D.shared_deps hc D' hij
    simp only [resolvePublic, h1, h2] at h ⊢
    rw [← h3, ← h4]
    exact publicLoop_shared D D' (resolvePublic_shared hc D D' n) _ _ _ _ _ h5 hab h

theorem visLoop_shared (hc : Coherent acc acc') (D : Desc env acc p) (D' : Desc env acc' q) (stack : Nat) :
    ∀ (l l' a b t : List Nat), l.length = l'.length →
      (∀ (k : Nat) i j, l[k]? = some i → l'[k]? = some j → Shared acc acc' i j) →
      SharedSet acc acc' a b → visLoop p.files p.fileNames stack l a = .ok t →
      ∃ t', visLoop q.files q.fileNames stack l' b = .ok t' ∧ SharedSet acc acc' t t'
  | [], [], a, b, t, _, _, hab, h => by cases h; exact ⟨b, rfl, hab⟩
  | [], _ :: _, _, _, _, hl, _, _, _ => by cases hl
  | _ :: _, [], _, _, _, hl, _, _, _ => by cases hl
  | i :: l, j :: l', a, b, t, hl, hs, hab, h => by
    have hij := hs 0 i j rfl rfl
    have ih := visLoop_shared hc D D' stack l l'
    simp only [visLoop] at h ⊢
    have hab' : SharedSet acc acc' (if a.contains i then a else i :: a) (if b.contains j then b else j :: b) := by
      rw [← hab.contains D D' hij]
      split
      · exact hab
      · exact hab.cons hij
    split at h
    · cases h
    · next s hs' =>
      obtain ⟨s', g1, g2⟩ := resolvePublic_shared hc D D' stack _ _ _ _ _ hab' hij hs'
      rw [g1]
      exact ih _ _ _ (by simpa using hl) (fun k x y hx hy => hs (k + 1) x y hx hy) g2 h

/-- A file in common sees the same files in both pools. -/
theorem Settled.shared_trans (hc : Coherent acc acc') (h : Settled env acc p) (h' : Settled env acc' q) {i j : Nat}
    (hs : Shared acc acc' i j) {fp fq : FileD} (hp : p.files[i]? = some fp) (hq : q.files[j]? = some fq) :
    fp.syn = fq.syn ∧ SharedSet acc acc' fp.trans fq.trans := by
  have D := h.desc
  have D' := h'.desc
  obtain ⟨fp', fq', e1, e2, e3, e4, _, e5⟩ := D.shared_deps hc D' hs
  rw [hp] at e1; cases e1
  rw [hq] at e2; cases e2
  refine ⟨e3, ?_⟩
  obtain ⟨f, h1, h2⟩ := id hs
  obtain ⟨_, a1, _, a3, _, a2, _⟩ := D.file_at h1
  rw [hp] at a1; cases a1
  obtain ⟨_, b1, _, b3, _, b2, _⟩ := D'.file_at h2
  rw [hq] at b1; cases b1
  have l1 := congrArg List.length a2
  have l2 := congrArg List.length b2
  simp only [List.length_map] at l1 l2
  have hd : f.deps = fp.raw.deps := (stripFile_deps a3).1.symm
  obtain ⟨t', g1, g2⟩ := visLoop_shared hc D D' env.stack fp.deps fq.deps [i] [j] fp.trans (l1.symm.trans l2)
    (by
      intro k x y hx hy
      have hlt := getElem?_lt hx
      have hn := List.getElem?_eq_getElem (show k < f.deps.length by omega)
      have c1 := congrArg (·[k]?) a2
      have c2 := congrArg (·[k]?) b2
      simp only [List.getElem?_map, hn, hx, hy, Option.map_some, Option.some.injEq] at c1 c2
      obtain ⟨x', y', d1, d2, d3⟩ := e5 _ (by rw [← hd]; exact List.mem_of_getElem? hn)
      rw [d1] at c1; cases c1
      rw [d2] at c2; cases c2
      exact d3)
    ⟨fun x hx => ⟨j, by simp, by rw [List.mem_singleton.1 hx]; exact hs⟩,
      fun x hx => ⟨i, by simp, by rw [List.mem_singleton.1 hx]; exact hs⟩⟩ (h.seen _ _ hp)
  have := h'.seen _ _ hq
  rw [this] at g1; cases g1
  exact g2

/-! ### What names refer to -/

theorem declared_shared {i j : Nat} (hs : Shared acc acc' i j) {n : Name} {x : Item} (h : DeclaredAs acc i n x) :
    DeclaredAs acc' j n x := by
  obtain ⟨f, h1, h2⟩ := hs
  obtain ⟨g, path, s, g1, g2, g3⟩ := h
  rw [h1] at g1; cases g1
  exact ⟨f, path, s, h2, g2, g3⟩

theorem typeAt_shared {a b : List Nat} (h : SharedSet acc acc' a b) {enums : Bool} {n : Name} :
    TypeAt acc (· ∈ a) enums n ↔ TypeAt acc' (· ∈ b) enums n := by
  constructor
  · rintro ⟨i, hi, ht⟩
    obtain ⟨j, hj, hs⟩ := h.left i hi
    refine ⟨j, hj, ?_⟩
    rcases ht with ⟨m, hm⟩ | ⟨he, m, hm⟩
    · exact .inl ⟨m, declared_shared hs hm⟩
    · exact .inr ⟨he, m, declared_shared hs hm⟩
  · rintro ⟨j, hj, ht⟩
    obtain ⟨i, hi, hs⟩ := h.right j hj
    refine ⟨i, hi, ?_⟩
    rcases ht with ⟨m, hm⟩ | ⟨he, m, hm⟩
    · exact .inl ⟨m, declared_shared hs.symm hm⟩
    · exact .inr ⟨he, m, declared_shared hs.symm hm⟩

/-- Where a dotted name is a type, its first part has members. -/
theorem scope_of_type {all : List FileP} {vis : Nat → Prop} {enums : Bool} (hw : WellNamed all) {p first rest : Name}
    (h : TypeAt all vis enums (qualified p (first ++ '.' :: rest))) : ScopeAt all (qualified p first) := by
  have key : ∀ {j : Nat} {x : Item}, DeclaredAs all j (qualified p (first ++ '.' :: rest)) x →
      ScopeAt all (qualified p first) := by
    rintro j x ⟨f, path, s, g1, g2, g3⟩
    refine scope_leads g1 hw g2 (leads_qualified (hw f (List.mem_of_getElem? g1) _ _ _ g2).2 (r := rest) ?_)
    rw [← g3]
    unfold qualified
    split <;> simp
  obtain ⟨j, _, ⟨m, hm⟩ | ⟨_, m, hm⟩⟩ := h
  · exact key hm
  · exact key hm

/-- If the same types are visible, a name refers to the same type among any files, if it refers to one. -/
theorem Refers.across {all all' : List FileP} {vis vis' : Nat → Prop} {enums : Bool} (hw : WellNamed all)
    (hw' : WellNamed all') (ht : ∀ n, TypeAt all vis enums n ↔ TypeAt all' vis' enums n) {scope name n n' : Name}
    (h : Refers all vis enums scope name n) (h' : Refers all' vis' enums scope name n') : n = n' := by
  cases h with
  | full n _ =>
    generalize hx : '.' :: n = x at h'
    cases h' with
    | full => cases hx; rfl
    | simple _ q hn => exact absurd (by rw [← hx]; exact List.mem_cons_self ..) hn
    | dotted first rest q h1 h2 =>
      cases first with
      | nil => exact absurd rfl h1
      | cons c first => cases hx; exact absurd (List.mem_cons_self ..) h2
  | simple _ q hn hi =>
    cases h' with
    | full => exact absurd (List.mem_cons_self ..) hn
    | simple _ q' _ hi' => rw [((Innermost.congr fun p => ht _).1 hi).unique hi']
    | dotted first rest q => exact absurd (by simp) hn
  | dotted first rest q h1 h2 h3 h4 =>
    generalize hx : first ++ '.' :: rest = x at h'
    cases h' with
    | full m =>
      cases first with
      | nil => exact absurd rfl h1
      | cons c first => cases hx; exact absurd (List.mem_cons_self ..) h2
    | simple _ q' hn => exact absurd (by rw [← hx]; simp) hn
    | dotted first' rest' q' g1 g2 g3 g4 =>
      have e1 : first = first' := by
        rw [← firstPart_dotted (rest := rest) h2, hx, firstPart_dotted g2]
      subst e1
      have e2 : rest = rest' := by simpa using hx
      subst e2
      have a1 : ¬ q.length < q'.length := fun hlt => h3.2.2 q' g3.1 hlt (scope_of_type hw ((ht _).2 g4))
      have a2 : ¬ q'.length < q.length := fun hlt => g3.2.2 q h3.1 hlt (scope_of_type hw' ((ht _).1 h4))
      rw [prefix_eq h3.1.prefix g3.1.prefix (by omega)]

/-- A name written in a file in common means the same in both pools. The type lies in a file in common. -/
theorem Settled.shared_meant (hc : Coherent acc acc') (h : Settled env acc p) (h' : Settled env acc' q)
    (hw : WellNamed acc) (hw' : WellNamed acc') {i j : Nat} (hs : Shared acc acc' i j) {enums : Bool}
    {scope name n n' : Name} (hp : Meant acc p i enums scope name n) (hq : Meant acc' q j enums scope name n') :
    n = n' ∧ ∃ a b x, Shared acc acc' a b ∧ DeclaredAs acc a n x ∧ ((∃ m, x = .message m) ∨ enums = true ∧ ∃ m, x = .enum m) := by
  obtain ⟨fp, m, h1, _, h2, h3⟩ := hp
  obtain ⟨fq, m', g1, _, g2, g3⟩ := hq
  have ht := (h.shared_trans hc h' hs h1 g1).2
  have e := h3.across (fun f hf => hw f (List.mem_of_mem_take hf)) (fun f hf => hw' f (List.mem_of_mem_take hf))
    (fun n => (typeAt_take h2).trans ((typeAt_shared ht).trans (typeAt_take g2).symm)) g3
  refine ⟨e, ?_⟩
  have := (typeAt_take h2).1 h3.typeAt
  obtain ⟨a, ha, hd⟩ := this
  obtain ⟨b, _, hab⟩ := ht.left a ha
  rcases hd with ⟨x, hx⟩ | ⟨he, x, hx⟩
  · exact ⟨a, b, _, hab, hx, .inl ⟨x, rfl⟩⟩
  · exact ⟨a, b, _, hab, hx, .inr ⟨he, x, rfl⟩⟩

end
end Verif.Pool
