import Verif.Pool.Hist
/-!
What a file declares, stated without reference to the traversal, and how the two agree.
-/
set_option autoImplicit false
namespace Verif.Pool
open Verif.Wire Verif.Dyn

/-- A declaration inside a file. -/
inductive Item where
  | message (m : MsgP) | field (f : FieldP) | oneof (o : OneofP) | enum (e : EnumP)
  | value (v : EnumValueP) | service (s : ServiceP) | method (m : MethodP) | extension (f : FieldP)

def Item.name : Item → Name
  | .message m => m.name | .field f => f.name | .oneof o => o.name | .enum e => e.name
  | .value v => v.name | .service s => s.name | .method m => m.name | .extension f => f.name

/-- A name inside a scope. -/
def qualified (scope name : Name) : Name := if scope = [] then name else scope ++ '.' :: name

theorem qualified_eq (s n : Name) : qualified s n = pushScope s n := by
  cases s <;> simp [qualified, pushScope]

/-- `Has f path scope x`: file `f` declares `x` inside `scope`; `path` is its path as
`SourceCodeInfo` counts it.  Values of an enum live beside the enum, not inside it. -/
inductive Has (f : FileP) : Path → Name → Item → Prop where
  | message (i : Nat) (m : MsgP) : f.messages[i]? = some m → Has f [4, i] f.package (.message m)
  | nested (path : Path) (s : Name) (m : MsgP) (i : Nat) (n : MsgP) : Has f path s (.message m) →
      m.nested[i]? = some n → Has f (path ++ [3, i]) (qualified s m.name) (.message n)
  | field (path : Path) (s : Name) (m : MsgP) (i : Nat) (x : FieldP) : Has f path s (.message m) →
      m.fields[i]? = some x → Has f (path ++ [2, i]) (qualified s m.name) (.field x)
  | oneof (path : Path) (s : Name) (m : MsgP) (i : Nat) (x : OneofP) : Has f path s (.message m) →
      m.oneofs[i]? = some x → Has f (path ++ [8, i]) (qualified s m.name) (.oneof x)
  | enum (i : Nat) (e : EnumP) : f.enums[i]? = some e → Has f [5, i] f.package (.enum e)
  | enumIn (path : Path) (s : Name) (m : MsgP) (i : Nat) (e : EnumP) : Has f path s (.message m) →
      m.enums[i]? = some e → Has f (path ++ [4, i]) (qualified s m.name) (.enum e)
  | value (path : Path) (s : Name) (e : EnumP) (i : Nat) (v : EnumValueP) : Has f path s (.enum e) →
      e.values[i]? = some v → Has f (path ++ [2, i]) s (.value v)
  | service (i : Nat) (x : ServiceP) : f.services[i]? = some x → Has f [6, i] f.package (.service x)
  | method (path : Path) (s : Name) (x : ServiceP) (i : Nat) (m : MethodP) :
      Has f path s (.service x) → x.methods[i]? = some m →
      Has f (path ++ [2, i]) (qualified s x.name) (.method m)
  | extension (i : Nat) (x : FieldP) : f.exts[i]? = some x → Has f [7, i] f.package (.extension x)
  | extensionIn (path : Path) (s : Name) (m : MsgP) (i : Nat) (x : FieldP) :
      Has f path s (.message m) → m.exts[i]? = some x →
      Has f (path ++ [6, i]) (qualified s m.name) (.extension x)

/-- The declaration a callback is about. -/
def Event.item : Event → Option (Nat × Path × Name × Item)
  | .file .. => none
  | .message path full fi _ _ m => some (fi, path, full, .message m)
  | .field path full fi _ _ f => some (fi, path, full, .field f)
  | .oneof path full fi _ _ o => some (fi, path, full, .oneof o)
  | .service path full fi _ s => some (fi, path, full, .service s)
  | .method path full fi _ _ m => some (fi, path, full, .method m)
  | .enum path full fi _ _ e => some (fi, path, full, .enum e)
  | .enumValue path full fi _ _ v => some (fi, path, full, .value v)
  | .extension path full fi _ _ f => some (fi, path, full, .extension f)

theorem pushScope_inj {s t n : Name} (h : pushScope s n = pushScope t n) : s = t := by
  rw [← popScope_pushScope s n, h, popScope_pushScope]

section
variable {o : Offs} {fs : List FileP}

/-- Everything declared is visited. -/
theorem has_visited {j : Nat} {f : FileP} (hf : fs[j]? = some f) {path : Path} {s : Name}
    {x : Item} (h : Has f path s x) :
    ∃ e ∈ visit o fs, e.item = some (o.file + j, path, qualified s x.name, x) := by
  have file := visit_full fs o _ (visit_files fs o j f hf)
  induction h with
  | message i m hi =>
    obtain ⟨k, hk⟩ := file.1 i m hi
    exact ⟨_, hk, by rw [qualified_eq]; rfl⟩
  | enum i m hi =>
    obtain ⟨k, hk⟩ := file.2.1 i m hi
    exact ⟨_, hk, by rw [qualified_eq]; rfl⟩
  | service i m hi =>
    obtain ⟨k, hk⟩ := file.2.2.1 i m hi
    exact ⟨_, hk, by rw [qualified_eq]; rfl⟩
  | extension i m hi =>
    obtain ⟨k, hk⟩ := file.2.2.2 i m hi
    exact ⟨_, hk, by rw [qualified_eq]; rfl⟩
  | nested path s m i n _ hi ih =>
    obtain ⟨e, he, hx⟩ := ih
    cases e <;> simp only [Event.item, Option.some.injEq, Prod.mk.injEq, reduceCtorEq, and_false,
      Item.message.injEq] at hx
    obtain ⟨rfl, rfl, rfl, rfl⟩ := hx
    obtain ⟨k, hk⟩ := (visit_full fs o _ he).2.2.1 i n hi
    exact ⟨_, hk, by simp only [Event.item, qualified_eq]; rfl⟩
  | enumIn path s m i n _ hi ih =>
    obtain ⟨e, he, hx⟩ := ih
    cases e <;> simp only [Event.item, Option.some.injEq, Prod.mk.injEq, reduceCtorEq, and_false,
      Item.message.injEq] at hx
    obtain ⟨rfl, rfl, rfl, rfl⟩ := hx
    obtain ⟨k, hk⟩ := (visit_full fs o _ he).2.2.2.1 i n hi
    exact ⟨_, hk, by simp only [Event.item, qualified_eq]; rfl⟩
  | extensionIn path s m i n _ hi ih =>
    obtain ⟨e, he, hx⟩ := ih
    cases e <;> simp only [Event.item, Option.some.injEq, Prod.mk.injEq, reduceCtorEq, and_false,
      Item.message.injEq] at hx
    obtain ⟨rfl, rfl, rfl, rfl⟩ := hx
    obtain ⟨k, hk⟩ := (visit_full fs o _ he).2.2.2.2 i n hi
    exact ⟨_, hk, by simp only [Event.item, qualified_eq]; rfl⟩
  | field path s m i n _ hi ih =>
    obtain ⟨e, he, hx⟩ := ih
    cases e <;> simp only [Event.item, Option.some.injEq, Prod.mk.injEq, reduceCtorEq, and_false,
      Item.message.injEq] at hx
    obtain ⟨rfl, rfl, rfl, rfl⟩ := hx
    have hk := (visit_full fs o _ he).1 i n hi
    exact ⟨_, hk, by simp only [Event.item, qualified_eq]; rfl⟩
  | oneof path s m i n _ hi ih =>
    obtain ⟨e, he, hx⟩ := ih
    cases e <;> simp only [Event.item, Option.some.injEq, Prod.mk.injEq, reduceCtorEq, and_false,
      Item.message.injEq] at hx
    obtain ⟨rfl, rfl, rfl, rfl⟩ := hx
    have hk := (visit_full fs o _ he).2.1 i n hi
    exact ⟨_, hk, by simp only [Event.item, qualified_eq]; rfl⟩
  | method path s m i n _ hi ih =>
    obtain ⟨e, he, hx⟩ := ih
    cases e <;> simp only [Event.item, Option.some.injEq, Prod.mk.injEq, reduceCtorEq, and_false,
      Item.service.injEq] at hx
    obtain ⟨rfl, rfl, rfl, rfl⟩ := hx
    have hk := (visit_full fs o _ he) i n hi
    exact ⟨_, hk, by simp only [Event.item, qualified_eq]; rfl⟩
  | value path s m i n _ hi ih =>
    obtain ⟨e, he, hx⟩ := ih
    cases e <;> simp only [Event.item, Option.some.injEq, Prod.mk.injEq, reduceCtorEq, and_false,
      Item.enum.injEq] at hx
    obtain ⟨rfl, rfl, rfl, rfl⟩ := hx
    obtain ⟨scope, h1, h2⟩ := visit_full fs o _ he
    rw [qualified_eq] at h1
    have := pushScope_inj h1
    subst this
    exact ⟨_, h2 i n hi, by simp only [Event.item, qualified_eq]; rfl⟩

theorem visited_message : ∀ (n : Nat) (path : Path), path.length = n →
    ∀ {full : Name} {file : Nat} {parent : Option Nat} {k : Nat} {m : MsgP},
    .message path full file parent k m ∈ visit o fs →
    ∃ j f s, file = o.file + j ∧ fs[j]? = some f ∧ full = qualified s m.name ∧
      Has f path s (.message m) := by
  intro n
  induction n using Nat.strongRecOn with
  | _ n ih =>
    intro path hle full file parent k m h
    rcases visit_inner fs o _ h with ⟨j, f, hf, h1, _, h2, i, h3, h4⟩ | hi
    · subst h3
      exact ⟨j, f, f.package, h1, hf, by rw [qualified_eq]; exact h2, .message i m h4⟩
    · obtain ⟨q, qpath, qfull, qpar, qm, i, h1, h2, h3, h4, h5⟩ := hi
      subst h3
      obtain ⟨j, f, s, g1, g2, g3, g4⟩ := ih qpath.length
        (by simp only [List.length_append, List.length_cons, List.length_nil] at hle; omega)
        qpath rfl h2
      exact ⟨j, f, _, g1, g2, by rw [h4, ← qualified_eq, g3], .nested _ _ _ i _ g4 h5⟩

/-- Everything visited is declared. -/
theorem visited_has {e : Event} (he : e ∈ visit o fs) {file : Nat} {path : Path} {full : Name}
    {x : Item} (hx : e.item = some (file, path, full, x)) :
    ∃ j f s, file = o.file + j ∧ fs[j]? = some f ∧ full = qualified s x.name ∧ Has f path s x := by
  cases e with
  | file => cases hx
  | message =>
    cases hx
    exact visited_message _ _ rfl he
  | field =>
    cases hx
    rcases visit_inner fs o _ he with ⟨_, _, _, ht⟩ | ⟨qpath, qfull, qpar, qm, h1, h2, h3, h4⟩
    · exact ht.elim
    · obtain ⟨j, f, s, g1, g2, g3, g4⟩ := visited_message _ _ rfl h1
      subst h2
      exact ⟨j, f, _, g1, g2, by rw [h3, ← qualified_eq, g3]; rfl, .field _ _ _ _ _ g4 h4⟩
  | oneof =>
    cases hx
    rcases visit_inner fs o _ he with ⟨_, _, _, ht⟩ | ⟨qpath, qfull, qpar, qm, h1, h2, h3, h4⟩
    · exact ht.elim
    · obtain ⟨j, f, s, g1, g2, g3, g4⟩ := visited_message _ _ rfl h1
      subst h2
      exact ⟨j, f, _, g1, g2, by rw [h3, ← qualified_eq, g3]; rfl, .oneof _ _ _ _ _ g4 h4⟩
  | service =>
    cases hx
    rcases visit_inner fs o _ he with ⟨j, f, hf, h1, h2, i, h3, h4⟩ | hi
    · subst h3
      exact ⟨j, f, _, h1, hf, by rw [h2, qualified_eq]; rfl, .service i _ h4⟩
    · exact hi.elim
  | method =>
    cases hx
    rcases visit_inner fs o _ he with ⟨_, _, _, ht⟩ | ⟨qpath, qfull, qs, h1, h2, h3, h4⟩
    · exact ht.elim
    · rcases visit_inner fs o _ h1 with ⟨j, f, hf, g1, g2, i, g3, g4⟩ | hi
      · subst h2 g3 g2
        exact ⟨j, f, _, g1, hf, by rw [h3, ← qualified_eq, ← qualified_eq]; rfl,
          .method _ _ _ _ _ (.service i _ g4) h4⟩
      · exact hi.elim
  | enum =>
    cases hx
    rcases visit_inner fs o _ he with ⟨j, f, hf, h1, _, h2, i, h3, h4⟩ | hi
    · subst h3
      exact ⟨j, f, _, h1, hf, by rw [h2, qualified_eq]; rfl, .enum i _ h4⟩
    · obtain ⟨q, qpath, qfull, qpar, qm, i, h1, h2, h3, h4, h5⟩ := hi
      obtain ⟨j, f, s, g1, g2, g3, g4⟩ := visited_message _ _ rfl h2
      subst h3
      exact ⟨j, f, _, g1, g2, by rw [h4, ← qualified_eq, g3]; rfl, .enumIn _ _ _ _ _ g4 h5⟩
  | enumValue =>
    cases hx
    rcases visit_inner fs o _ he with ⟨_, _, _, ht⟩ | ⟨scope, qpath, qpar, qe, h1, h2, h3, h4⟩
    · exact ht.elim
    · subst h2
      rcases visit_inner fs o _ h1 with ⟨j, f, hf, g1, _, g2, i, g3, g4⟩ | hi
      · have := pushScope_inj g2
        subst this g3
        exact ⟨j, f, _, g1, hf, by rw [h3, qualified_eq]; rfl, .value _ _ _ _ _ (.enum i _ g4) h4⟩
      · obtain ⟨q, qpath', qfull, qpar', qm, i, k1, k2, k3, k4, k5⟩ := hi
        obtain ⟨j, f, s, g1, g2, g3, g4⟩ := visited_message _ _ rfl k2
        have := pushScope_inj k4
        subst this k3
        exact ⟨j, f, _, g1, g2, by rw [h3, ← qualified_eq, g3]; rfl,
          .value _ _ _ _ _ (.enumIn _ _ _ _ _ g4 k5) h4⟩
  | extension =>
    cases hx
    rcases visit_inner fs o _ he with ⟨j, f, hf, h1, _, h2, i, h3, h4⟩ | hi
    · subst h3
      exact ⟨j, f, _, h1, hf, by rw [h2, qualified_eq]; rfl, .extension i _ h4⟩
    · obtain ⟨q, qpath, qfull, qpar, qm, i, h1, h2, h3, h4, h5⟩ := hi
      obtain ⟨j, f, s, g1, g2, g3, g4⟩ := visited_message _ _ rfl h2
      subst h3
      exact ⟨j, f, _, g1, g2, by rw [h4, ← qualified_eq, g3]; rfl, .extensionIn _ _ _ _ _ g4 h5⟩
end

/-- The definition of a callback says where its declaration is. -/
theorem Event.defn_item {e : Event} {n : Name} {d : Def} (h : e.defn = some (n, d)) :
    ∃ x, e.item = some (d.file, d.path, n, x) := by
  cases e <;> simp only [Event.defn, Option.some.injEq, Prod.mk.injEq, reduceCtorEq] at h <;>
    (obtain ⟨rfl, rfl⟩ := h; exact ⟨_, rfl⟩)

theorem Event.item_defn {e : Event} {fi : Nat} {path : Path} {n : Name} {x : Item}
    (h : e.item = some (fi, path, n, x)) : ∃ k, e.defn = some (n, ⟨fi, path, k⟩) := by
  cases e <;> simp only [Event.item, Option.some.injEq, Prod.mk.injEq, reduceCtorEq] at h <;>
    (obtain ⟨rfl, rfl, rfl, rfl⟩ := h; exact ⟨_, rfl⟩)

end Verif.Pool
