import Verif.Pool.Shared1
/-!
Two pools that have some files in common: the descriptors of what these declare.
-/
set_option autoImplicit false
namespace Verif.Pool
open Verif.Wire Verif.Dyn Verif.Props

/-- The same identity: full name, place within the file, and the name of the file. -/
structure IdAlike (p q : Pool) (a b : Ident) : Prop where
  full : a.fullName = b.fullName
  name : a.name = b.name
  path : a.path = b.path
  file : ∃ fa fb, p.files[a.file]? = some fa ∧ q.files[b.file]? = some fb ∧ fa.raw.name = fb.raw.name

/-- Messages of the same full name. -/
def MessageAlike (p q : Pool) (t t' : Nat) : Prop := ∃ n, MessageNamed p n t ∧ MessageNamed q n t'

/-- The same kind: messages and enums by their full names. -/
inductive KindAlike (p q : Pool) : Kind → Kind → Prop
  | message {t t' : Nat} : MessageAlike p q t t' → KindAlike p q (.message t) (.message t')
  | enum {t t' : Nat} {n : Name} : KindNamed p n (.enum t) → KindNamed q n (.enum t') → KindAlike p q (.enum t) (.enum t')
  | scalar {k : Kind} : (∀ t, k ≠ .message t) → (∀ t, k ≠ .enum t) → KindAlike p q k k

/-- No parent in both, or parents of the same full name. -/
inductive ParentAlike (p q : Pool) : Option Nat → Option Nat → Prop
  | none : ParentAlike p q none none
  | some {t t' : Nat} : MessageAlike p q t t' → ParentAlike p q (some t) (some t')

/-- The same length, and the same at every place. -/
def ListAlike {α : Type} (R : α → α → Prop) (a b : List α) : Prop :=
  a.length = b.length ∧ ∀ (i : Nat) x y, a[i]? = some x → b[i]? = some y → R x y

structure FieldAlike (p q : Pool) (x y : FieldD) : Prop where
  id : IdAlike p q x.id y.id
  number : x.number = y.number
  json : x.jsonName = y.jsonName
  kind : KindAlike p q x.kind y.kind
  group : x.group = y.group
  oneof : x.oneof = y.oneof
  packed : x.packed = y.packed
  presence : x.presence = y.presence
  card : x.card = y.card
  default : x.default = y.default

structure OneofAlike (p q : Pool) (x y : OneofD) : Prop where
  id : IdAlike p q x.id y.id
  fields : x.fields = y.fields

/-- The same message, but for extensions. -/
structure MsgAlike (p q : Pool) (a b : MsgD) : Prop where
  id : IdAlike p q a.id b.id
  parent : ParentAlike p q a.parent b.parent
  fields : ListAlike (FieldAlike p q) a.fields b.fields
  oneofs : ListAlike (OneofAlike p q) a.oneofs b.oneofs
  numbers : a.fieldNumbers = b.fieldNumbers
  names : lookupN a.fieldNames = lookupN b.fieldNames
  jsons : lookupN a.fieldJsonNames = lookupN b.fieldJsonNames

structure ValueAlike (p q : Pool) (x y : ValueD) : Prop where
  id : IdAlike p q x.id y.id
  number : x.number = y.number

structure EnumAlike (p q : Pool) (a b : EnumD) : Prop where
  id : IdAlike p q a.id b.id
  parent : ParentAlike p q a.parent b.parent
  values : ListAlike (ValueAlike p q) a.values b.values
  alias : a.allowAlias = b.allowAlias
  names : lookupN a.valueNames = lookupN b.valueNames

structure ExtAlike (p q : Pool) (x y : ExtD) : Prop where
  id : IdAlike p q x.id y.id
  parent : ParentAlike p q x.parent y.parent
  number : x.number = y.number
  json : x.jsonName = y.jsonName
  extendee : MessageAlike p q x.extendee y.extendee
  kind : KindAlike p q x.kind y.kind
  group : x.group = y.group
  packed : x.packed = y.packed
  card : x.card = y.card
  default : x.default = y.default

structure MethodAlike (p q : Pool) (x y : MethodD) : Prop where
  id : IdAlike p q x.id y.id
  input : MessageAlike p q x.input y.input
  output : MessageAlike p q x.output y.output

structure SvcAlike (p q : Pool) (x y : SvcD) : Prop where
  id : IdAlike p q x.id y.id
  methods : ListAlike (MethodAlike p q) x.methods y.methods

theorem idx_alike {κ α : Type} {t t' : κ → Option Nat} {l l' : List α} {key : α → κ} (h : Idx t l key)
    (h' : Idx t' l' key) (ha : ListAlike (fun x y => key x = key y) l l') : t = t' := by
  funext n
  apply Option.ext
  intro i
  rw [h n i, h' n i]
  constructor
  · rintro ⟨x, hx, rfl⟩
    have hy := List.getElem?_eq_getElem (ha.1 ▸ getElem?_lt hx : i < l'.length)
    exact ⟨_, hy, (ha.2 i _ _ hx hy).symm⟩
  · rintro ⟨y, hy, rfl⟩
    have hx := List.getElem?_eq_getElem (ha.1 ▸ getElem?_lt hy : i < l.length)
    exact ⟨_, hx, ha.2 i _ _ hx hy⟩

theorem ListAlike.imp {α : Type} {R T : α → α → Prop} {a b : List α} (h : ListAlike R a b)
    (hrt : ∀ x y, R x y → T x y) : ListAlike T a b := ⟨h.1, fun i x y hx hy => hrt _ _ (h.2 i x y hx hy)⟩

section
variable {env : Env} {acc acc' : List FileP} {p q : Pool}

theorem shared_file {i j : Nat} (D : Desc env acc p) (D' : Desc env acc' q) (hs : Shared acc acc' i j) :
    ∃ fa fb, p.files[i]? = some fa ∧ q.files[j]? = some fb ∧ fa.raw.name = fb.raw.name := by
  obtain ⟨f, h1, h2⟩ := hs
  obtain ⟨fa, a1, _, a3, _⟩ := D.file_at h1
  obtain ⟨fb, b1, _, b3, _⟩ := D'.file_at h2
  exact ⟨fa, fb, a1, b1, by have := congrArg FileP.name (a3.trans b3.symm); exact this⟩

theorem id_alike {i j : Nat} (D : Desc env acc p) (D' : Desc env acc' q) (hs : Shared acc acc' i j) (path : Path)
    (full name : Name) : IdAlike p q (Ident.mk' i path full name) (Ident.mk' j path full name) :=
  ⟨rfl, rfl, rfl, shared_file D D' hs⟩

/-- What a file in common declares is visited in both. -/
theorem visit_shared {i j : Nat} (hs : Shared acc acc' i j) {e : Event} (he : e ∈ visit {} acc) {path : Path}
    {full : Name} {x : Item} (hx : e.item = some (i, path, full, x)) :
    ∃ e' ∈ visit {} acc', e'.item = some (j, path, full, x) := by
  obtain ⟨f, h1, h2⟩ := hs
  obtain ⟨i', f', s, g1, g2, g3, g4⟩ := visited_has he hx
  have h0 : ({} : Offs).file = 0 := rfl
  rw [h0, Nat.zero_add] at g1
  subst g1
  rw [h1] at g2; cases g2
  obtain ⟨e', k1, k2⟩ := has_visited (o := {}) h2 g4
  rw [h0, Nat.zero_add] at k2
  exact ⟨e', k1, by rw [k2, g3]⟩

theorem named_of (D : Desc env acc p) {path : Path} {full : Name} {fi k : Nat} {par : Option Nat} {m : MsgP}
    (he : .message path full fi par k m ∈ visit {} acc) : MessageNamed p full k := by
  obtain ⟨_, ⟨md, h1, h2, _⟩, _⟩ := D.evs _ he
  exact ⟨md, h1, by rw [h2]; rfl⟩

private theorem top_inner {a b j j' : Nat} {qp : Path} (hab : a ≠ b) : ([a, j] : Path) ≠ qp ++ [b, j'] := by
  intro h
  cases qp with
  | nil => simp at h; exact hab h.1
  | cons c qp =>
    have := congrArg List.length h
    simp at this

private theorem inner_inner {a j j' : Nat} {qp qp' : Path} (h : qp ++ [a, j] = qp' ++ [a, j']) : qp = qp' :=
  (List.append_inj' h rfl).1

theorem parent_message (D : Desc env acc p) (D' : Desc env acc' q) {i j k k' : Nat} {path : Path} {full : Name} {par par' : Option Nat}
    {m m' : MsgP} (he : .message path full i par k m ∈ visit {} acc)
    (he' : .message path full j par' k' m' ∈ visit {} acc') (hm : m = m') : ParentAlike p q par par' := by
  subst hm
  rcases visit_inner _ _ _ he with ⟨_, _, _, _, rfl, _, _, h1, _⟩ | ⟨t, qp, qf, _, _, _, rfl, h1, h2, h3, _⟩ <;>
    rcases visit_inner _ _ _ he' with ⟨_, _, _, _, rfl, _, _, g1, _⟩ | ⟨t', qp', qf', _, _, _, rfl, g1, g2, g3, _⟩
  · exact .none
  · exact absurd (h1.symm.trans g2) (top_inner (by decide))
  · exact absurd (g1.symm.trans h2) (top_inner (by decide))
  · obtain rfl := pushScope_inj (h3.symm.trans g3)
    exact .some ⟨qf, named_of D h1, named_of D' g1⟩

theorem parent_enum (D : Desc env acc p) (D' : Desc env acc' q) {i j k k' : Nat} {path : Path} {full : Name} {par par' : Option Nat}
    {m : EnumP} (he : .enum path full i par k m ∈ visit {} acc)
    (he' : .enum path full j par' k' m ∈ visit {} acc') : ParentAlike p q par par' := by
  rcases visit_inner _ _ _ he with ⟨_, _, _, _, rfl, _, _, h1, _⟩ | ⟨t, qp, qf, _, _, _, rfl, h1, h2, h3, _⟩ <;>
    rcases visit_inner _ _ _ he' with ⟨_, _, _, _, rfl, _, _, g1, _⟩ | ⟨t', qp', qf', _, _, _, rfl, g1, g2, g3, _⟩
  · exact .none
  · exact absurd (h1.symm.trans g2) (top_inner (by decide))
  · exact absurd (g1.symm.trans h2) (top_inner (by decide))
  · obtain rfl := pushScope_inj (h3.symm.trans g3)
    exact .some ⟨qf, named_of D h1, named_of D' g1⟩

theorem parent_extension (D : Desc env acc p) (D' : Desc env acc' q) {i j k k' : Nat} {path : Path} {full : Name} {par par' : Option Nat}
    {m : FieldP} (he : .extension path full i par k m ∈ visit {} acc)
    (he' : .extension path full j par' k' m ∈ visit {} acc') : ParentAlike p q par par' := by
  rcases visit_inner _ _ _ he with ⟨_, _, _, _, rfl, _, _, h1, _⟩ | ⟨t, qp, qf, _, _, _, rfl, h1, h2, h3, _⟩ <;>
    rcases visit_inner _ _ _ he' with ⟨_, _, _, _, rfl, _, _, g1, _⟩ | ⟨t', qp', qf', _, _, _, rfl, g1, g2, g3, _⟩
  · exact .none
  · exact absurd (h1.symm.trans g2) (top_inner (by decide))
  · exact absurd (g1.symm.trans h2) (top_inner (by decide))
  · obtain rfl := pushScope_inj (h3.symm.trans g3)
    exact .some ⟨qf, named_of D h1, named_of D' g1⟩

/-! ### Enums -/

theorem enum_shared (D : Desc env acc p) (D' : Desc env acc' q) {i j k k' : Nat} (hs : Shared acc acc' i j)
    {path : Path} {full : Name} {par par' : Option Nat} {m : EnumP} (he : .enum path full i par k m ∈ visit {} acc)
    (he' : .enum path full j par' k' m ∈ visit {} acc') {a b : EnumD} (ha : p.enums[k]? = some a)
    (hb : q.enums[k']? = some b) : EnumAlike p q a b := by
  obtain ⟨_, ⟨a', ha', h1, h2, h3, h4, h5⟩, _⟩ := D.evs _ he
  rw [ha] at ha'; cases ha'
  obtain ⟨_, ⟨b', hb', g1, g2, g3, g4, g5⟩, _⟩ := D'.evs _ he'
  rw [hb] at hb'; cases hb'
  obtain ⟨s, hs1, hf⟩ := visit_full _ _ _ he
  obtain ⟨s', hs1', hf'⟩ := visit_full _ _ _ he'
  obtain rfl := pushScope_inj (hs1.symm.trans hs1')
  have hv : ListAlike (ValueAlike p q) a.values b.values := by
    refine ⟨h4.trans g4.symm, fun n x y hx hy => ?_⟩
    obtain ⟨v, hn⟩ : ∃ v, m.values[n]? = some v := ⟨_, List.getElem?_eq_getElem (h4 ▸ getElem?_lt hx : n < m.values.length)⟩
    obtain ⟨_, a', _, _, k1, k2, _⟩ := D.evs _ (hf n _ hn)
    rw [ha] at k1; cases k1
    rw [hx] at k2; cases k2
    obtain ⟨_, b', _, _, k1, k2, _⟩ := D'.evs _ (hf' n _ hn)
    rw [hb] at k1; cases k1
    rw [hy] at k2; cases k2
    exact ⟨id_alike D D' hs _ _ _, rfl⟩
  refine ⟨?_, ?_, hv, h3.trans g3.symm, ?_⟩
  · rw [h1, g1]; exact id_alike D D' hs _ _ _
  · rw [h2, g2]; exact parent_enum D D' he he'
  · have e1 := h5.names
    have e2 := g5.names
    rw [List.take_length] at e1 e2
    exact idx_alike e1 e2 (hv.imp fun x y h => h.id.name)

/-! ### Kinds -/

/-- The type a name stands for, if it lies in a file in common. -/
theorem kind_shared (D : Desc env acc p) (D' : Desc env acc' q) {i j : Nat} (hs : Shared acc acc' i j) {n : Name} {x : Item}
    (hd : DeclaredAs acc i n x) {k k' : Kind} (h : KindNamed p n k) (h' : KindNamed q n k') :
    KindAlike p q k k' ∧ ∀ t t', k = .enum t → k' = .enum t' → ∀ a b, p.enums[t]? = some a → q.enums[t']? = some b →
      EnumAlike p q a b := by
  obtain ⟨f, path, s, h1, h2, rfl⟩ := hd
  have h0 : ({} : Offs).file = 0 := rfl
  obtain ⟨e, he, hx⟩ := has_visited (o := {}) h1 h2
  rw [h0, Nat.zero_add] at hx
  obtain ⟨e', he', hx'⟩ := visit_shared hs he hx
  have look : ∀ {acc : List FileP} {r : Pool} {k : Kind} {e : Event} {i : Nat}, Desc env acc r → e ∈ visit {} acc →
      e.item = some (i, path, qualified s x.name, x) → KindNamed r (qualified s x.name) k →
      (∃ t par m, k = .message t ∧ x = .message m ∧ e = .message path (qualified s x.name) i par t m) ∨
      ∃ t par m, k = .enum t ∧ x = .enum m ∧ e = .enum path (qualified s x.name) i par t m := by
    intro acc r k e i D he hx hk
    cases k with
    | message t =>
      obtain ⟨d, c1, c2⟩ := hk
      obtain ⟨path', full, fi, parent, m, ce, hid, _⟩ := D.message_at c1
      rw [hid] at c2
      obtain rfl : full = qualified s x.name := c2
      obtain ⟨d', hd', _⟩ := Event.item_tag hx
      injection D.unique he ce hd' rfl with c5 c6 c7
      subst c7
      cases e <;> simp only [Event.defn, Option.some.injEq, Prod.mk.injEq, Def.mk.injEq, reduceCtorEq, and_false,
        DefKind.message.injEq] at hd'
      simp only [Event.item, Option.some.injEq, Prod.mk.injEq] at hx
      obtain ⟨rfl, rfl, c3, c4⟩ := hx
      obtain ⟨_, _, _, rfl⟩ := hd'
      exact .inl ⟨_, _, _, rfl, c4.symm, by rw [c3]⟩
    | enum t =>
      obtain ⟨d, c1, c2⟩ := hk
      obtain ⟨path', full, fi, parent, m, ce, hid, _⟩ := D.enum_at c1
      rw [hid] at c2
      obtain rfl : full = qualified s x.name := c2
      obtain ⟨d', hd', _⟩ := Event.item_tag hx
      injection D.unique he ce hd' rfl with c5 c6 c7
      subst c7
      cases e <;> simp only [Event.defn, Option.some.injEq, Prod.mk.injEq, Def.mk.injEq, reduceCtorEq, and_false,
        DefKind.enum.injEq] at hd'
      simp only [Event.item, Option.some.injEq, Prod.mk.injEq] at hx
      obtain ⟨rfl, rfl, c3, c4⟩ := hx
      obtain ⟨_, _, _, rfl⟩ := hd'
      exact .inr ⟨_, _, _, rfl, c4.symm, by rw [c3]⟩
    | _ => exact hk.elim
  rcases look D he hx h with ⟨t, par, m, rfl, rfl, rfl⟩ | ⟨t, par, m, rfl, rfl, rfl⟩ <;>
    rcases look D' he' hx' h' with ⟨t', par', m', rfl, e2, rfl⟩ | ⟨t', par', m', rfl, e2, rfl⟩
  · exact ⟨.message ⟨_, h, h'⟩, fun _ _ hc => by cases hc⟩
  · cases e2
  · cases e2
  · cases e2
    refine ⟨.enum h h', fun _ _ c1 c2 a b ha hb => ?_⟩
    cases c1; cases c2
    exact enum_shared D D' hs he he' ha hb

end
end Verif.Pool
