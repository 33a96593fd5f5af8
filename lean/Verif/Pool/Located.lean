import Verif.Pool.Known
import Verif.Pool.Paths
/-!
Descriptors and the declarations they stand for.
-/
set_option autoImplicit false
namespace Verif.Pool
open Verif.Wire Verif.Dyn

/-- The descriptor with identity `id` stands for the declaration `x` of one of the files
`acc`; `y` is the same declaration in the pool's copy of that file, where only resolved type
names, JSON names and options may differ. -/
def Stands (acc : List FileP) (p : Pool) (id : Ident) (x y : Item) : Prop :=
  ∃ f fd s, acc[id.file]? = some f ∧ p.files[id.file]? = some fd ∧ Has f id.path s x ∧
    Has fd.prost id.path s y ∧ y.strip = x.strip ∧ id.fullName = qualified s x.name ∧
    id.name = x.name

section
variable {env : Env} {acc : List FileP} {p : Pool}

theorem Desc.stands (h : Desc env acc p) {e : Event} (he : e ∈ visit {} acc) {fi : Nat}
    {path : Path} {full : Name} {x : Item} (hx : e.item = some (fi, path, full, x)) {id : Ident}
    (hid : id = Ident.mk' fi path full x.name) : ∃ y, Stands acc p id x y := by
  obtain ⟨f, fd, s, y, h1, h2, h3, h4, h5, h6, h7⟩ := h.copy he hx
  rw [h7] at h6
  subst hid
  exact ⟨y, f, fd, s, h1, h2, h3, h4, h5, h6, by rw [h6, qualified_eq]; exact Ident.mk'_name _ _ _ _⟩

theorem append2_inj {q q' : Path} {a b a' b' : Nat} (h : q ++ [a, b] = q' ++ [a', b']) :
    q = q' ∧ a = a' ∧ b = b' := by
  have := List.append_inj' h rfl
  simp only [List.cons.injEq, and_true] at this
  exact ⟨this.1, this.2⟩

/-- What kind of declaration an item is. -/
def Item.tag : Item → Nat
  | .message _ => 0 | .field _ => 1 | .oneof _ => 2 | .enum _ => 3
  | .value _ => 4 | .service _ => 5 | .method _ => 6 | .extension _ => 7

/-- A path and a kind locate one declaration. -/
theorem Found.unique {f : FileP} {path : Path} {x y : Item} (hx : Found f path x)
    (hy : Found f path y) (ht : x.tag = y.tag) : x = y := by
  cases x <;> cases y <;> first | (exfalso; revert ht; simp only [Item.tag]; decide) | skip
  · exact congrArg Item.message (Option.some.inj (hx.2.symm.trans hy.2))
  · obtain ⟨q, i, m, rfl, h1, h2⟩ := hx
    obtain ⟨q', i', m', hp, g1, g2⟩ := hy
    obtain ⟨rfl, _, rfl⟩ := append2_inj hp
    cases h1.symm.trans g1
    cases h2.symm.trans g2
    rfl
  · obtain ⟨q, i, m, rfl, h1, h2⟩ := hx
    obtain ⟨q', i', m', hp, g1, g2⟩ := hy
    obtain ⟨rfl, _, rfl⟩ := append2_inj hp
    cases h1.symm.trans g1
    cases h2.symm.trans g2
    rfl
  · exact congrArg Item.enum (Option.some.inj (Eq.trans (Eq.symm hx) hy))
  · obtain ⟨q, i, m, rfl, h1, h2⟩ := hx
    obtain ⟨q', i', m', hp, g1, g2⟩ := hy
    obtain ⟨rfl, _, rfl⟩ := append2_inj hp
    cases h1.symm.trans g1
    cases h2.symm.trans g2
    rfl
  · obtain ⟨i, rfl, h1⟩ := hx
    obtain ⟨i', hp, g1⟩ := hy
    simp only [List.cons.injEq, and_true, true_and] at hp
    subst hp
    cases h1.symm.trans g1
    rfl
  · obtain ⟨i, j, s, rfl, h1, h2⟩ := hx
    obtain ⟨i', j', s', hp, g1, g2⟩ := hy
    simp only [List.cons.injEq, and_true, true_and] at hp
    obtain ⟨rfl, rfl⟩ := hp
    cases h1.symm.trans g1
    cases h2.symm.trans g2
    rfl
  · exact congrArg Item.extension (Option.some.inj (Eq.trans (Eq.symm hx) hy))

/-- The path of a message determines the scope it is declared in. -/
theorem Has.scope_eq {f : FileP} {path : Path} {s s' : Name} {m m' : MsgP}
    (h : Has f path s (.message m)) (h' : Has f path s' (.message m')) : s = s' := by
  generalize hx : Item.message m = x at h
  generalize hy : Item.message m' = y at h'
  induction h generalizing s' m m' y with
  | message i n hi =>
    generalize hpp : [4, i] = path' at h'
    cases h' with
    | message j n' hj => rfl
    | nested path s t j n' hp hj =>
      have := (append2_inj (q := []) hpp).2.1
      cases this
    | _ => cases hy
  | nested path s t i n hp hi ih =>
    generalize hpp : path ++ [3, i] = path' at h'
    cases h' with
    | message j n' hj =>
      have := (append2_inj (q' := []) hpp).2.1
      cases this
    | nested path' s' t' j n' hp' hj =>
      obtain ⟨rfl, _, rfl⟩ := append2_inj hpp
      have e1 := ih rfl _ rfl hp'
      have e2 := hp.found.unique hp'.found rfl
      cases e2
      rw [e1]
    | _ => cases hy
  | _ => cases hx

/-- The kind recorded for a name. -/
def DefKind.tag : DefKind → Nat
  | .message _ => 0 | .field _ => 1 | .oneof _ => 2 | .enum _ => 3
  | .enumValue _ => 4 | .service _ => 5 | .method _ => 6 | .extension _ => 7 | .package => 8

theorem Event.item_tag {e : Event} {fi : Nat} {path : Path} {n : Name} {x : Item}
    (h : e.item = some (fi, path, n, x)) :
    ∃ k, e.defn = some (n, ⟨fi, path, k⟩) ∧ k.tag = x.tag := by
  cases e <;> simp only [Event.item, Option.some.injEq, Prod.mk.injEq, reduceCtorEq] at h <;>
    (obtain ⟨rfl, rfl, rfl, rfl⟩ := h; exact ⟨_, rfl, rfl⟩)

theorem Desc.message_stands (h : Desc env acc p) {k : Nat} {md : MsgD}
    (hk : p.messages[k]? = some md) :
    ∃ x y, Stands acc p md.id (.message x) (.message y) ∧ p.messageProto k = .ok y := by
  obtain ⟨path, full, fi, parent, m, he, hid, _⟩ := h.message_at hk
  obtain ⟨y, f, fd, s, h1, h2, h3, h4, h5, h6⟩ := h.stands he rfl hid
  cases y <;> simp only [Item.strip, reduceCtorEq, Item.message.injEq] at h5
  rename_i y
  refine ⟨m, y, ⟨f, fd, s, ?_⟩, ?_⟩
  · exact ⟨h1, h2, h3, h4, by simp [Item.strip, h5], h6⟩
  · have hf := h4.found
    simp only [Pool.messageProto, bind_ok, getR_ok]
    refine ⟨md, hk, fd, h2, ?_⟩
    rw [show findMsg fd.prost _ = some y from hf.2]; rfl

theorem Desc.enum_stands (h : Desc env acc p) {k : Nat} {ed : EnumD}
    (hk : p.enums[k]? = some ed) :
    ∃ x, Stands acc p ed.id (.enum x) (.enum x) ∧ p.enumProto k = .ok x := by
  obtain ⟨path, full, fi, parent, m, he, hid, _⟩ := h.enum_at hk
  obtain ⟨z, f, fd, s, h1, h2, h3, h4, h5, h6⟩ := h.stands he rfl hid
  cases z <;> simp only [Item.strip, reduceCtorEq, Item.enum.injEq] at h5
  cases h5
  refine ⟨m, ⟨f, fd, s, ?_⟩, ?_⟩
  · exact ⟨h1, h2, h3, h4, rfl, h6⟩
  · have hf := h4.found
    simp only [Pool.enumProto, bind_ok, getR_ok]
    refine ⟨ed, hk, fd, h2, ?_⟩
    rw [show findEnum fd.prost _ = some _ from hf]; rfl

theorem Desc.service_stands (h : Desc env acc p) {k : Nat} {sd : SvcD}
    (hk : p.services[k]? = some sd) :
    ∃ x y, Stands acc p sd.id (.service x) (.service y) ∧ p.serviceProto k = .ok y := by
  obtain ⟨path, full, fi, m, he, hid, _⟩ := h.service_at hk
  obtain ⟨y, f, fd, s, h1, h2, h3, h4, h5, h6⟩ := h.stands he rfl hid
  cases y <;> simp only [Item.strip, reduceCtorEq, Item.service.injEq] at h5
  rename_i y
  refine ⟨m, y, ⟨f, fd, s, ?_⟩, ?_⟩
  · exact ⟨h1, h2, h3, h4, by simp [Item.strip, h5], h6⟩
  · obtain ⟨i, hp, hi⟩ := h4.found
    simp only [Pool.serviceProto, bind_ok, getR_ok]
    exact ⟨sd, hk, fd, h2, i, by rw [hp]; rfl, hi⟩

theorem Desc.extension_stands (h : Desc env acc p) {k : Nat} {d : ExtD}
    (hk : p.extensions[k]? = some d) :
    ∃ x y, Stands acc p d.id (.extension x) (.extension y) ∧ p.extensionProto k = .ok y := by
  obtain ⟨path, full, fi, parent, m, _, he, _, _, hE⟩ := h.extension_at hk
  have hid := hE.id
  obtain ⟨y, f, fd, s, h1, h2, h3, h4, h5, h6⟩ := h.stands he rfl hid
  cases y <;> simp only [Item.strip, reduceCtorEq, Item.extension.injEq] at h5
  rename_i y
  refine ⟨m, y, ⟨f, fd, s, ?_⟩, ?_⟩
  · exact ⟨h1, h2, h3, h4, by simp [Item.strip, h5], h6⟩
  · have hf := h4.found
    simp only [Pool.extensionProto, bind_ok, getR_ok]
    refine ⟨d, hk, fd, h2, ?_⟩
    rw [show findExt fd.prost _ = some y from hf]; rfl

theorem Desc.field_stands (h : Desc env acc p) {k i : Nat} {md : MsgD} {d : FieldD}
    (hk : p.messages[k]? = some md) (hi : md.fields[i]? = some d) :
    ∃ x y, Stands acc p d.id (.field x) (.field y) ∧ d.id.file = md.id.file ∧
      d.id.path = md.id.path ++ [2, i] ∧ p.fieldProto k i = .ok y := by
  obtain ⟨path, full, fi, parent, m, he, hid, _, hl, _⟩ := h.message_at hk
  have hlt := getElem?_lt hi
  obtain ⟨x, hx⟩ : ∃ x, m.fields[i]? = some x := ⟨_, List.getElem?_eq_getElem (by omega)⟩
  have hv := (visit_full acc {} _ he).1 i _ hx
  obtain ⟨_, fd', md', d', g1, g2, g3, g4, g5⟩ := h.evs _ hv
  rw [hk] at g2; cases g2
  rw [hi] at g3; cases g3
  obtain ⟨y, f, fd, s, h1, h2, h3, h4, h5, h6⟩ := h.stands hv rfl g5.id
  cases y <;> simp only [Item.strip, reduceCtorEq, Item.field.injEq] at h5
  rename_i y
  obtain ⟨mx, my, ⟨f', fd'', s', k1, k2, k3, k4, k5⟩, hmp⟩ := h.message_stands hk
  obtain ⟨q, j, m', hq, hm', hj⟩ := h4.found
  have e1 : d.id.path = md.id.path ++ [2, i] := by rw [g5.id, hid]; rfl
  have hfile : d.id.file = md.id.file := by rw [g5.id, hid]; rfl
  rw [e1] at hq
  obtain ⟨rfl, _, rfl⟩ := append2_inj hq
  refine ⟨x, y, ⟨f, fd, s, ?_⟩, hfile, e1, ?_⟩
  · exact ⟨h1, h2, h3, h4, by simp [Item.strip, h5], h6⟩
  · simp only [Pool.fieldProto, bind_ok, getR_ok]
    refine ⟨md, hk, d, hi, my, hmp, i, by rw [e1]; simp [unwrapR], ?_⟩
    have := k4.found
    rw [← hfile, h2] at k2; cases k2
    rw [show findMsg fd.prost _ = some my from this.2] at hm'
    cases hm'
    exact hj

theorem Desc.oneof_stands (h : Desc env acc p) {k i : Nat} {md : MsgD} {d : OneofD}
    (hk : p.messages[k]? = some md) (hi : md.oneofs[i]? = some d) :
    ∃ x, Stands acc p d.id (.oneof x) (.oneof x) ∧ d.id.file = md.id.file ∧
      d.id.path = md.id.path ++ [8, i] ∧ p.oneofProto k i = .ok x := by
  obtain ⟨path, full, fi, parent, m, he, hid, _, _, hl, _⟩ := h.message_at hk
  have hlt := getElem?_lt hi
  obtain ⟨x, hx⟩ : ∃ x, m.oneofs[i]? = some x := ⟨_, List.getElem?_eq_getElem (by omega)⟩
  have hv := (visit_full acc {} _ he).2.1 i _ hx
  obtain ⟨_, md', d', g2, g3, g5⟩ := h.evs _ hv
  rw [hk] at g2; cases g2
  rw [hi] at g3; cases g3
  obtain ⟨z, f, fd, s, h1, h2, h3, h4, h5, h6⟩ := h.stands hv rfl g5
  cases z <;> simp only [Item.strip, reduceCtorEq, Item.oneof.injEq] at h5
  cases h5
  obtain ⟨mx, my, ⟨f', fd'', s', k1, k2, k3, k4, k5⟩, hmp⟩ := h.message_stands hk
  obtain ⟨q, j, m', hq, hm', hj⟩ := h4.found
  have e1 : d.id.path = md.id.path ++ [8, i] := by rw [g5, hid]; rfl
  have hfile : d.id.file = md.id.file := by rw [g5, hid]; rfl
  rw [e1] at hq
  obtain ⟨rfl, _, rfl⟩ := append2_inj hq
  refine ⟨x, ⟨f, fd, s, ?_⟩, hfile, e1, ?_⟩
  · exact ⟨h1, h2, h3, h4, rfl, h6⟩
  · simp only [Pool.oneofProto, bind_ok, getR_ok]
    refine ⟨my, hmp, ?_⟩
    have := k4.found
    rw [← hfile, h2] at k2; cases k2
    rw [show findMsg fd.prost _ = some my from this.2] at hm'
    cases hm'
    exact hj

theorem Desc.value_stands (h : Desc env acc p) {k i : Nat} {ed : EnumD} {d : ValueD}
    (hk : p.enums[k]? = some ed) (hi : ed.values[i]? = some d) :
    ∃ x, Stands acc p d.id (.value x) (.value x) ∧ d.id.file = ed.id.file ∧
      d.id.path = ed.id.path ++ [2, i] ∧ p.valueProto k i = .ok x ∧ d.number = x.number := by
  obtain ⟨path, full, fi, parent, m, he, hid, _, _, hl, _⟩ := h.enum_at hk
  have hlt := getElem?_lt hi
  obtain ⟨sc, _, hfu⟩ := visit_full acc {} _ he
  obtain ⟨x, hx⟩ : ∃ x, m.values[i]? = some x := ⟨_, List.getElem?_eq_getElem (by omega)⟩
  have hv := hfu i _ hx
  obtain ⟨_, md', _, _, g2, g3, _⟩ := h.evs _ hv
  rw [hk] at g2; cases g2
  rw [hi] at g3; cases g3
  obtain ⟨z, f, fd, s, h1, h2, h3, h4, h5, h6⟩ := h.stands hv rfl (id := Ident.mk' _ _ _ _) rfl
  cases z <;> simp only [Item.strip, reduceCtorEq, Item.value.injEq] at h5
  cases h5
  obtain ⟨my, ⟨f', fd'', s', k1, k2, k3, k4, k5⟩, hmp⟩ := h.enum_stands hk
  obtain ⟨q, j, m', hq, hm', hj⟩ := h4.found
  obtain ⟨rfl, _, rfl⟩ := append2_inj hq
  refine ⟨x, ⟨f, fd, s, h1, h2, h3, h4, rfl, h6⟩, by rw [hid]; rfl, by rw [hid]; rfl, ?_, rfl⟩
  simp only [Pool.valueProto, bind_ok, getR_ok]
  refine ⟨my, hmp, ?_⟩
  have := k4.found
  rw [hid] at k2 this
  cases h2.symm.trans k2
  cases hm'.symm.trans this
  exact hj

theorem Desc.method_stands (h : Desc env acc p) {k i : Nat} {sd : SvcD} {d : MethodD}
    (hk : p.services[k]? = some sd) (hi : sd.methods[i]? = some d) :
    ∃ x y, Stands acc p d.id (.method x) (.method y) ∧ d.id.file = sd.id.file ∧
      d.id.path = sd.id.path ++ [2, i] ∧ p.methodProto k i = .ok y := by
  obtain ⟨path, full, fi, m, he, hid, hl⟩ := h.service_at hk
  have hlt := getElem?_lt hi
  obtain ⟨x, hx⟩ : ∃ x, m.methods[i]? = some x := ⟨_, List.getElem?_eq_getElem (by omega)⟩
  have hv := visit_full acc {} _ he i _ hx
  obtain ⟨_, md', d', g2, g3, g5, _⟩ := h.evs _ hv
  rw [hk] at g2; cases g2
  rw [hi] at g3; cases g3
  obtain ⟨y, f, fd, s, h1, h2, h3, h4, h5, h6⟩ := h.stands hv rfl g5
  cases y <;> simp only [Item.strip, reduceCtorEq, Item.method.injEq] at h5
  rename_i y
  obtain ⟨mx, my, ⟨f', fd'', s', k1, k2, k3, k4, k5⟩, hmp⟩ := h.service_stands hk
  obtain ⟨q, j, m', hq, hm', hj⟩ := h4.found
  obtain ⟨q', hq', hs'⟩ := k4.found
  have e1 : d.id.path = sd.id.path ++ [2, i] := by rw [g5, hid]; rfl
  have hfile : d.id.file = sd.id.file := by rw [g5, hid]; rfl
  rw [e1] at hq
  have hq : sd.id.path ++ [2, i] = [6, q] ++ [2, j] := hq
  obtain ⟨e0, _, rfl⟩ := append2_inj hq
  refine ⟨x, y, ⟨f, fd, s, ?_⟩, hfile, e1, ?_⟩
  · exact ⟨h1, h2, h3, h4, by simp [Item.strip, h5], h6⟩
  · simp only [Pool.methodProto, bind_ok, getR_ok]
    refine ⟨my, hmp, ?_⟩
    rw [← hfile, h2] at k2; cases k2
    rw [e0] at hq'
    simp only [List.cons.injEq, and_true, true_and] at hq'
    subst hq'
    rw [hm'] at hs'; cases hs'
    exact hj

end
end Verif.Pool
