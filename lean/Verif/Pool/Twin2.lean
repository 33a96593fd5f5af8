import Verif.Pool.Twin
import Verif.Pool.View
/-!
Two pools of the same files: the descriptors.
-/
set_option autoImplicit false
namespace Verif.Pool
open Verif.Wire Verif.Dyn Verif.Props

theorem asc_ext : ∀ {a b : List Nat}, a.Pairwise (· < ·) → b.Pairwise (· < ·) → (∀ x, x ∈ a ↔ x ∈ b) → a = b
  | [], [], _, _, _ => rfl
  | [], y :: b, _, _, h => by have := (h y).2 (by simp); cases this
  | x :: a, [], _, _, h => by have := (h x).1 (by simp); cases this
  | x :: a, y :: b, ha, hb, h => by
    rw [List.pairwise_cons] at ha hb
    have hxy : x = y := by
      have h1 := (h x).1 (by simp)
      have h2 := (h y).2 (by simp)
      rcases List.mem_cons.1 h1 with rfl | h1
      · rfl
      · rcases List.mem_cons.1 h2 with rfl | h2
        · rfl
        · have := hb.1 x h1; have := ha.1 y h2; omega
    subst hxy
    refine congrArg (x :: ·) (asc_ext ha.2 hb.2 fun z => ⟨fun hz => ?_, fun hz => ?_⟩)
    · rcases List.mem_cons.1 ((h z).1 (by simp [hz])) with rfl | h1
      · exact absurd (ha.1 _ hz) (Nat.lt_irrefl _)
      · exact h1
    · rcases List.mem_cons.1 ((h z).2 (by simp [hz])) with rfl | h1
      · exact absurd (hb.1 _ hz) (Nat.lt_irrefl _)
      · exact h1

theorem get_ext {α : Type} {a b : List α} (hl : a.length = b.length)
    (h : ∀ (i : Nat) x y, a[i]? = some x → b[i]? = some y → x = y) : a = b := by
  apply List.ext_getElem hl
  intro i h1 h2
  exact h i _ _ (List.getElem?_eq_getElem h1) (List.getElem?_eq_getElem h2)

theorem idx_ext {κ α : Type} {t t' : κ → Option Nat} {l : List α} {key : α → κ} (h : Idx t l key)
    (h' : Idx t' l key) : t = t' := by
  funext n
  apply Option.ext
  intro i
  rw [h n i, h' n i]

/-- The parts of a message descriptor without the extensions. -/
structure SameMessage (a b : MsgD) : Prop where
  id : a.id = b.id
  parent : a.parent = b.parent
  fields : a.fields = b.fields
  numbers : a.fieldNumbers = b.fieldNumbers
  names : lookupN a.fieldNames = lookupN b.fieldNames
  jsons : lookupN a.fieldJsonNames = lookupN b.fieldJsonNames
  oneofs : a.oneofs = b.oneofs

structure SameEnum (a b : EnumD) : Prop where
  id : a.id = b.id
  parent : a.parent = b.parent
  values : a.values = b.values
  alias : a.allowAlias = b.allowAlias
  names : lookupN a.valueNames = lookupN b.valueNames

section
variable {env : Env} {acc : List FileP} {p q : Pool}

theorem Desc.same_enum (D : Desc env acc p) (D' : Desc env acc q) {k : Nat} {a b : EnumD}
    (ha : p.enums[k]? = some a) (hb : q.enums[k]? = some b) : SameEnum a b := by
  obtain ⟨path, full, fi, parent, m, he, h1, h2, h3, h4, h5⟩ := D.enum_at ha
  obtain ⟨_, ⟨b', hb', g1, g2, g3, g4, g5⟩, _⟩ := D'.evs _ he
  rw [hb] at hb'; cases hb'
  have hv : a.values = b.values := by
    refine get_ext (h4.trans g4.symm) fun i x y hx hy => ?_
    obtain ⟨_, _, _, v, _, _, he', rfl, _⟩ := D.value_at ha hx
    obtain ⟨_, b', _, _, k1, k2, _⟩ := D'.evs _ he'
    rw [hb] at k1; cases k1
    rw [hy] at k2; exact (Option.some.inj k2).symm
  refine ⟨h1.trans g1.symm, h2.trans g2.symm, hv, h3.trans g3.symm, ?_⟩
  have e1 := h5.names
  have e2 := g5.names
  rw [List.take_length] at e1 e2
  rw [← hv] at e2
  exact idx_ext e1 e2

theorem Desc.same_default (D : Desc env acc p) (D' : Desc env acc q) {k : Kind} {s : Option Name}
    {v v' : Option Value} (h : DefaultOk env p.enums k s v) (h' : DefaultOk env q.enums k s v') : v = v' := by
  cases s with
  | none => exact Eq.trans h (Eq.symm h')
  | some s =>
    obtain ⟨w, rfl, hw⟩ := h
    obtain ⟨w', rfl, hw'⟩ := h'
    have : defaultOf env p.enums k s = defaultOf env q.enums k s := by
      cases k with
      | enum i =>
        simp only [defaultOf] at hw hw' ⊢
        split at hw
        · cases hw
        · next a ha =>
          split at hw'
          · cases hw'
          · next b hb =>
            simp only [(D.same_enum D' ha hb).values]
      | _ => rfl
    rw [hw, hw'] at this
    simp only [Except.ok.injEq] at this
    exact this

end

section
variable {env : Env} {acc : List FileP} {p q : Pool}

/-- The full names of declarations are not empty. -/
theorem Settled.full_ne (h : Settled env acc p) (hw : WellNamed acc) {e : Event} (he : e ∈ visit {} acc) {fi : Nat}
    {path : Path} {full : Name} {x : Item} (hx : e.item = some (fi, path, full, x)) : full ≠ [] := by
  obtain ⟨j, f, s, _, h1, rfl, h2⟩ := visited_has he hx
  exact qualified_ne_nil (hw f (List.mem_of_getElem? h1) _ _ _ h2).1

theorem Settled.same_kinds (h : Settled env acc p) (h' : Settled env acc q) (hw : WellNamed acc) {fi : Nat} {full : Name}
    {f : FieldP} {k k' : Kind} {g g' : Bool} (hk : KindOk p f k g) (hk' : KindOk q f k' g')
    (hm : f.typeName ≠ [] → ∃ n, KindNamed p n k ∧ Meant acc p fi true full f.typeName n)
    (hm' : f.typeName ≠ [] → ∃ n, KindNamed q n k' ∧ Meant acc q fi true full f.typeName n) :
    k = k' ∧ g = g' := by
  have key : f.typeName ≠ [] → k = k' := by
    intro hne
    obtain ⟨n, h1, h2⟩ := hm hne
    obtain ⟨n', g1, g2⟩ := hm' hne
    obtain rfl := h.same_meant h' hw h2 g2
    exact h.desc.same_kind h'.desc h1 g1
  cases hk with
  | scalar _ h0 h1 =>
    cases hk' with
    | scalar _ _ g1 => exact ⟨Option.some.inj (h1.symm.trans g1), rfl⟩
    | message i hne => exact absurd h0 hne
    | enum i hne => exact absurd h0 hne
  | message i hne _ =>
    have e := key hne
    cases hk' with
    | scalar _ h0 _ => exact absurd h0 hne
    | message j _ _ => exact ⟨e, rfl⟩
    | enum j _ _ => cases e
  | enum i hne _ =>
    have e := key hne
    cases hk' with
    | scalar _ h0 _ => exact absurd h0 hne
    | message j _ _ => cases e
    | enum j _ _ => exact ⟨e, rfl⟩

theorem Settled.same_field (h : Settled env acc p) (h' : Settled env acc q) (hw : WellNamed acc) {k i : Nat} {a b : MsgD}
    {x y : FieldD} (ha : p.messages[k]? = some a) (hb : q.messages[k]? = some b)
    (hx : a.fields[i]? = some x) (hy : b.fields[i]? = some y) : x = y := by
  have D := h.desc
  have D' := h'.desc
  obtain ⟨path, full, fi, f, fd, he, h1, _, h2⟩ := D.field_at ha hx
  obtain ⟨_, fd', b', y', g1, hb', hy', _, g2⟩ := D'.evs _ he
  rw [hb] at hb'; cases hb'
  rw [hy] at hy'; cases hy'
  have hne := h.full_ne hw he rfl
  obtain ⟨_, _, c1, c2, c3⟩ := h.refs _ he
  rw [ha] at c1; cases c1
  rw [hx] at c2; cases c2
  obtain ⟨_, _, c1, c2, c3'⟩ := h'.refs _ he
  rw [hb] at c1; cases c1
  rw [hy] at c2; cases c2
  obtain ⟨ek, eg⟩ := h.same_kinds h' hw h2.kind g2.kind (c3 hne) (c3' hne)
  have es := (h.same_trans h' h1 g1).1
  have ed := D.same_default D' h2.default (ek ▸ g2.default)
  have en : x.number = y.number := by have := h2.number.trans g2.number.symm; omega
  have eo : x.oneof = y.oneof := by
    have e0 : x.oneof.map Int.ofNat = y.oneof.map Int.ofNat := h2.oneof.trans g2.oneof.symm
    cases ho : x.oneof <;> cases ho' : y.oneof <;> rw [ho, ho'] at e0 <;> simp at e0 ⊢
    omega
  have e1 := h2.id.trans g2.id.symm
  have e2 := h2.json.trans g2.json.symm
  have e3 := h2.card.trans g2.card.symm
  have e4 : x.packed = y.packed := by rw [h2.packed, g2.packed, ek, eg, es]
  have e5 : x.presence = y.presence := by rw [h2.presence, g2.presence, ek, eg, es]
  cases x; cases y
  simp only at *
  subst en eo ek eg ed e1 e2 e3 e4 e5
  rfl

theorem Settled.same_message (h : Settled env acc p) (h' : Settled env acc q) (hw : WellNamed acc) {k : Nat} {a b : MsgD}
    (ha : p.messages[k]? = some a) (hb : q.messages[k]? = some b) : SameMessage a b := by
  have D := h.desc
  have D' := h'.desc
  obtain ⟨path, full, fi, parent, m, he, h1, h2, h3, h4, h5⟩ := D.message_at ha
  obtain ⟨_, ⟨b', hb', g1, g2, g3, g4, g5⟩, _⟩ := D'.evs _ he
  rw [hb] at hb'; cases hb'
  have hf : a.fields = b.fields :=
    get_ext (h3.trans g3.symm) fun i x y hx hy => h.same_field h' hw ha hb hx hy
  have i1 := g5.numbers
  have i2 := g5.names
  have i3 := g5.jsons
  rw [← hf] at i1 i2 i3
  refine ⟨h1.trans g1.symm, h2.trans g2.symm, hf, ?_, idx_ext h5.names i2, idx_ext h5.jsons i3, ?_⟩
  · exact SMap.sorted_ext h5.sorted g5.sorted fun n => congrFun (idx_ext h5.numbers i1) n
  · refine get_ext (h4.trans g4.symm) fun i x y hx hy => ?_
    obtain ⟨_, _, _, o, he', e1⟩ := D.oneof_at ha hx
    obtain ⟨_, b', _, k1, k2, k3⟩ := D'.evs _ he'
    rw [hb] at k1; cases k1
    rw [hy] at k2; cases k2
    obtain ⟨o1, o2⟩ := h5.oneofs i x hx
    obtain ⟨o3, o4⟩ := g5.oneofs i y hy
    have ef : x.fields = y.fields := asc_ext o1 o3 fun z => by rw [o2, o4, hf]
    have ei := e1.trans k3.symm
    cases x; cases y
    simp only at *
    subst ef ei
    rfl

theorem Settled.same_index (h : Settled env acc p) (h' : Settled env acc q) (hw : WellNamed acc) {fi : Nat}
    {full name : Name} {t t' : Nat}
    (hm : ∃ n, MessageNamed p n t ∧ Meant acc p fi false full name n)
    (hm' : ∃ n, MessageNamed q n t' ∧ Meant acc q fi false full name n) : t = t' := by
  obtain ⟨n, h1, h2⟩ := hm
  obtain ⟨n', g1, g2⟩ := hm'
  obtain rfl := h.same_meant h' hw h2 g2
  have := h.desc.same_kind h'.desc (k := .message t) (k' := .message t') h1 g1
  exact Kind.message.inj this

theorem Settled.same_extensions (h : Settled env acc p) (h' : Settled env acc q) (hw : WellNamed acc) :
    p.extensions = q.extensions := by
  have D := h.desc
  have D' := h'.desc
  refine get_ext (D.lens D').2.2.1 fun i x y hx hy => ?_
  obtain ⟨path, full, fi, parent, f, fd, he, h1, _, h2⟩ := D.extension_at hx
  obtain ⟨_, fd', y', g1, hy', _, g2⟩ := D'.evs _ he
  rw [hy] at hy'; cases hy'
  have hne := h.full_ne hw he rfl
  obtain ⟨_, c2, c3⟩ := h.refs _ he
  rw [hx] at c2; cases c2
  obtain ⟨_, c2, c3'⟩ := h'.refs _ he
  rw [hy] at c2; cases c2
  obtain ⟨ek, eg⟩ := h.same_kinds h' hw h2.kind g2.kind (c3 hne).2 (c3' hne).2
  have ee := h.same_index h' hw (c3 hne).1 (c3' hne).1
  have es := (h.same_trans h' h1 g1).1
  have ed := D.same_default D' h2.default (ek ▸ g2.default)
  have en : x.number = y.number := by have := h2.number.trans g2.number.symm; omega
  have e1 := h2.id.trans g2.id.symm
  have e0 := h2.parent.trans g2.parent.symm
  have e2 := h2.json.trans g2.json.symm
  have e3 := h2.card.trans g2.card.symm
  have e4 : x.packed = y.packed := by rw [h2.packed, g2.packed, ek, eg, es]
  cases x; cases y
  simp only at *
  subst en ek eg ed e0 e1 e2 e3 e4 ee
  rfl

theorem Settled.same_services (h : Settled env acc p) (h' : Settled env acc q) (hw : WellNamed acc) :
    p.services = q.services := by
  have D := h.desc
  have D' := h'.desc
  refine get_ext (D.lens D').2.2.2 fun k a b ha hb => ?_
  obtain ⟨path, full, fi, s, he, h1, h2⟩ := D.service_at ha
  obtain ⟨_, b', hb', g1, g2⟩ := D'.evs _ he
  rw [hb] at hb'; cases hb'
  have em : a.methods = b.methods := by
    refine get_ext (h2.trans g2.symm) fun i x y hx hy => ?_
    obtain ⟨_, _, _, m, he', k1, _⟩ := D.method_at ha hx
    obtain ⟨_, b', y', hb', hy', k2, _⟩ := D'.evs _ he'
    rw [hb] at hb'; cases hb'
    rw [hy] at hy'; cases hy'
    have hne := h.full_ne hw he' rfl
    obtain ⟨_, _, c1, c2, c3⟩ := h.refs _ he'
    rw [ha] at c1; cases c1
    rw [hx] at c2; cases c2
    obtain ⟨_, _, c1, c2, c3'⟩ := h'.refs _ he'
    rw [hb] at c1; cases c1
    rw [hy] at c2; cases c2
    have e1 := h.same_index h' hw (c3 hne).1 (c3' hne).1
    have e2 := h.same_index h' hw (c3 hne).2 (c3' hne).2
    have e3 := k1.trans k2.symm
    cases x; cases y
    simp only at *
    subst e1 e2 e3
    rfl
  have ei := h1.trans g1.symm
  cases a; cases b
  simp only at *
  subst em ei
  rfl

end

section
variable {env : Env} (hsr : SearchOk env.search) {acc : List FileP} {p q : Pool}
include hsr

theorem Hist.same_entry (hk : KeepsEntry env) (h : Hist env acc p) (h' : Hist env acc q) (hw : WellNamed acc)
    (k : Nat) : p.isMapEntry k = q.isMapEntry k := by
  have D := h.desc hsr
  have D' := h'.desc hsr
  cases ha : p.messages[k]? with
  | none =>
    have hb : q.messages[k]? = none := by
      rw [List.getElem?_eq_none_iff] at ha ⊢
      rw [← (D.lens D').1]; exact ha
    simp only [Pool.isMapEntry, getR, ha, hb, bind, Except.bind]
  | some a =>
    have hlt := getElem?_lt ha
    rw [(D.lens D').1] at hlt
    have hb := List.getElem?_eq_getElem hlt
    have hid := ((h.settled hsr).same_message (h'.settled hsr) hw ha hb).id
    obtain ⟨x, y, hs, _⟩ := D.message_stands ha
    obtain ⟨x', y', hs', _⟩ := D'.message_stands hb
    rw [h.entry hsr hk ha hs, h'.entry hsr hk hb hs']
    obtain ⟨f, _, s, h1, _, h2, _⟩ := hs
    obtain ⟨f', _, s', g1, _, g2, _⟩ := hs'
    rw [← hid] at g1 g2
    rw [h1] at g1; cases g1
    have := h2.found.unique g2.found rfl
    cases this
    rfl

theorem Accepts.same_exts (h : Accepts env acc p) (h' : Accepts env acc q) (hw : WellNamed acc) {k : Nat}
    {a b : MsgD} (ha : p.messages[k]? = some a) (hb : q.messages[k]? = some b) : a.extensions = b.extensions := by
  obtain ⟨h1, h2⟩ := h.exts hsr k a ha
  obtain ⟨g1, g2⟩ := h'.exts hsr k b hb
  exact asc_ext h1 g1 fun e => by rw [h2, g2, (h.hist.settled hsr).same_extensions (h'.hist.settled hsr) hw]

theorem Accepts.same_view (hk : KeepsEntry env) (h : Accepts env acc p) (h' : Accepts env acc q)
    (hw : WellNamed acc) : p.view = q.view := by
  have D := h.hist.desc hsr
  have D' := h'.hist.desc hsr
  have hl := (D.lens D').1
  have hm : ∀ k, k < p.messages.length → p.msgView k = q.msgView k := by
    intro k hlt
    have ha := List.getElem?_eq_getElem hlt
    have hb := List.getElem?_eq_getElem (hl ▸ hlt)
    have hs := (h.hist.settled hsr).same_message (h'.hist.settled hsr) hw ha hb
    have hx := h.same_exts hsr h' hw ha hb
    have he := h.hist.same_entry hsr hk h'.hist hw k
    simp only [Pool.msgView, getR_ok.2 ha, getR_ok.2 hb, he]
    cases q.isMapEntry k with
    | error e => rfl
    | ok e => simp only [Pool.extensionsOf, hx, (h.hist.settled hsr).same_extensions (h'.hist.settled hsr) hw, hs.id, hs.fields]
  have hen : p.enums.map EnumD.view = q.enums.map EnumD.view := by
    refine get_ext (by simp only [List.length_map]; exact (D.lens D').2.1) fun i x y hx hy => ?_
    rw [List.getElem?_map, Option.map_eq_some_iff] at hx hy
    obtain ⟨a, ha, rfl⟩ := hx
    obtain ⟨b, hb, rfl⟩ := hy
    have hs := D.same_enum D' ha hb
    simp only [EnumD.view, hs.id, hs.values]
  have hr : mapR p.msgView (List.range p.messages.length) = mapR q.msgView (List.range q.messages.length) := by
    rw [← hl]
    have : ∀ l : List Nat, (∀ k ∈ l, k < p.messages.length) → mapR p.msgView l = mapR q.msgView l := by
      intro l
      induction l with
      | nil => intro _; rfl
      | cons k l ih =>
        intro hlt
        simp only [mapR, hm k (hlt k (by simp)), ih fun j hj => hlt j (by simp [hj])]
    exact this _ fun k hk => List.mem_range.1 hk
  simp only [Pool.view, hr, hen]

end
end Verif.Pool
