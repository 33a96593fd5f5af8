import Verif.Dyn.Across2
import Verif.Props.PoolShared
import Verif.Props.PoolShows
import Verif.Props.WellKnown
/-!
C98: messages of two pools that hold the same files are read and written alike.
-/
set_option autoImplicit false
namespace Verif.Props
open Verif.Wire Verif.Dyn Verif.Pool

/-- `ρ` gives every message of the first pool the number that the message of the same full name has in the
second. -/
def Numbers (p q : Pool) (ρ : Nat → Nat) : Prop :=
  ∀ k, k < p.messages.length → ∃ n, MessageNamed p n k ∧ MessageNamed q n (ρ k)

/-- The second pool has no extension of a message of the first that the first does not have. -/
def NoMoreExts (p q : Pool) : Prop := ∀ (e : Nat) y n, q.extensions[e]? = some y → MessageNamed q n y.extendee →
  (∃ t, MessageNamed p n t) → ∃ (e' : Nat) (x : ExtD), p.extensions[e']? = some x ∧ x.id.fullName = y.id.fullName

/-- All messages inside a message are of types of the pool. -/
def OfPool (p : Pool) (m : DynMsg) : Prop := WithinMsg (fun d => d < p.messages.length) m

section
variable {env : Env} {acc acc' : List FileP} {p q : Pool}

private theorem message_unique (D : Desc env acc p) {n : Name} {t t' : Nat} (h : MessageNamed p n t)
    (h' : MessageNamed p n t') : t = t' := by
  obtain ⟨_, _, u1⟩ := (D.message_name n t).2 h
  obtain ⟨_, _, u2⟩ := (D.message_name n t').2 h'
  rw [u1] at u2; cases u2; rfl

private theorem enum_unique (D : Desc env acc p) {n : Name} {t t' : Nat} (h : KindNamed p n (.enum t))
    (h' : KindNamed p n (.enum t')) : t = t' := by
  obtain ⟨_, _, u1⟩ := (D.enum_name n t).2 h
  obtain ⟨_, _, u2⟩ := (D.enum_name n t').2 h'
  rw [u1] at u2; cases u2; rfl

private theorem extension_unique (D : Desc env acc p) {t t' : Nat} {x y : ExtD} (h : p.extensions[t]? = some x)
    (h' : p.extensions[t']? = some y) (he : x.id.fullName = y.id.fullName) : t = t' := by
  obtain ⟨_, _, u1⟩ := (D.extension_name _ t).2 ⟨x, h, rfl⟩
  obtain ⟨_, _, u2⟩ := (D.extension_name _ t').2 ⟨y, h', he.symm⟩
  rw [u1] at u2; cases u2; rfl

private theorem views_mem {p : Pool} {k : Nat} {md : MsgD} {m : MsgDesc} (hv : Views p k md m) (f : FieldDesc) :
    f ∈ m.extensions ↔ ∃ e x, e ∈ md.extensions ∧ p.extensions[e]? = some x ∧ f = x.view := by
  obtain ⟨xs, h1, h2, h3⟩ := hv.exts
  rw [h1, List.mem_map]
  constructor
  · rintro ⟨x, hx, rfl⟩
    obtain ⟨i, hi⟩ := List.getElem?_of_mem hx
    have he := List.getElem?_eq_getElem (h2 ▸ getElem?_lt hi : i < md.extensions.length)
    obtain ⟨x', c1, c2⟩ := h3 i _ he
    rw [hi] at c1; cases c1
    exact ⟨_, x, List.mem_of_getElem? he, c2, rfl⟩
  · rintro ⟨e, x, he, hx, rfl⟩
    obtain ⟨i, hi⟩ := List.getElem?_of_mem he
    obtain ⟨x', c1, c2⟩ := h3 i _ hi
    rw [hx] at c2; cases c2
    exact ⟨x, List.mem_of_getElem? c1, rfl⟩

private theorem enum_view {a b : EnumD} (h : EnumAlike p q a b) : a.view = b.view := by
  unfold EnumD.view
  rw [h.id.full]
  congr 1
  apply List.ext_getElem?
  intro i
  simp only [List.getElem?_map]
  cases ha : a.values[i]? with
  | none =>
    have : a.values.length ≤ i := by simpa using ha
    rw [List.getElem?_eq_none (by rw [← h.values.1]; exact this)]
  | some x =>
    have hb := List.getElem?_eq_getElem (h.values.1 ▸ getElem?_lt ha : i < b.values.length)
    have hv := h.values.2 i _ _ ha hb
    rw [hb]
    simp only [Option.map_some, hv.id.name, hv.number]

/-- Searching two lists that hold the same elements but for numbers finds the same, if at most one is found. -/
theorem find?_ren {A B : List FieldDesc} {r : FieldDesc → FieldDesc} {t : FieldDesc → Bool} (h1 : ∀ f ∈ A, r f ∈ B)
    (h2 : ∀ g ∈ B, ∃ f ∈ A, g = r f) (ht : ∀ f, t (r f) = t f)
    (hu : ∀ g ∈ B, ∀ g' ∈ B, t g = true → t g' = true → g = g') : B.find? t = (A.find? t).map r := by
  cases hA : A.find? t with
  | none =>
    rw [Option.map_none, List.find?_eq_none]
    intro g hg
    obtain ⟨f, hf, rfl⟩ := h2 g hg
    rw [ht]
    exact List.find?_eq_none.1 hA f hf
  | some f =>
    have hf := List.mem_of_find?_eq_some hA
    have tf : t (r f) = true := by rw [ht]; exact List.find?_some hA
    cases hB : B.find? t with
    | none => exact absurd tf (List.find?_eq_none.1 hB _ (h1 f hf))
    | some g =>
      rw [Option.map_some, hu g (List.mem_of_find?_eq_some hB) _ (h1 f hf) (List.find?_some hB) tf]

private theorem flat_of {k : Kind} {w : Value} (h : scalarOk k w = true) : w.holdsNone = true := by
  cases w <;> first | rfl | (cases k <;> simp [scalarOk, Value.isValid] at h)

end

section
variable {env : Env} (hsr : SearchOk env.search) {acc acc' : List FileP} {p q : Pool}
include hsr

private theorem coherent_of (h' : Hist env acc' q) (hsub : ∀ f ∈ acc, f ∈ acc') : Coherent acc acc' := by
  intro f hf g hg he
  have D' := h'.desc hsr
  obtain ⟨i, hi⟩ := List.getElem?_of_mem (hsub f hf)
  obtain ⟨j, hj⟩ := List.getElem?_of_mem hg
  have h1 := D'.filesAre.name_iff.2 ⟨f, hi, he⟩
  have h2 := D'.filesAre.name_iff.2 ⟨g, hj, rfl⟩
  cases h1.symm.trans h2
  exact Option.some.inj (hi.symm.trans hj)

omit hsr in
private theorem shared_at (hsub : ∀ f ∈ acc, f ∈ acc') {i : Nat} {f : FileP} (hi : acc[i]? = some f) :
    ∃ j, Shared acc acc' i j := by
  obtain ⟨j, hj⟩ := List.getElem?_of_mem (hsub f (List.mem_of_getElem? hi))
  exact ⟨j, f, hi, hj⟩

private theorem inBoth_of (h : Hist env acc p) (h' : Hist env acc' q) {i j : Nat} (hs : Shared acc acc' i j) :
    FileInBoth p q i j := by
  obtain ⟨f, g1, g2⟩ := hs
  obtain ⟨fd, f1, _, f2, f3, _⟩ := (h.desc hsr).file_at g1
  refine ⟨fd, f1, (h'.desc hsr).filesAre.name_iff.2 ⟨f, g2, ?_⟩⟩
  rw [f3]; exact (congrArg FileP.name f2).symm

private theorem message_found (h : Hist env acc p) (h' : Hist env acc' q) (hsub : ∀ f ∈ acc, f ∈ acc')
    (hw' : WellNamed acc') {k : Nat} {a : MsgD} (ha : p.messages[k]? = some a) :
    ∃ (k' : Nat) (b : MsgD), q.messages[k']? = some b ∧ MsgAlike p q a b ∧ FileInBoth p q a.id.file b.id.file := by
  obtain ⟨path, full, fi, parent, m, he, h1, _⟩ := (h.desc hsr).message_at ha
  obtain ⟨i, f, s, g1, g2, _⟩ := visited_has he rfl
  have g3 : acc[a.id.file]? = some f := by rw [h1]; show acc[fi]? = _; rw [g1]; simpa using g2
  obtain ⟨j, hj⟩ := shared_at hsub g3
  obtain ⟨k', b, c1, _, c3, c4⟩ := (h.settled hsr).shared_message (coherent_of hsr h' hsub) (h'.settled hsr)
    (fun f hf => hw' f (hsub f hf)) hw' hj ha rfl
  exact ⟨k', b, c1, c4, by rw [c3]; exact inBoth_of hsr h h' hj⟩

private theorem enum_found (h : Hist env acc p) (h' : Hist env acc' q) (hsub : ∀ f ∈ acc, f ∈ acc')
    {k : Nat} {a : EnumD} (ha : p.enums[k]? = some a) :
    ∃ (k' : Nat) (b : EnumD), q.enums[k']? = some b ∧ EnumAlike p q a b := by
  obtain ⟨path, full, fi, parent, m, he, h1, _⟩ := (h.desc hsr).enum_at ha
  obtain ⟨i, f, s, g1, g2, _⟩ := visited_has he rfl
  have g3 : acc[a.id.file]? = some f := by rw [h1]; show acc[fi]? = _; rw [g1]; simpa using g2
  obtain ⟨j, hj⟩ := shared_at hsub g3
  obtain ⟨k', b, c1, _, _, c4⟩ := (h.settled hsr).shared_enum (h'.settled hsr) hj ha rfl
  exact ⟨k', b, c1, c4⟩

private theorem extension_found (h : Hist env acc p) (h' : Hist env acc' q) (hsub : ∀ f ∈ acc, f ∈ acc')
    (hw' : WellNamed acc') {k : Nat} {x : ExtD} (hxk : p.extensions[k]? = some x) :
    ∃ (k' : Nat) (y : ExtD) (j : Nat), q.extensions[k']? = some y ∧ ExtAlike p q x y ∧
      FileInBoth p q x.id.file j := by
  obtain ⟨path, full, fi, parent, f', fd, he, _, _, h1⟩ := (h.desc hsr).extension_at hxk
  obtain ⟨i, f, s, g1, g2, _⟩ := visited_has he rfl
  have g3 : acc[x.id.file]? = some f := by rw [h1.id]; show acc[fi]? = _; rw [g1]; simpa using g2
  obtain ⟨j, hj⟩ := shared_at hsub g3
  obtain ⟨k', b, c1, _, _, c4⟩ := (h.settled hsr).shared_extension (coherent_of hsr h' hsub) (h'.settled hsr)
    (fun f hf => hw' f (hsub f hf)) hw' hj hxk rfl
  exact ⟨k', b, j, c1, c4, inBoth_of hsr h h' hj⟩

/-- **C98, numbers.** Every message of the first pool is in the second. -/
theorem C98_numbers (h : Hist env acc p) (h' : Hist env acc' q) (hsub : ∀ f ∈ acc, f ∈ acc')
    (hw' : WellNamed acc') : ∃ ρ, Numbers p q ρ := by
  classical
  refine ⟨fun k => if hk : k < p.messages.length then
    (message_found hsr h h' hsub hw' (List.getElem?_eq_getElem hk)).choose else k, ?_⟩
  intro k hk
  obtain ⟨b, h1, h2, _⟩ := (message_found hsr h h' hsub hw' (List.getElem?_eq_getElem hk)).choose_spec
  simp only [hk, dif_pos]
  exact ⟨_, ⟨_, List.getElem?_eq_getElem hk, rfl⟩, ⟨b, h1, h2.id.full.symm⟩⟩

/-- Two pools that hold the same files have the same extensions. -/
theorem noMoreExts_of (h : Hist env acc p) (h' : Hist env acc' q) (hsub : ∀ f ∈ acc', f ∈ acc)
    (hw : WellNamed acc) : NoMoreExts p q := by
  intro e y n hy _ _
  obtain ⟨k', x, _, h1, h2, _⟩ := extension_found hsr h' h hsub hw hy
  exact ⟨k', x, h1, h2.id.full.symm⟩

end

section
variable {env : Env} (hsr : SearchOk env.search) (hke : KeepsEntry env) {acc acc' : List FileP} {p q : Pool}
include hsr hke

/-- The two views show the same under other numbers, and the messages have the same names and extensions. -/
theorem views_named (h : Accepts env acc p) (h' : Accepts env acc' q) (hsub : ∀ f ∈ acc, f ∈ acc')
    (hw' : WellNamed acc') (hx : NoMoreExts p q) (hA : Apart q) {S T : Schema} (hS : p.view = .ok S)
    (hT : q.view = .ok T) {ρ : Nat → Nat} (hρ : Numbers p q ρ) :
    ∃ σ, Across S T ρ σ (fun d => d < p.messages.length) ∧
      ∀ d md td, d < p.messages.length → S.msg? d = some md → T.msg? (ρ d) = some td → td.name = md.name ∧
        (∀ f ∈ md.extensions, renField ρ σ f ∈ td.extensions) ∧
        (∀ g ∈ td.extensions, ∃ f ∈ md.extensions, g = renField ρ σ f) ∧
        (∀ g ∈ td.extensions, g.jsonName = '[' :: g.name ++ [']']) ∧
        (∀ g ∈ td.extensions, ∀ g' ∈ td.extensions, g.name = g'.name → g = g') ∧
        (∀ g ∈ td.extensions, ∀ g' ∈ td.extensions, g.number = g'.number → g = g') := by
  have D := h.hist.desc hsr
  have D' := h'.hist.desc hsr
  have hw : WellNamed acc := fun f hf => hw' f (hsub f hf)
  have hc : Coherent acc acc' := coherent_of hsr h'.hist hsub
  have msg : ∀ (k : Nat) a, p.messages[k]? = some a → ∃ b, q.messages[ρ k]? = some b ∧ MsgAlike p q a b ∧
      a.id.fullName = b.id.fullName ∧ FileInBoth p q a.id.file b.id.file := by
    intro k a ha
    obtain ⟨k', b, c1, c4, c5⟩ := message_found hsr h.hist h'.hist hsub hw' ha
    obtain ⟨n, ⟨a', e1, e2⟩, e3⟩ := hρ k (getElem?_lt ha)
    rw [ha] at e1; cases e1
    have : k' = ρ k := message_unique D' (n := n) ⟨b, c1, by rw [← c4.id.full]; exact e2⟩ e3
    subst this
    exact ⟨b, c1, c4, c4.id.full, c5⟩
  have enm := fun (k : Nat) a (ha : p.enums[k]? = some a) => enum_found hsr h.hist h'.hist hsub ha
  have ext := fun (k : Nat) x (hx : p.extensions[k]? = some x) => extension_found hsr h.hist h'.hist hsub hw' hx
  have hσ : ∃ σ : Nat → Nat, ∀ (k : Nat) a, p.enums[k]? = some a → ∃ b, q.enums[σ k]? = some b ∧ EnumAlike p q a b := by
    classical
    refine ⟨fun k => if hk : k < p.enums.length then (enm k _ (List.getElem?_eq_getElem hk)).choose else k, ?_⟩
    intro k a ha
    have hk := getElem?_lt ha
    obtain ⟨b, h1, h2⟩ := (enm k _ (List.getElem?_eq_getElem hk)).choose_spec
    refine ⟨b, ?_, ?_⟩
    · simp only [hk, dif_pos]; exact h1
    · rw [List.getElem?_eq_getElem hk] at ha; cases ha; exact h2
  obtain ⟨σ, hσ⟩ := hσ
  have kind : ∀ k k', KindAlike p q k k' → k' = renKind ρ σ k := by
    intro k k' hk
    cases hk with
    | message hm =>
      obtain ⟨n, h1, h2⟩ := hm
      have h1' := h1
      obtain ⟨a, ha, e1⟩ := h1
      obtain ⟨n', g1, g2⟩ := hρ _ (getElem?_lt ha)
      obtain ⟨a', ha', e2⟩ := g1
      rw [ha] at ha'; cases ha'
      rw [e1] at e2; cases e2
      exact congrArg Kind.message (message_unique D' h2 g2)
    | enum h1 h2 =>
      obtain ⟨a, ha, e1⟩ := h1
      obtain ⟨b, hb, e2⟩ := hσ _ a ha
      exact congrArg Kind.enum (enum_unique D' h2 ⟨b, hb, by rw [← e2.id.full]; exact e1⟩)
    | scalar h1 h2 => cases k <;> first | rfl | exact absurd rfl (h1 _) | exact absurd rfl (h2 _)
  have inner : ∀ (f : FieldDesc) k', KindAlike p q f.kind k' → (∀ v, f.default = some v → v.holdsNone = true) →
      InAcross S T σ (fun d => d < p.messages.length) f := by
    intro f k' hk hd
    obtain ⟨-, eS, -⟩ := view_ok hS
    obtain ⟨-, eT, -⟩ := view_ok hT
    refine ⟨?_, ?_, hd⟩
    · intro i hi
      rw [hi] at hk
      cases hk with
      | message hm => obtain ⟨_, ⟨_, h1, _⟩, _⟩ := hm; exact getElem?_lt h1
      | scalar h1 _ => exact absurd rfl (h1 _)
    · intro e he
      rw [he] at hk
      cases hk with
      | enum h1 _ =>
        obtain ⟨a, ha, _⟩ := h1
        obtain ⟨b, hb, e2⟩ := hσ _ a ha
        rw [eS, eT, List.getElem?_map, List.getElem?_map, ha, hb, Option.map_some, Option.map_some, enum_view e2]
      | scalar _ h1 => exact absurd rfl (h1 _)
  have extv : ∀ x y : ExtD, ExtAlike p q x y → y.view = renField ρ σ x.view := by
    intro x y he
    simp only [ExtD.view, renField, ← he.number, ← he.id.full, ← he.json, ← he.group, ← he.packed, ← he.card,
      ← he.default, kind _ _ he.kind]
  have fldv : ∀ x y : FieldD, FieldAlike p q x y → y.view = renField ρ σ x.view := by
    intro x y he
    simp only [FieldD.view, renField, ← he.number, ← he.id.name, ← he.json, ← he.group, ← he.packed, ← he.card,
      ← he.default, ← he.presence, ← he.oneof, kind _ _ he.kind]
  have exts : ∀ d md td, d < p.messages.length → S.msg? d = some md → T.msg? (ρ d) = some td →
      td.name = md.name ∧ (∀ f ∈ md.extensions, renField ρ σ f ∈ td.extensions) ∧
      (∀ g ∈ td.extensions, ∃ f ∈ md.extensions, g = renField ρ σ f) ∧
      (∀ g ∈ td.extensions, g.jsonName = '[' :: g.name ++ [']']) ∧
      (∀ g ∈ td.extensions, ∀ g' ∈ td.extensions, g.name = g'.name → g = g') ∧
      (∀ g ∈ td.extensions, ∀ g' ∈ td.extensions, g.number = g'.number → g = g') := by
    intro d md td hd hmd htd
    have ha := List.getElem?_eq_getElem hd
    obtain ⟨b, hb, hab, hn, hf⟩ := msg d _ ha
    obtain ⟨md', hmd', hv⟩ := (view_ok hS).2.2 d _ ha
    obtain ⟨td', htd', hv'⟩ := (view_ok hT).2.2 (ρ d) b hb
    rw [hmd] at hmd'; cases hmd'
    rw [htd] at htd'; cases htd'
    refine ⟨by rw [hv.name, hv'.name, hn], ?_, ?_, ?_, ?_, ?_⟩
    · intro f hf
      obtain ⟨e, x, h1, h2, rfl⟩ := (views_mem hv f).1 hf
      obtain ⟨_, _, j, _, _, hj⟩ := ext e x h2
      obtain ⟨e', y, g1, g2, g3⟩ := C97_extends hsr h.hist h' hc hw hw' (h.exts hsr) ha hb hn h1 h2 hj
      rw [← extv _ _ g3]
      exact (views_mem hv' _).2 ⟨e', y, g1, g2, rfl⟩
    · intro g hg
      obtain ⟨e2, y, k1, k2, rfl⟩ := (views_mem hv' g).1 hg
      obtain ⟨_, m1, m2⟩ := ((h'.exts hsr _ b hb).2 e2).1 k1
      rw [k2] at m1; cases m1
      obtain ⟨e', x, hx1, hx2⟩ := hx e2 y b.id.fullName k2 ⟨b, m2 ▸ hb, rfl⟩ ⟨d, _, ha, hn⟩
      obtain ⟨e3, y3, _, c1, c2, _⟩ := ext e' x hx1
      have := extension_unique D' c1 k2 (by rw [← c2.id.full]; exact hx2)
      subst this
      rw [k2] at c1; cases c1
      obtain ⟨n', w1, w2⟩ := c2.extendee
      have w3 : MessageNamed p n' d := by
        obtain ⟨b', v1, v2⟩ := w2
        rw [m2, hb] at v1; cases v1
        exact ⟨_, ha, hn.trans v2⟩
      have hxe : x.extendee = d := message_unique D w1 w3
      exact ⟨x.view, (views_mem hv x.view).2 ⟨e', x, ((h.exts hsr d _ ha).2 e').2 ⟨x, hx1, hxe⟩, hx1, rfl⟩,
        extv _ _ c2⟩
    · intro g hg
      obtain ⟨e2, y, _, k2, rfl⟩ := (views_mem hv' g).1 hg
      obtain ⟨path, full, fi, parent, f', fd, _, _, _, h1⟩ := D'.extension_at k2
      show y.jsonName = '[' :: y.id.fullName ++ [']']
      rw [h1.json, h1.id]
      rfl
    · intro g hg g' hg' he
      obtain ⟨e, y, _, k2, rfl⟩ := (views_mem hv' g).1 hg
      obtain ⟨e', y', _, k2', rfl⟩ := (views_mem hv' g').1 hg'
      have := extension_unique D' k2 k2' he
      subst this
      rw [k2] at k2'; cases k2'; rfl
    · intro g hg g' hg' he
      obtain ⟨e, y, g1, g2, rfl⟩ := (views_mem hv' g).1 hg
      obtain ⟨e2, y2, k1, k2, rfl⟩ := (views_mem hv' g').1 hg'
      obtain ⟨_, l1, l2⟩ := ((h'.exts hsr _ b hb).2 e).1 g1
      rw [g2] at l1; cases l1
      obtain ⟨_, m1, m2⟩ := ((h'.exts hsr _ b hb).2 e2).1 k1
      rw [k2] at m1; cases m1
      have := hA e e2 _ _ g2 k2 (l2.trans m2.symm) he
      subst this
      rw [g2] at k2; cases k2; rfl
  refine ⟨σ, ⟨?_, ?_, ?_⟩, exts⟩
  · intro a b ha hb he
    obtain ⟨n, h1, h2⟩ := hρ a ha
    obtain ⟨n', g1, g2⟩ := hρ b hb
    obtain ⟨m, e1, e2⟩ := h2
    obtain ⟨m', e1', e2'⟩ := g2
    rw [he] at e1
    rw [e1] at e1'; cases e1'
    rw [e2] at e2'; cases e2'
    exact message_unique D h1 g1
  · intro d hd
    have ha := List.getElem?_eq_getElem hd
    obtain ⟨b, hb, hab, hn, hf⟩ := msg d _ ha
    obtain ⟨md, hmd, hv⟩ := (view_ok hS).2.2 d _ ha
    obtain ⟨td, htd, hv'⟩ := (view_ok hT).2.2 (ρ d) b hb
    refine ⟨md, td, hmd, htd, ?_, ?_, ?_⟩
    · have := C97_entry hsr hke h.hist h'.hist hc ha hb hf hab
      rw [hv.entry, hv'.entry] at this
      exact (Except.ok.inj this).symm
    · rw [hv.fields, hv'.fields, List.map_map]
      apply List.ext_getElem?
      intro i
      simp only [List.getElem?_map]
      cases hi : (p.messages[d]).fields[i]? with
      | none =>
        have : (p.messages[d]).fields.length ≤ i := by simpa using hi
        rw [List.getElem?_eq_none (by rw [← hab.fields.1]; exact this)]
        rfl
      | some x =>
        have hy := List.getElem?_eq_getElem (hab.fields.1 ▸ getElem?_lt hi : i < b.fields.length)
        rw [hy]
        simp only [Option.map_some, fldv _ _ (hab.fields.2 i _ _ hi hy), Function.comp]
    · intro n
      obtain ⟨_, x1, x2, _, _, x3⟩ := exts d md td hd hmd htd
      exact find?_ren x1 x2 (fun _ => rfl) fun g hg g' hg' t1 t2 => by
        simp only [beq_iff_eq] at t1 t2
        exact x3 g hg g' hg' (t1.trans t2.symm)
  · intro d md hd hmd f hf
    have ha := List.getElem?_eq_getElem hd
    obtain ⟨b, hb, hab, hn, _⟩ := msg d _ ha
    obtain ⟨md', hmd', hv⟩ := (view_ok hS).2.2 d _ ha
    rw [hmd] at hmd'; cases hmd'
    rcases hf with hf | hf
    · rw [hv.fields, List.mem_map] at hf
      obtain ⟨x, hx, rfl⟩ := hf
      obtain ⟨i, hi⟩ := List.getElem?_of_mem hx
      have hy := List.getElem?_eq_getElem (hab.fields.1 ▸ getElem?_lt hi : i < b.fields.length)
      obtain ⟨_, _, _, _, fd, _, _, _, hF⟩ := D.field_at ha hi
      exact inner x.view _ (hab.fields.2 i _ _ hi hy).kind fun v hv => flat_of (default_ok hF.default v hv)
    · obtain ⟨e, x, _, h2, rfl⟩ := (views_mem hv f).1 hf
      obtain ⟨_, y, _, _, c2, _⟩ := ext e x h2
      obtain ⟨_, _, _, _, _, fd, _, _, _, hF⟩ := D.extension_at h2
      exact inner x.view _ c2.kind fun v hv => flat_of (default_ok hF.default v hv)

/-- The two views show the same under other numbers. -/
theorem views_across (h : Accepts env acc p) (h' : Accepts env acc' q) (hsub : ∀ f ∈ acc, f ∈ acc')
    (hw' : WellNamed acc') (hx : NoMoreExts p q) (hA : Apart q) {S T : Schema} (hS : p.view = .ok S)
    (hT : q.view = .ok T) {ρ : Nat → Nat} (hρ : Numbers p q ρ) :
    ∃ σ, Across S T ρ σ (fun d => d < p.messages.length) := by
  obtain ⟨σ, hX, _⟩ := views_named hsr hke h h' hsub hw' hx hA hS hT hρ
  exact ⟨σ, hX⟩

/-- **C98.** Two pools, each built from its files in any order and in any number of additions; the second has all
files of the first, and no extensions of its messages beyond those of the first. The same bytes are decoded to the
same message or fail alike; the same message has the same bytes and the same length; and two messages are equal in
one pool if they are in the other. Only the numbers of the types differ, `ρ` says how. -/
theorem C98_within (h : Accepts env acc p) (h' : Accepts env acc' q) (hsub : ∀ f ∈ acc, f ∈ acc')
    (hw' : WellNamed acc') (hx : NoMoreExts p q) (hA : Apart q) {S T : Schema} (hS : p.view = .ok S)
    (hT : q.view = .ok T) {ρ : Nat → Nat} (hρ : Numbers p q ρ) :
    (∀ d b, d < p.messages.length → decode T (ρ d) b = (decode S d b).map (renMsg ρ)) ∧
    (∀ d b m, d < p.messages.length → decode S d b = .ok m → OfPool p m) ∧
    (∀ m, OfPool p m → ∀ b, merge T (renMsg ρ m) b = (merge S m b).map (renMsg ρ)) ∧
    (∀ m, OfPool p m → encMsg T (renMsg ρ m) = encMsg S m ∧ lenMsg T (renMsg ρ m) = lenMsg S m) ∧
    (∀ m m', OfPool p m → OfPool p m' → (renMsg ρ m).beq (renMsg ρ m') = m.beq m') := by
  obtain ⟨σ, hX⟩ := views_across hsr hke h h' hsub hw' hx hA hS hT hρ
  exact ⟨fun d b hd => hX.decode hd b, fun d b m hd hm => (hX.self.decode hd b).2 m hm,
    fun m hm b => hX.merge hm b, fun m hm => ⟨hX.encMsg hm, hX.lenMsg hm⟩, fun m m' hm hm' => hX.beqMsg hm hm'⟩

/-- The messages spoken of include all that conform to the types of the pool, and all that are decoded. -/
theorem C98_conforming (h : Accepts env acc p) (h' : Accepts env acc' q) (hsub : ∀ f ∈ acc, f ∈ acc')
    (hw' : WellNamed acc') (hx : NoMoreExts p q) (hA : Apart q) {S : Schema} (hS : p.view = .ok S) (m : DynMsg)
    (hm : confMsg S m = true) : OfPool p m := by
  obtain ⟨T, hT⟩ := C68_total hsr h'
  obtain ⟨ρ, hρ⟩ := C98_numbers hsr h.hist h'.hist hsub hw'
  obtain ⟨σ, hX⟩ := views_across hsr hke h h' hsub hw' hx hA hS hT hρ
  obtain ⟨md, hC⟩ := confMsg_iff.1 hm
  obtain ⟨_, h1, _⟩ := view_msg hS hC.desc
  exact hX.self.within hm (getElem?_lt h1)

/-- **C98, order.** Two pools that hold the same files, each in its own order and added in its own portions, read
and write messages alike. -/
theorem C98_order (h : Accepts env acc p) (h' : Accepts env acc' q) (hp : acc.Perm acc') (hw : WellNamed acc)
    (hA : Apart q) : ∃ S T ρ, p.view = .ok S ∧ q.view = .ok T ∧ Numbers p q ρ ∧
    (∀ d b, d < p.messages.length → decode T (ρ d) b = (decode S d b).map (renMsg ρ)) ∧
    (∀ m, OfPool p m → encMsg T (renMsg ρ m) = encMsg S m ∧ lenMsg T (renMsg ρ m) = lenMsg S m) ∧
    (∀ m m', OfPool p m → OfPool p m' → (renMsg ρ m).beq (renMsg ρ m') = m.beq m') := by
  obtain ⟨S, hS⟩ := C68_total hsr h
  obtain ⟨T, hT⟩ := C68_total hsr h'
  have hsub : ∀ f ∈ acc, f ∈ acc' := fun f hf => hp.mem_iff.1 hf
  have hw' : WellNamed acc' := fun f hf => hw f (hp.mem_iff.2 hf)
  obtain ⟨ρ, hρ⟩ := C98_numbers hsr h.hist h'.hist hsub hw'
  have hx := noMoreExts_of hsr h.hist h'.hist (fun f hf => hp.mem_iff.2 hf) hw
  obtain ⟨h1, _, _, h2, h3⟩ := C98_within hsr hke h h' hsub hw' hx hA hS hT hρ
  exact ⟨S, T, ρ, hS, hT, hρ, h1, h2, h3⟩

end

/-! ### Examples -/

/-- Every extension of the second pool is in the first, told by its name. -/
def noMoreExts (p q : Pool) : Bool := q.extensions.all fun y => p.extensions.any fun x => x.id.fullName == y.id.fullName

theorem noMoreExts_ok {p q : Pool} (h : noMoreExts p q = true) : NoMoreExts p q := by
  intro e y _ hy _ _
  simp only [noMoreExts, List.all_eq_true, List.any_eq_true, beq_iff_eq] at h
  obtain ⟨x, hx, he⟩ := h y (List.mem_of_getElem? hy)
  obtain ⟨i, hi⟩ := List.getElem?_of_mem hx
  exact ⟨i, x, hi, he⟩

/-- Message `c.P` with a message and an extension inside, in the two pools below: the bytes decode, and to messages
whose types have other numbers. -/
def acrossShown (p q : Pool) : Bool :=
  noMoreExts p q && apart q && p.messageByName (nm "c.P") == some 2 && q.messageByName (nm "c.P") == some 4 &&
  match p.view, q.view with
  | .ok S, .ok T =>
    (match decode S 2 [10, 6, 8, 1, 162, 6, 1, 65], decode T 4 [10, 6, 8, 1, 162, 6, 1, 65] with
      | .ok m, .ok m' =>
        m.beq ⟨2, [(1, .val (.msg 0 [(1, .val (.i32 1)), (100, .val (.str [65]))]))]⟩ &&
        m'.beq ⟨4, [(1, .val (.msg 2 [(1, .val (.i32 1)), (100, .val (.str [65]))]))]⟩
      | _, _ => false)
  | _, _ => false

/-- The premises are met. -/
example : ∃ p q S T ρ, Accepts env0 [fileA, fileB] p ∧ Accepts env0 [fileAside, fileA, fileB] q ∧
    p.view = .ok S ∧ q.view = .ok T ∧ Numbers p q ρ ∧ acrossShown p q = true ∧
    ∀ d b, d < p.messages.length → decode T (ρ d) b = (decode S d b).map (renMsg ρ) := by
  obtain ⟨p, q, h1, h2, _, h3⟩ := shared_ex (bs := [[fileA, fileB]]) (bs' := [[fileAside, fileA], [fileB]])
    acrossShown (by decide +kernel) (by simp) (by decide +kernel)
  have hw : WellNamed [fileAside, fileA, fileB] := wellNamed_ok (by decide +kernel)
  have hsub : ∀ f ∈ [fileA, fileB], f ∈ [fileAside, fileA, fileB] := by simp
  obtain ⟨ρ, hρ⟩ := C98_numbers linearSearch_ok h1.hist h2.hist hsub hw
  obtain ⟨S, hS⟩ := C68_total linearSearch_ok h1
  obtain ⟨T, hT⟩ := C68_total linearSearch_ok h2
  have h4 := h3
  simp only [acrossShown, Bool.and_eq_true] at h4
  exact ⟨p, q, S, T, ρ, h1, h2, hS, hT, hρ, h3, (C98_within linearSearch_ok env0_keeps h1 h2 hsub hw
    (noMoreExts_ok h4.1.1.1.1) (apart_ok h4.1.1.1.2) hS hT hρ).1⟩

/-- So are those of the theorem about the order. -/
example : ∃ p q, Accepts env0 [fileA, fileB, fileAside] p ∧ Accepts env0 [fileAside, fileA, fileB] q ∧
    [fileA, fileB, fileAside].Perm [fileAside, fileA, fileB] ∧ WellNamed [fileA, fileB, fileAside] ∧ Apart q := by
  obtain ⟨p, q, h1, h2, _, h3⟩ := shared_ex (bs := [[fileA, fileB], [fileAside]]) (bs' := [[fileAside, fileA], [fileB]])
    (fun _ q => apart q) (by decide +kernel) (by simp) (by decide +kernel)
  exact ⟨p, q, h1, h2, (List.perm_append_comm : ([fileA, fileB] ++ [fileAside]).Perm ([fileAside] ++ [fileA, fileB])),
    wellNamed_ok (by decide +kernel), apart_ok h3⟩

/-- `message M { extensions 100 to 199; }` -/
def fileRange : FileP where
  name := nm "range.proto"
  messages := [{ name := nm "M", extRanges := [(100, 200)] }]

/-- `import "range.proto"; extend M { optional int32 one = 100; }` -/
def fileOne : FileP where
  name := nm "one.proto"
  deps := [nm "range.proto"]
  exts := [{ name := nm "one", number := 100, ty := .int32, extendee := some (nm "M") }]

/-- `import "range.proto"; extend M { optional string two = 100; }` -/
def fileTwo : FileP where
  name := nm "two.proto"
  deps := [nm "range.proto"]
  exts := [{ name := nm "two", number := 100, ty := .string, extendee := some (nm "M") }]

/-- **C98 fails** without `Apart`: two files give an extension of `M` the same number, and the pool takes both. Which
of them the bytes are read by depends on which file was added first: the same bytes decode in one pool and fail in
the other. -/
theorem C98_apart_false : ∃ p q, Accepts env0 [fileRange, fileOne, fileTwo] p ∧
    Accepts env0 [fileRange, fileTwo, fileOne] q ∧ WellNamed [fileRange, fileOne, fileTwo] ∧
    p.messageByName (nm "M") = some 0 ∧ q.messageByName (nm "M") = some 0 ∧ ∃ S T, p.view = .ok S ∧ q.view = .ok T ∧
      decode S 0 [160, 6, 1] = .ok ⟨0, [(100, .val (.i32 1))]⟩ ∧ ∃ e, decode T 0 [160, 6, 1] = .error e := by
  obtain ⟨p, q, h1, h2, _, h3⟩ := shared_ex (bs := [[fileRange, fileOne, fileTwo]])
    (bs' := [[fileRange, fileTwo, fileOne]]) (fun p q => p.messageByName (nm "M") == some 0 &&
      q.messageByName (nm "M") == some 0 && match p.view, q.view with
      | .ok S, .ok T =>
        (match decode S 0 [160, 6, 1], decode T 0 [160, 6, 1] with
          | .ok m, .error _ => (match m with | ⟨0, [(100, .val (.i32 1))]⟩ => true | _ => false)
          | _, _ => false)
      | _, _ => false) (by decide +kernel) (by simp) (by decide +kernel)
  simp only [Bool.and_eq_true, beq_iff_eq] at h3
  obtain ⟨⟨h3, h4⟩, h5⟩ := h3
  refine ⟨p, q, h1, h2, wellNamed_ok (by decide +kernel), h3, h4, ?_⟩
  split at h5
  · next S T hS hT =>
    refine ⟨S, T, hS, hT, ?_⟩
    split at h5
    · next m e hm he =>
      split at h5
      · exact ⟨hm, e, he⟩
      · cases h5
    · cases h5
  · cases h5

end Verif.Props
