import Verif.Reflect.Std
/-!
From the declarations to the schema that dynamic messages see.
-/
set_option autoImplicit false
namespace Verif.Reflect
open Verif.Wire Verif.Dyn Verif.Pool Verif.Props Verif.Json

/-- Message `d` of the schema has the name of message `i` of the table. -/
def SameName (S : Schema) (d i : Nat) : Prop :=
  ∃ md td, S.msg? d = some md ∧ stdSchema.msg? i = some td ∧ md.name = td.name

/-- Every extension names the message it extends. -/
def ExtendeesGiven (acc : List FileP) : Prop :=
  ∀ (j : Nat) g path s x, acc[j]? = some g → Has g path s (.extension x) → x.extendee ≠ none

section
variable {env : Env} (hsr : SearchOk env.search) {acc : List FileP} {p : Pool} {S : Schema}
include hsr

theorem no_extensions (h : Accepts env acc p) (hx : ExtendeesGiven acc) {k : Nat} {md : MsgD} {x y : MsgP}
    (hk : p.messages[k]? = some md) (hs : Stands acc p md.id (.message x) (.message y))
    (hr : x.extRanges = []) : md.extensions = [] := by
  rw [List.eq_nil_iff_forall_not_mem]
  intro e he
  obtain ⟨d, h1, h2⟩ := ((h.exts hsr k md hk).2 e).1 he
  obtain ⟨x', y', md', m, z, ⟨f1, _, s1, k1, _, k3, _⟩, _, g1, ⟨f2, _, s2, l1, _, l3, _⟩, _, _, _, _, g2⟩ :=
    C25_extensions hsr h.hist h1
  rw [h2, hk] at g1; cases g1
  obtain ⟨f, _, s, m1, _, m3, _⟩ := hs
  rw [m1] at l1; cases l1
  have := l3.found.unique m3.found rfl
  cases this
  obtain ⟨r, hr', _⟩ := g2 (hx _ _ _ _ _ k1 k3)
  rw [hr] at hr'; cases hr'

omit hsr in
theorem presence_like {syn : Syn} {x : FieldP} {k k' : Kind} {g : Bool}
    (h : (∃ i j, k = .message i ∧ k' = .message j) ∨ (∃ i j, k = .enum i ∧ k' = .enum j) ∨ k = k') :
    supportsPresence syn x (some (k, g)) = supportsPresence syn x (some (k', false)) := by
  rcases h with ⟨i, j, rfl, rfl⟩ | ⟨i, j, rfl, rfl⟩ | rfl
  · rfl
  · rfl
  · cases k <;> rfl

omit hsr in
theorem packed_like {syn : Syn} {x : FieldP} {k k' : Kind} {g : Bool}
    (h : (∃ i j, k = .message i ∧ k' = .message j) ∨ (∃ i j, k = .enum i ∧ k' = .enum j) ∨ k = k') :
    isPacked syn x (some (k, g)) = isPacked syn x (some (k', false)) := by
  rcases h with ⟨i, j, rfl, rfl⟩ | ⟨i, j, rfl, rfl⟩ | rfl <;> rfl

omit hsr in
theorem map_ofNat_inj {a b : Option Nat} (h : a.map Int.ofNat = b.map Int.ofNat) : a = b := by
  cases a <;> cases b <;> simp_all <;> omega

/-- The messages of the schema with the name of one in the table have the same fields. -/
theorem same_fields (hk : KeepsEntry env) (h : Accepts env acc p) (hS : p.view = .ok S)
    (hstd : Standard acc) (hx : ExtendeesGiven acc) {d i : Nat} (hR : SameName S d i) :
    ∃ md td, S.msg? d = some md ∧ stdSchema.msg? i = some td ∧ td.mapEntry = md.mapEntry ∧
      md.extensions = [] ∧ td.extensions = [] ∧ Sims (SameName S) md.fields td.fields := by
  have hD := h.hist.desc hsr
  obtain ⟨md, td, h1, h2, h3⟩ := hR
  obtain ⟨_, _, hview⟩ := view_ok hS
  obtain ⟨mD, hm, hV⟩ := view_msg hS h1
  obtain ⟨path, full, fi, parent, m, he, hid, hl, _, hf⟩ := hD.fields_of hm
  obtain ⟨y, hst⟩ := hD.stands he rfl hid
  have hyy : ∃ y', y = .message y' := by
    obtain ⟨_, _, _, _, _, _, _, h5, _⟩ := hst
    cases y <;> simp only [Item.strip, reduceCtorEq, Item.message.injEq] at h5
    exact ⟨_, rfl⟩
  obtain ⟨y', rfl⟩ := hyy
  have hfi : mD.id.file = fi := by rw [hid]; rfl
  obtain ⟨f, fd, s, a1, a2, a3, a4, a5, a6, a7⟩ := id hst
  obtain ⟨f', b1, b2, _⟩ := hD.file_inv a2
  rw [a1] at b1; cases b1
  have hn : qualified s m.name = td.name := by
    rw [← h3, hV.name, a6]; rfl
  have hlike := hstd.message _ _ _ _ _ _ _ _ a1 a3 b2 h2 hn
  obtain ⟨c1, c2⟩ := std_plain h2
  refine ⟨md, td, h1, h2, ?_, ?_, c1, ?_, ?_⟩
  · have := hk
    have he := Hist.entry hsr hk h.hist hm hst
    rw [hV.entry] at he
    simp only [Except.ok.injEq] at he
    rw [he, hlike.entry]
  · obtain ⟨xs, e1, e2, _⟩ := hV.exts
    rw [no_extensions hsr h hx hm hst hlike.ranges] at e2
    rw [e1, List.eq_nil_of_length_eq_zero e2]; rfl
  · rw [hV.fields, List.length_map, hl, hlike.length]
  · intro j fv g hfv hg
    rw [hV.fields, List.getElem?_map] at hfv
    obtain ⟨d', hd', rfl⟩ := Option.map_eq_some_iff.1 hfv
    have hlt : j < m.fields.length := hl ▸ getElem?_lt hd'
    have hx' := List.getElem?_eq_getElem hlt
    generalize m.fields[j] = x at hx'
    obtain ⟨fd', d'', e1, e2, _, hI⟩ := hf j x hx'
    rw [hd'] at e2; cases e2
    rw [hfi] at a2
    rw [a2] at e1; cases e1
    have hF := hlike.fields j x g hx' hg
    obtain ⟨c3, c4, c5⟩ := c2 g (List.mem_of_getElem? hg)
    obtain ⟨md2, d2, n1, n2, hnm⟩ := full_named hsr h.hist _ ((visit_full acc {} _ he).1 j x hx')
    rw [hm] at n1; cases n1
    rw [hd'] at n2; cases n2
    have hkind : ((∃ i j, d'.kind = .message i ∧ g.kind = .message j ∧ SameName S i j) ∨
        (∃ i j, d'.kind = .enum i ∧ g.kind = .enum j) ∨ (d'.kind = g.kind ∧ d'.kind.plain = true)) ∧
        d'.group = false := by
      have hT := hF.type
      have hK := hI.kind
      generalize hkd : d'.kind = kd at hK hnm
      generalize hgd : d'.group = gd at hK
      cases hgk : g.kind with
      | message i' =>
        rw [hgk] at hT
        obtain ⟨td', t1, t2, t3⟩ := hT
        have := hnm _ t2
        cases hK with
        | scalar k h0 _ => rw [h0] at t2; cases t2
        | message t _ _ =>
          obtain ⟨mD', u1, u2⟩ := this
          obtain ⟨m', u3, u4⟩ := hview _ _ u1
          exact ⟨.inl ⟨t, i', rfl, rfl, m', td', u3, t1, u4.name.trans u2⟩, decide_eq_false t3⟩
        | enum t _ _ =>
          obtain ⟨eD, u1, u2⟩ := this
          obtain ⟨x', ⟨f1, _, s1, v1, _, v3, _, _, v6, _⟩, _⟩ := hD.enum_stands u1
          exact absurd (v6.symm.trans u2) (hstd.noEnum _ _ _ _ _ _ _ v1 v3 t1)
      | enum e =>
        rw [hgk] at hT
        have := hnm _ hT
        cases hK with
        | scalar k h0 _ => rw [TypeIs, h0] at hT; cases hT
        | message t _ _ =>
          obtain ⟨eD, u1, u2⟩ := this
          obtain ⟨x', _, ⟨f1, _, s1, v1, _, v3, _, _, v6, _⟩, _⟩ := hD.message_stands u1
          exact absurd (v6.symm.trans u2) (hstd.null _ _ _ _ _ v1 v3)
        | enum t _ _ => exact ⟨.inr (.inl ⟨t, e, rfl, rfl⟩), rfl⟩
      | _ =>
        rw [hgk] at hT
        obtain ⟨t1, t2⟩ := hT
        cases hK with
        | scalar k _ h0 =>
          rw [t2, Option.some.injEq] at h0
          subst h0
          exact ⟨.inr (.inr ⟨rfl, rfl⟩), rfl⟩
        | message t hne _ => exact absurd t1 hne
        | enum t hne _ => exact absurd t1 hne
    obtain ⟨hkd, hgrp⟩ := hkind
    have hkd' : (∃ i j, d'.kind = .message i ∧ g.kind = .message j) ∨
        (∃ i j, d'.kind = .enum i ∧ g.kind = .enum j) ∨ d'.kind = g.kind := by
      rcases hkd with ⟨i, j, u1, u2, _⟩ | hkd | ⟨hkd, _⟩
      · exact .inl ⟨i, j, u1, u2⟩
      · exact .inr (.inl hkd)
      · exact .inr (.inr hkd)
    refine ⟨?_, hI.card.trans hF.card, ?_, ?_, hgrp.trans c3.symm, ?_, c4, ?_, hkd, c5⟩
    · have := hI.number.trans hF.number
      show d'.number = g.number
      omega
    · exact (hI.presence.trans (presence_like hkd')).trans hF.presence
    · exact (hI.packed.trans (packed_like hkd')).trans hF.packed
    · have := hI.default
      rw [hF.default] at this
      exact this
    · exact map_ofNat_inj (hI.oneof.trans hF.oneof)

/-- The names of the messages of a schema are distinct. -/
theorem sameName_left (h : Accepts env acc p) (hS : p.view = .ok S) {d d' i : Nat} (h1 : SameName S d i)
    (h2 : SameName S d' i) : d = d' := by
  obtain ⟨md, td, a1, a2, a3⟩ := h1
  obtain ⟨md', td', b1, b2, b3⟩ := h2
  rw [a2] at b2; cases b2
  obtain ⟨m, c1, c2⟩ := view_msg hS a1
  obtain ⟨m', c3, c4⟩ := view_msg hS b1
  have e1 := (C18_message hsr h.hist ('.' :: td.name) d).2 ⟨m, c1, by rw [← c2.name, a3]; rfl⟩
  have e2 := (C18_message hsr h.hist ('.' :: td.name) d').2 ⟨m', c3, by rw [← c4.name, b3]; rfl⟩
  exact Option.some.inj (e1.symm.trans e2)

omit hsr in
theorem sameName_right {d i i' : Nat} (h1 : SameName S d i) (h2 : SameName S d i') : i = i' := by
  obtain ⟨md, td, a1, a2, a3⟩ := h1
  obtain ⟨md', td', b1, b2, b3⟩ := h2
  rw [a1] at b1; cases b1
  exact nodup_map_get std_names a2 b2 (a3.symm.trans b3)

omit hsr in
theorem wkt_index : ∀ w ∈ Wkt.all, (stdSchema.msg? w.std).map (·.name) = some w.name := by decide +kernel

omit hsr in
theorem wkt_mem (w : Wkt) : w ∈ Wkt.all := by cases w <;> decide

/-- **The schema shown by the pool declares the well-known types as the table does.** -/
theorem std_like (hk : KeepsEntry env) (h : Accepts env acc p) (hS : p.view = .ok S)
    (hstd : Standard acc) (hx : ExtendeesGiven acc) : StdLike S := by
  classical
  intro d md w hmd hw
  obtain ⟨hw1, hw2⟩ : w ∈ Wkt.all ∧ w.name = md.name :=
    ⟨wkt_mem w, by have := List.find?_some hw; exact eq_of_beq this⟩
  obtain ⟨td, t1, t2⟩ := Option.map_eq_some_iff.1 (wkt_index w hw1)
  have hR : SameName S d w.std := ⟨md, td, hmd, t1, hw2.symm.trans t2.symm⟩
  let ρ : Nat → Nat := fun d => if h : ∃ i, SameName S d i then h.choose else 0
  let σ : Nat → Nat := fun i => if h : ∃ d, SameName S d i then h.choose else 0
  have hρ : ∀ d i, SameName S d i → ρ d = i := by
    intro d i hh
    have hex : ∃ i, SameName S d i := ⟨i, hh⟩
    show (if h : ∃ i, SameName S d i then h.choose else 0) = i
    rw [dif_pos hex]
    exact sameName_right hex.choose_spec hh
  have hσ : ∀ d i, SameName S d i → σ i = d := by
    intro d i hh
    have hex : ∃ d, SameName S d i := ⟨d, hh⟩
    show (if h : ∃ d, SameName S d i then h.choose else 0) = d
    rw [dif_pos hex]
    exact sameName_left hsr h hS hex.choose_spec hh
  refine ⟨ρ, σ, fun d => ∃ i, SameName S d i, fun i => ∃ d, SameName S d i, ⟨?_⟩, ⟨?_⟩, ⟨_, hR⟩, hρ _ _ hR,
    ⟨_, hR⟩, ?_⟩
  · rintro d ⟨i, hi⟩
    obtain ⟨md, td, e1, e2, e3, e4, e5, e6⟩ := same_fields hsr hk h hS hstd hx hi
    refine ⟨md, td, e1, by rw [hρ _ _ hi]; exact e2, e3, e4, e5, fun n => ?_⟩
    rcases e6.find n with hh | ⟨f, g, g1, g2, g3⟩
    · exact .inl hh
    · exact .inr ⟨f, g, g1, g2, g3.left fun i j hij => ⟨⟨j, hij⟩, (hρ _ _ hij).symm⟩,
        fun k => by rw [siblings_eq e6 g3]⟩
  · rintro i ⟨d, hd⟩
    obtain ⟨md, td, e1, e2, e3, e4, e5, e6⟩ := same_fields hsr hk h hS hstd hx hd
    refine ⟨td, md, e2, by rw [hσ _ _ hd]; exact e1, e3.symm, e5, e4, fun n => ?_⟩
    rcases e6.find n with ⟨g1, g2⟩ | ⟨f, g, g1, g2, g3⟩
    · exact .inl ⟨g2, g1⟩
    · exact .inr ⟨g, f, g2, g1, g3.right fun i j hij => ⟨⟨i, hij⟩, (hσ _ _ hij).symm⟩,
        fun k => by rw [siblings_eq e6 g3]⟩
  · rintro d ⟨i, hi⟩
    rw [hρ _ _ hi, hσ _ _ hi]

end
end Verif.Reflect
