import Verif.Props.PoolView
import Verif.Props.TextRound
import Verif.Props.TextSafe
import Verif.Props.JsonRound
import Verif.Props.JsonSafe
import Verif.Props.Binary
/-!
C68, continued, and C69: messages of a pool's types through bytes, text and JSON.

What a pool itself ensures about names is proved from the additions alone (`C68_names`).  What text
and JSON need beyond that is stated about the declarations, as `Named`, `Keyed`, `Crossless` and `Apart`.
-/
set_option autoImplicit false
namespace Verif.Props
open Verif.Wire Verif.Dyn Verif.Pool Verif.Text Verif.Json

section
variable {env : Env} (hsr : SearchOk env.search) {acc : List FileP} {p : Pool}
include hsr

/-! ### What the pool ensures -/

/-- The extensions of a message as the pool holds them. -/
theorem view_ext (h : Accepts env acc p) {S : Schema} (hS : p.view = .ok S) {k : Nat} {m : MsgDesc}
    (hm : S.msg? k = some m) : ∃ xs : List Nat, xs.Nodup ∧ m.extensions.length = xs.length ∧
      ∀ (i : Nat) f, m.extensions[i]? = some f → ∃ e d, xs[i]? = some e ∧ p.extensions[e]? = some d ∧
        f = d.view ∧ d.extendee = k := by
  obtain ⟨md, hk, hv⟩ := view_msg hS hm
  obtain ⟨xs, hx, hl, hxe⟩ := hv.exts
  obtain ⟨hnd, hex⟩ := h.exts hsr k md hk
  refine ⟨md.extensions, hnd.imp fun h => Nat.ne_of_lt h, by rw [hx, List.length_map, hl], fun i f hf => ?_⟩
  rw [hx, List.getElem?_map, Option.map_eq_some_iff] at hf
  obtain ⟨x, hi, rfl⟩ := hf
  have hlt : i < md.extensions.length := hl ▸ getElem?_lt hi
  obtain ⟨x', a1, a2⟩ := hxe i _ (List.getElem?_eq_getElem hlt)
  rw [hi] at a1; cases a1
  obtain ⟨d, b1, b2⟩ := (hex _).1 (List.getElem_mem hlt)
  rw [a2] at b1; cases b1
  exact ⟨_, x, List.getElem?_eq_getElem hlt, a2, rfl, b2⟩

/-- Extensions of a pool are told apart by their full names. -/
theorem ext_unique (h : Hist env acc p) {e e' : Nat} {d d' : ExtD} (he : p.extensions[e]? = some d)
    (he' : p.extensions[e']? = some d') (hn : d.id.fullName = d'.id.fullName) : e = e' := by
  have h1 := (C18_extension hsr h ('.' :: d.id.fullName) e).2 ⟨d, he, rfl⟩
  have h2 := (C18_extension hsr h ('.' :: d.id.fullName) e').2 ⟨d', he', hn.symm⟩
  rw [h1] at h2; exact Option.some.inj h2

/-- **C68, names.** In what a pool shows, the fields of a message have distinct names and distinct JSON
names, its extensions have distinct names and distinct JSON names, and the values of an enum have
distinct names. -/
theorem C68_names (h : Accepts env acc p) {S : Schema} (hS : p.view = .ok S) :
    (∀ m ∈ S.msgs, (m.fields.map (·.name)).Nodup ∧ (m.fields.map (·.jsonName)).Nodup ∧
      (m.extensions.map (·.name)).Nodup ∧ (m.extensions.map (·.jsonName)).Nodup ∧
      ∀ f ∈ m.extensions, f.jsonName = ['['] ++ f.name ++ [']']) ∧
    ∀ e ∈ S.enums, (e.values.map (·.1)).Nodup := by
  have hH := h.hist
  refine ⟨fun m hmem => ?_, fun e hmem => ?_⟩
  · obtain ⟨k, hm⟩ := List.getElem?_of_mem hmem
    have hm : S.msg? k = some m := hm
    obtain ⟨md, hk, hv⟩ := view_msg hS hm
    obtain ⟨_, h2, h3, _⟩ := C27_lookups hsr hH hk
    obtain ⟨xs, hnd, hxl, hx⟩ := view_ext hsr h hS hm
    have hjson : ∀ f ∈ m.extensions, f.jsonName = ['['] ++ f.name ++ [']'] := by
      intro f hf
      obtain ⟨i, hi⟩ := List.getElem?_of_mem hf
      obtain ⟨e, d, _, he, rfl, _⟩ := hx i f hi
      exact C45_extensions hsr hH he
    have hext : (m.extensions.map (·.name)).Nodup := by
      refine nodup_map_of_inj fun i j a b ha hb hab => ?_
      obtain ⟨e, d, x1, he, rfl, _⟩ := hx i a ha
      obtain ⟨e', d', x2, he', rfl, _⟩ := hx j b hb
      have := ext_unique hsr hH he he' hab
      subst this
      rcases Nat.lt_trichotomy i j with hlt | heq | hgt
      · exact absurd rfl (pairwise_get hnd hlt x1 x2)
      · exact heq
      · exact absurd rfl (pairwise_get hnd hgt x2 x1)
    refine ⟨?_, ?_, hext, ?_, hjson⟩
    · rw [hv.fields, List.map_map]
      refine nodup_map_of_inj fun i j a b ha hb hab => ?_
      have e1 := (h2 a.id.name i).2 ⟨a, ha, rfl⟩
      have e2 := (h2 a.id.name j).2 ⟨b, hb, hab.symm⟩
      rw [e1] at e2; exact Option.some.inj e2
    · rw [hv.fields, List.map_map]
      refine nodup_map_of_inj fun i j a b ha hb hab => ?_
      have e1 := (h3 a.jsonName i).2 ⟨a, ha, rfl⟩
      have e2 := (h3 a.jsonName j).2 ⟨b, hb, hab.symm⟩
      rw [e1] at e2; exact Option.some.inj e2
    · have : m.extensions.map (·.jsonName) = (m.extensions.map (·.name)).map (fun n => ['['] ++ n ++ [']']) := by
        rw [List.map_map]
        exact List.map_congr_left hjson
      rw [this]
      refine List.Pairwise.map _ ?_ hext
      intro a b hab heq
      exact hab (by simpa using heq)
  · obtain ⟨k, hk⟩ := List.getElem?_of_mem hmem
    rw [(view_ok hS).2.1, List.getElem?_map, Option.map_eq_some_iff] at hk
    obtain ⟨ed, hk, rfl⟩ := hk
    obtain ⟨x, _, _, hok, _⟩ := (hH.desc hsr).values_of hk
    have hn := hok.names
    rw [List.take_length] at hn
    simp only [EnumD.view, List.map_map]
    refine nodup_map_of_inj fun i j a b ha hb hab => ?_
    have e1 := (hn a.id.name i).2 ⟨a, ha, rfl⟩
    have e2 := (hn a.id.name j).2 ⟨b, hb, hab.symm⟩
    rw [e1] at e2; exact Option.some.inj e2

/-! ### Enum numbers -/

omit hsr in
/-- `EnumDescriptor::get_value(n)` and the name of what it finds (api.rs:1482-1491), for the enum that
looks like `e`. -/
def enumNameIn (env : Env) (p : Pool) (e : EnumDesc) (n : BitVec 32) : Option Name :=
  match p.enums.find? (fun d => d.view.name == e.name && d.view.values == e.values) with
  | some d =>
    match d.value? env n.toInt with
    | .ok (some i) => (d.values[i]?).map (·.id.name)
    | _ => none
  | none => none

theorem enumNameIn_mem (h : Hist env acc p) {e : EnumDesc} {n : BitVec 32} {s : Name}
    (hs : enumNameIn env p e n = some s) : (s, n) ∈ e.values := by
  unfold enumNameIn at hs
  split at hs
  · next d hd =>
    have hmem := List.mem_of_find?_eq_some hd
    have hlike := List.find?_some hd
    simp only [Bool.and_eq_true, beq_iff_eq] at hlike
    obtain ⟨k, hk⟩ := List.getElem?_of_mem hmem
    obtain ⟨x, _, _, hok, hl, _, hv⟩ := (h.desc hsr).values_of hk
    split at hs
    · next i hi =>
      obtain ⟨v, hv1, rfl⟩ := Option.map_eq_some_iff.1 hs
      rw [← hlike.2]
      refine List.mem_map.2 ⟨v, List.mem_of_getElem? hv1, ?_⟩
      have hnum : v.number = n.toInt := by
        unfold EnumD.value? at hi
        split at hi
        · cases hi
        · next a hs =>
          obtain ⟨j, hj⟩ := hsr.hit _ _ _ hok.asc hs
          simp only [hj, Except.ok.injEq, Option.some.injEq] at hi
          subst hi
          obtain ⟨w, w1, w2⟩ := (hok.numbers _).1 (List.mem_of_getElem? hj)
          rw [List.take_length] at w1
          rw [hv1] at w1; cases w1
          exact w2
      rw [hnum, BitVec.ofInt_toInt]
    · cases hs
  · cases hs

/-- **C68, enum numbers.** The name found for a number is the one that `get_value` of the enum gives. -/
theorem C68_number (h : Hist env acc p) {k : Nat} {ed : EnumD} (hk : p.enums[k]? = some ed) (n : BitVec 32) :
    ∃ r, ed.value? env n.toInt = .ok r ∧
      enumNameIn env p ed.view n = r.bind fun i => (ed.values[i]?).map (·.id.name) := by
  obtain ⟨x, _, hval, _⟩ := C26_enum hsr h hk
  obtain ⟨r, hr, _⟩ := hval n.toInt
  refine ⟨r, hr, ?_⟩
  have : p.enums.find? (fun d => d.view.name == ed.view.name && d.view.values == ed.view.values) = some ed := by
    cases hf : p.enums.find? (fun d => d.view.name == ed.view.name && d.view.values == ed.view.values) with
    | none =>
      have := List.find?_eq_none.1 hf ed (List.mem_of_getElem? hk)
      simp at this
    | some d =>
      have hlike := List.find?_some hf
      simp only [Bool.and_eq_true, beq_iff_eq] at hlike
      obtain ⟨k', hk'⟩ := List.getElem?_of_mem (List.mem_of_find?_eq_some hf)
      have h1 := (C18_enum hsr h ('.' :: ed.id.fullName) k).2 ⟨ed, hk, rfl⟩
      have h2 := (C18_enum hsr h ('.' :: ed.id.fullName) k').2 ⟨d, hk', hlike.1⟩
      rw [h1] at h2; cases h2
      rw [hk] at hk'; cases hk'; rfl
  simp only [enumNameIn, this, hr]
  cases r <;> rfl

/-! ### Names as `protoc` accepts them -/

omit hsr in
theorem ident_segs {n : Name} (h : IsIdent n) : segs n = [n] := by
  obtain ⟨c, t, rfl, hc, ht⟩ := h
  have hd : ∀ x ∈ c :: t, x ≠ '.' := by
    intro x hx he
    subst he
    rcases List.mem_cons.1 hx with rfl | hx
    · exact absurd hc (by decide)
    · exact absurd (ht _ hx) (by decide)
  clear hc ht
  generalize c :: t = n at hd
  have : ∀ l : Name, (∀ x ∈ l, x ≠ '.') → segs l = [l] := by
    intro l
    induction l with
    | nil => intro _; rfl
    | cons a l ih =>
      intro hl
      simp only [segs, if_neg (hl a (by simp)), ih fun x hx => hl x (by simp [hx])]
  exact this n hd

omit hsr in
theorem segs_append (a b : Name) : segs (a ++ '.' :: b) = segs a ++ segs b := by
  induction a with
  | nil => simp [segs]
  | cons c a ih =>
    simp only [List.cons_append, segs, ih]
    split
    · rfl
    · cases ha : segs a with
      | nil =>
        exfalso
        cases a with
        | nil => simp [segs] at ha
        | cons d a => simp only [segs] at ha; split at ha <;> (try cases ha); split at ha <;> cases ha
      | cons x y => rfl

omit hsr in
theorem dotted_qualified {s n : Name} (hs : s = [] ∨ dotted s = true) (hn : IsIdent n) :
    dotted (qualified s n) = true := by
  have h1 : dotted n = true := by simp [dotted, ident_segs hn, hn]
  unfold qualified
  split
  · exact h1
  · next hne =>
    rcases hs with hs | hs
    · exact absurd hs hne
    · unfold dotted at *
      rw [segs_append, List.all_append, hs, h1]; rfl

/-- The names are the ones `protoc` accepts: identifiers; defaults only where it allows them; a group
has the lower-case name of its type, which is declared beside it; the fields of a map entry are
`key` and `value`. -/
structure Named (acc : List FileP) (p : Pool) : Prop where
  ident : ∀ (j : Nat) g path s x, acc[j]? = some g → Has g path s x → IsIdent x.name
  package : ∀ g ∈ acc, g.package = [] ∨ dotted g.package = true
  default : ∀ (j : Nat) g path s f, acc[j]? = some g → Has g path s (.field f) →
    parseSyn g.syn = some .proto3 → f.default = none
  group : ∀ (k : Nat) md d (t : Nat) mt, p.messages[k]? = some md → d ∈ md.fields → d.group = true →
    d.kind = .message t → p.messages[t]? = some mt →
    mt.id.fullName = qualified md.id.fullName mt.id.name ∧ mt.id.name.map asciiLower = d.id.name
  entry : ∀ (k : Nat) md g s m, p.messages[k]? = some md → acc[md.id.file]? = some g →
    Has g md.id.path s (.message m) → p.isMapEntry k = .ok true →
    ∀ f ∈ m.fields, f.oneofIndex = none ∧ f.ty ≠ .group ∧ (f.number = 1 → f.name = "key".toList) ∧
      (f.number = 2 → f.name = "value".toList)

omit hsr in
theorem Named.scope (hN : Named acc p) {j : Nat} {g : FileP} (hg : acc[j]? = some g) {path : Path} {s : Name}
    {x : Pool.Item} (h : Has g path s x) : s = [] ∨ dotted s = true := by
  have up : ∀ {path s m}, Has g path s (.message m) → (s = [] ∨ dotted s = true) →
      qualified s m.name = [] ∨ dotted (qualified s m.name) = true :=
    fun h hs => .inr (dotted_qualified hs (hN.ident _ _ _ _ _ hg h))
  have hp := hN.package g (List.mem_of_getElem? hg)
  induction h with
  | message | enum | service | extension => exact hp
  | nested path s m i n hm _ ih => exact up hm ih
  | field path s m i n hm _ ih => exact up hm ih
  | oneof path s m i n hm _ ih => exact up hm ih
  | enumIn path s m i n hm _ ih => exact up hm ih
  | extensionIn path s m i n hm _ ih => exact up hm ih
  | value path s e i v _ _ ih => exact ih
  | method path s x i m hx _ ih => exact .inr (dotted_qualified ih (hN.ident _ _ _ _ _ hg hx))

omit hsr in
theorem shortName_qualified {s n : Name} (hn : IsIdent n) : shortName (qualified s n) = n := by
  obtain ⟨c, t, rfl, hc, ht⟩ := hn
  have hd : ∀ x ∈ c :: t, decide (x ≠ '.') = true := by
    intro x hx
    refine decide_eq_true fun he => ?_
    subst he
    rcases List.mem_cons.1 hx with rfl | hx
    · exact absurd hc (by decide)
    · exact absurd (ht _ hx) (by decide)
  generalize c :: t = n at hd
  have hr : ∀ x ∈ n.reverse, decide (x ≠ '.') = true := fun x hx => hd x (by simpa using hx)
  unfold shortName qualified
  split
  · have := List.takeWhile_append_of_pos (l₂ := []) hr
    simp only [List.append_nil, List.takeWhile_nil] at this
    rw [this, List.reverse_reverse]
  · rw [List.reverse_append, List.reverse_cons, List.append_assoc, List.takeWhile_append_of_pos hr]
    simp

theorem field_full (h : Hist env acc p) {k i : Nat} {md : MsgD} {d : FieldD} (hk : p.messages[k]? = some md)
    (hi : md.fields[i]? = some d) : d.id.fullName = qualified md.id.fullName d.id.name := by
  obtain ⟨path, full, fi, parent, m, he, hid, hl, _, hfs⟩ := (h.desc hsr).fields_of hk
  have hlt : i < m.fields.length := hl ▸ getElem?_lt hi
  obtain ⟨fd, d', _, h2, _, h3⟩ := hfs i _ (List.getElem?_eq_getElem hlt)
  rw [hi] at h2; cases h2
  have h4 : d.id.fullName = pushScope full m.fields[i].name := by rw [h3.id]; rfl
  have h5 : d.id.name = m.fields[i].name := by rw [h3.id]; exact Ident.mk'_name _ _ _ _
  have h6 : md.id.fullName = full := by rw [hid]; rfl
  rw [h4, h5, h6, qualified_eq]

theorem file_syn (h : Hist env acc p) {j : Nat} {g : FileP} {fd : FileD} (hg : acc[j]? = some g)
    (hf : p.files[j]? = some fd) : parseSyn g.syn = some fd.syn := by
  have hv := visit_files acc {} j g hg
  obtain ⟨_, ⟨fd', h1, h2, _⟩, _⟩ := (h.desc hsr).evs _ hv
  have h1 : p.files[0 + j]? = some fd' := h1
  rw [Nat.zero_add, hf] at h1; cases h1
  exact h2

theorem plain_field (h : Hist env acc p) (hsh : Shaped acc p) (hN : Named acc p) {k i : Nat} {md : MsgD}
    {d : FieldD} (hk : p.messages[k]? = some md) (hi : md.fields[i]? = some d) :
    (d.view.presence || d.view.default.isNone) = true := by
  obtain ⟨x, y, fd, ⟨g, _, s, g1, g2, g3, _⟩, hfd, _, hI⟩ := (h.desc hsr).field_is hk hi
  obtain ⟨hls, _⟩ := hsh.field _ _ _ _ _ g1 g3
  have none_of : x.default = none → d.default = none := by
    intro hx
    have := hI.default; rw [hx] at this; exact this
  have hpr := hI.presence
  simp only [FieldD.view, Bool.or_eq_true, Option.isNone_iff_eq_none]
  by_cases hl : x.label = .repeated
  · exact .inr (none_of (hls hl).2.1)
  · cases hs : fd.syn with
    | proto3 =>
      refine .inr (none_of (hN.default _ _ _ _ _ g1 g3 ?_))
      rw [file_syn hsr h g1 hfd, hs]
    | proto2 =>
      left
      rw [hpr, hs]
      simp [supportsPresence, hl]

theorem plain_ext (h : Hist env acc p) (hsh : Shaped acc p) {e : Nat} {d : ExtD}
    (he : p.extensions[e]? = some d) : (d.view.presence || d.view.default.isNone) = true := by
  obtain ⟨x, y, fd, ⟨g, _, s, g1, g2, g3, _⟩, hfd, _, hI⟩ := (h.desc hsr).extension_is he
  obtain ⟨hls, _⟩ := hsh.extension _ _ _ _ _ g1 g3
  simp only [ExtD.view, Bool.or_eq_true, Option.isNone_iff_eq_none, bne_iff_ne]
  by_cases hc : d.card = .repeated
  · right
    have := hI.default
    rw [(hls (hI.card ▸ hc)).2.1] at this
    exact this
  · exact .inl hc

theorem view_plain (h : Accepts env acc p) {S : Schema} (hS : p.view = .ok S) (hsh : Shaped acc p)
    (hN : Named acc p) {k : Nat} {m : MsgDesc} (hm : S.msg? k = some m) : plainDefaults m = true := by
  obtain ⟨md, hk, hv⟩ := view_msg hS hm
  obtain ⟨xs, hnd, hxl, hx⟩ := view_ext hsr h hS hm
  unfold plainDefaults
  rw [List.all_append, Bool.and_eq_true, List.all_eq_true, List.all_eq_true]
  constructor
  · intro f hf
    rw [hv.fields] at hf
    obtain ⟨d, hd, rfl⟩ := List.mem_map.1 hf
    obtain ⟨i, hi⟩ := List.getElem?_of_mem hd
    exact plain_field hsr h.hist hsh hN hk hi
  · intro f hf
    obtain ⟨i, hi⟩ := List.getElem?_of_mem hf
    obtain ⟨e, d, _, he, rfl, _⟩ := hx i f hi
    exact plain_ext hsr h.hist hsh he

omit hsr in
theorem group_kind {f : FieldP} {kd : Kind} {b : Bool} (h : KindOk p f kd b) (hb : b = true) :
    ∃ t, kd = .message t ∧ t < p.messages.length := by
  cases h with
  | scalar => cases hb
  | message t _ ht => exact ⟨t, rfl, ht⟩
  | enum => cases hb

theorem view_label (h : Accepts env acc p) {S : Schema} (hS : p.view = .ok S) (hN : Named acc p) {k : Nat}
    {m : MsgDesc} (hm : S.msg? k = some m) {f : FieldDesc} (hf : f ∈ m.fields) : labelOk S m f = true := by
  have hH := h.hist
  obtain ⟨md, hk, hv⟩ := view_msg hS hm
  rw [hv.fields] at hf
  obtain ⟨d, hd, rfl⟩ := List.mem_map.1 hf
  obtain ⟨i, hi⟩ := List.getElem?_of_mem hd
  obtain ⟨x, y, fd, ⟨g, _, s, g1, g2, g3, _, _, _, g8⟩, hfd, _, hI⟩ := (hH.desc hsr).field_is hk hi
  have hid : IsIdent d.id.name := by rw [g8]; exact hN.ident _ _ _ _ _ g1 g3
  unfold labelOk fieldLabel
  cases hg : d.view.group with
  | false =>
    simp only [Bool.false_eq_true, if_false, Bool.not_false, Bool.true_or, Bool.and_true, decide_eq_true_eq]
    exact hid
  | true =>
    have hg : d.group = true := hg
    obtain ⟨t, hkd, hlt⟩ := group_kind hI.kind hg
    have ht := List.getElem?_eq_getElem hlt
    obtain ⟨hfull, hlow⟩ := hN.group k md d t _ hk hd hg hkd ht
    obtain ⟨mt, hmt, hvt⟩ := (view_ok hS).2.2 t _ ht
    obtain ⟨xt, yt, ⟨gt, _, st, t1, _, t3, _, _, t6, t8⟩, _⟩ := (hH.desc hsr).message_stands ht
    have hidt : IsIdent p.messages[t].id.name := by rw [t8]; exact hN.ident _ _ _ _ _ t1 t3
    have hshort : shortName mt.name = p.messages[t].id.name := by
      rw [hvt.name, hfull]; exact shortName_qualified hidt
    simp only [FieldD.view, hkd, hmt, Option.map_some, if_true, hshort, decide_eq_true hidt, Bool.true_and,
      Bool.not_true, Bool.false_or, Bool.and_eq_true, beq_iff_eq, List.all_eq_true, Bool.or_eq_true,
      bne_iff_ne]
    refine ⟨hlow, fun f hf => .inr fun heq => ?_⟩
    rw [hv.fields] at hf
    obtain ⟨b, hb, rfl⟩ := List.mem_map.1 hf
    obtain ⟨i', hi'⟩ := List.getElem?_of_mem hb
    have hbf := field_full hsr hH hk hi'
    have heq : b.id.name = p.messages[t].id.name := heq
    obtain ⟨xb, yb, _, ⟨gb, _, sb, b1, _, b3, _, _, b6, _⟩, _⟩ := (hH.desc hsr).field_is hk hi'
    have hsame : qualified sb (Pool.Item.field xb).name = qualified st (Pool.Item.message xt).name := by
      rw [← b6, ← t6, hbf, heq, hfull]
    exact absurd (C18_unique hsr hH b1 t1 b3 t3 hsame).2.2 (by simp)

/-- **C68, text.** What a pool shows of files with names as `protoc` accepts them meets everything the text
format relies on. -/
theorem C68_text (h : Accepts env acc p) {S : Schema} (hS : p.view = .ok S) (hsh : Shaped acc p)
    (hN : Named acc p) : textWf S = true := by
  have hH := h.hist
  obtain ⟨hm, he⟩ := C68_names hsr h hS
  simp only [textWf, Bool.and_eq_true, List.all_eq_true]
  constructor
  · intro e hmem
    simp only [enumNames, Bool.and_eq_true, decide_eq_true_eq, List.all_eq_true]
    refine ⟨he e hmem, ?_⟩
    obtain ⟨k, hk⟩ := List.getElem?_of_mem hmem
    have hk' := hk
    rw [(view_ok hS).2.1, List.getElem?_map, Option.map_eq_some_iff] at hk'
    obtain ⟨ed, hed, _⟩ := hk'
    obtain ⟨x, e', ⟨g, _, s, g1, _, g3, _⟩, e1, _, e3, _⟩ := C68_enum hsr hH hS hed
    rw [hk] at e1; cases e1
    rw [e3]
    intro v hv
    obtain ⟨w, hw, rfl⟩ := List.mem_map.1 hv
    obtain ⟨i, hi⟩ := List.getElem?_of_mem hw
    exact hN.ident _ _ _ _ _ g1 (.value _ _ _ i w g3 hi)
  · intro m hmem
    obtain ⟨k, hmk⟩ := List.getElem?_of_mem hmem
    have hmk : S.msg? k = some m := hmk
    obtain ⟨n1, _, n3, _⟩ := hm m hmem
    obtain ⟨md, hk, hv⟩ := view_msg hS hmk
    obtain ⟨xs, _, _, hx⟩ := view_ext hsr h hS hmk
    simp only [msgNames, Bool.and_eq_true, decide_eq_true_eq, List.all_eq_true, Bool.or_eq_true,
      Bool.not_eq_true']
    refine ⟨⟨⟨⟨⟨n1, fun f hf => view_label hsr h hS hN hmk hf⟩, n3⟩, ?_⟩, view_plain hsr h hS hsh hN hmk⟩, ?_⟩
    · intro f hf
      obtain ⟨i, hi⟩ := List.getElem?_of_mem hf
      obtain ⟨e, d, _, hed, rfl, _⟩ := hx i f hi
      obtain ⟨x, y, fd, ⟨g, _, s, g1, g2, g3, _, _, g7, _⟩, _⟩ := (hH.desc hsr).extension_is hed
      show dotted d.id.fullName = true
      rw [g7]
      exact dotted_qualified (hN.scope g1 g3) (hN.ident _ _ _ _ _ g1 g3)
    · cases hme : m.mapEntry with
      | false => exact .inl rfl
      | true =>
        right
        obtain ⟨path, full, fi, parent, mp, hev, hid, hl, _, hfs⟩ := (hH.desc hsr).fields_of hk
        obtain ⟨y, g, fd, s, g1, _, g3, _⟩ := (hH.desc hsr).stands hev rfl hid
        have hent := hN.entry k md g s mp hk g1 g3 (hme ▸ hv.entry)
        simp only [entryNames, List.all_eq_true]
        intro f hf
        rw [hv.fields] at hf
        obtain ⟨d, hd, rfl⟩ := List.mem_map.1 hf
        obtain ⟨i, hi⟩ := List.getElem?_of_mem hd
        have hlt : i < mp.fields.length := hl ▸ getElem?_lt hi
        obtain ⟨_, d', _, d2, _, d4⟩ := hfs i _ (List.getElem?_eq_getElem hlt)
        rw [hi] at d2; cases d2
        obtain ⟨q1, q2, q3, q4⟩ := hent _ (List.getElem_mem hlt)
        have hname : d.id.name = mp.fields[i].name := by rw [d4.id]; exact Ident.mk'_name _ _ _ _
        have hone : d.oneof = none := by
          have := d4.oneof
          rw [q1] at this
          cases ho : d.oneof <;> simp [ho] at this ⊢
        have hgrp : d.group = false := by
          have hkk := d4.kind
          revert hkk
          generalize d.group = b
          generalize d.kind = kk
          rintro (_ | ⟨_, _, _⟩ | _)
          · rfl
          · exact decide_eq_false q2
          · rfl
        have hnum := d4.number
        simp only [FieldD.view, hone, hgrp, Option.isNone_none, Bool.not_false, Bool.and_self, Bool.true_and,
          Bool.and_eq_true, Bool.or_eq_true, bne_iff_ne, beq_iff_eq]
        refine ⟨?_, ?_⟩
        · by_cases h1 : d.number = 1
          · exact .inr (hname.trans (q3 (by omega)))
          · exact .inl h1
        · by_cases h1 : d.number = 2
          · exact .inr (hname.trans (q4 (by omega)))
          · exact .inl h1

/-! ### JSON names -/

/-- What JSON needs of the declarations: a field's JSON name does not begin with a bracket, no field or extension has the type `google.protobuf.NullValue` other than
`google.protobuf.Value.null_value`, and a well-known type is not a map entry. -/
structure Keyed (p : Pool) : Prop where
  bracket : ∀ (k : Nat) md a, p.messages[k]? = some md → a ∈ md.fields → a.jsonName.head? ≠ some '['
  null : ∀ (k : Nat) md a (e : Nat) ed, p.messages[k]? = some md → wkt? md.id.fullName = none → a ∈ md.fields →
    a.kind = .enum e → p.enums[e]? = some ed → ed.id.fullName ≠ nullName
  nullExt : ∀ (x : Nat) d md (e : Nat) ed, p.extensions[x]? = some d → p.messages[d.extendee]? = some md →
    wkt? md.id.fullName = none → d.kind = .enum e → p.enums[e]? = some ed → ed.id.fullName ≠ nullName
  entry : ∀ (k : Nat) md, p.messages[k]? = some md → p.isMapEntry k = .ok true → wkt? md.id.fullName = none

/-- A field's JSON name is the name of no other field of its message. -/
def Crossless (p : Pool) : Prop := ∀ (k : Nat) md a b, p.messages[k]? = some md → a ∈ md.fields → b ∈ md.fields →
  a.jsonName = b.id.name → a = b

omit hsr in
theorem bracket_upper {c : Char} (h : c.toUpper = '[') : c = '[' := by
  unfold Char.toUpper at h
  split at h
  · next hc =>
    exfalso
    have := congrArg (fun x : Char => x.val.toNat) h
    obtain ⟨h1, h2⟩ := hc
    simp only [UInt32.le_iff_toNat_le] at h1 h2
    simp only [UInt32.toNat_add] at this
    have e1 : ('a'.val.toNat) = 97 := by decide
    have e2 : ('z'.val.toNat) = 122 := by decide
    have e3 : ('['.val.toNat) = 91 := by decide
    have e4 : ('A'.val - 'a'.val).toNat = 4294967264 := by decide
    rw [e4] at this
    omega
  · exact h

omit hsr in
theorem bracket_json {n : Name} (h : '[' ∉ n) : ∀ b, '[' ∉ toJsonName b n := by
  induction n with
  | nil => intro b; cases b <;> simp [toJsonName]
  | cons c n ih =>
    intro b
    have ih := ih fun hm => h (by simp [hm])
    unfold toJsonName
    split
    · exact ih true
    · split
      · intro hm
        rcases List.mem_cons.1 hm with h' | h'
        · exact h (by simp [bracket_upper h'.symm])
        · exact ih _ h'
      · intro hm
        rcases List.mem_cons.1 hm with h' | h'
        · exact h (by simp [← h'])
        · exact ih _ h'

/-- Fields whose JSON name is the one derived from their name never get in each other's way: `Crossless` and
`Keyed.bracket` are only about JSON names chosen in the `.proto` file. -/
theorem C68_default_json (h : Hist env acc p) (hN : Named acc p) {k : Nat} {md : MsgD}
    (hk : p.messages[k]? = some md) (hj : ∀ d ∈ md.fields, d.jsonName = toJsonName false d.id.name) :
    ∀ a ∈ md.fields, a.jsonName.head? ≠ some '[' ∧ ∀ b ∈ md.fields, a.jsonName = b.id.name → a = b := by
  intro a ha
  refine ⟨fun hb => ?_, fun b hb hab => ?_⟩
  · obtain ⟨i, hi⟩ := List.getElem?_of_mem ha
    obtain ⟨x, y, fd, ⟨g, _, s, g1, g2, g3, _, _, _, g8⟩, _⟩ := (h.desc hsr).field_is hk hi
    have hid : IsIdent a.id.name := by rw [g8]; exact hN.ident _ _ _ _ _ g1 g3
    have hno : '[' ∉ a.id.name := by
      obtain ⟨c, t, e, hc, ht⟩ := hid
      rw [e]
      intro hm
      rcases List.mem_cons.1 hm with rfl | hm
      · exact absurd hc (by decide)
      · exact absurd (ht _ hm) (by decide)
    rw [hj a ha] at hb
    exact bracket_json hno false (List.mem_of_mem_head? hb)
  · obtain ⟨_, _, h3, _⟩ := C27_lookups hsr h hk
    have hu : '_' ∉ b.id.name := by rw [← hab, hj a ha]; exact (C45_clean _).1
    have hjb : b.jsonName = a.jsonName := by rw [hj b hb, (C45_clean _).2 hu, hab]
    obtain ⟨i, hi⟩ := List.getElem?_of_mem ha
    obtain ⟨j, hj'⟩ := List.getElem?_of_mem hb
    have e1 := (h3 a.jsonName i).2 ⟨a, hi, rfl⟩
    have e2 := (h3 a.jsonName j).2 ⟨b, hj', hjb⟩
    rw [e1] at e2; cases e2
    rw [hi] at hj'; exact Option.some.inj hj'

omit hsr in
theorem inj_of_nodup {α β : Type} {key : α → β} : ∀ {l : List α}, (l.map key).Nodup → ∀ {f g}, f ∈ l → g ∈ l →
    key f = key g → f = g
  | [], _, _, _, hf, _, _ => nomatch hf
  | a :: l, hn, f, g, hf, hg, e => by
    rw [List.map_cons, List.nodup_cons] at hn
    rcases List.mem_cons.1 hf with h1 | h1 <;> rcases List.mem_cons.1 hg with h2 | h2
    · rw [h1, h2]
    · exact absurd (List.mem_map.2 ⟨g, h2, by rw [← e, h1]⟩) hn.1
    · exact absurd (List.mem_map.2 ⟨f, h1, by rw [e, h2]⟩) hn.1
    · exact inj_of_nodup hn.2 h1 h2 e

/-- **C68, JSON.** What a pool shows meets everything that the JSON mapping relies on. -/
theorem C68_json (h : Accepts env acc p) {S : Schema} (hS : p.view = .ok S) (hsh : Shaped acc p)
    (hN : Named acc p) (hK : Keyed p) : jsonWf S = true := by
  have hH := h.hist
  obtain ⟨hm, he⟩ := C68_names hsr h hS
  have hwf := C68_wf hsr h hS hsh
  have kinds : ∀ kd : Kind, kindOk S kd = true → (∀ (e : Nat) ed, kd = .enum e → p.enums[e]? = some ed →
      ed.id.fullName ≠ nullName) → plainKind S kd = true := by
    intro kd hk hn
    cases kd with
    | enum e =>
      obtain ⟨v, hv⟩ := enum_some hk
      have hv' := hv
      rw [(view_ok hS).2.1, List.getElem?_map, Option.map_eq_some_iff] at hv'
      obtain ⟨ed, hed, rfl⟩ := hv'
      simp only [plainKind, hv, bne_iff_ne]
      exact hn e ed rfl hed
    | _ => rfl
  simp only [jsonWf, Bool.and_eq_true, List.all_eq_true, decide_eq_true_eq]
  refine ⟨he, fun m hmem => ?_⟩
  obtain ⟨k, hmk⟩ := List.getElem?_of_mem hmem
  have hmk : S.msg? k = some m := hmk
  obtain ⟨n1, n2, n3, n4, n5⟩ := hm m hmem
  obtain ⟨md, hk, hv⟩ := view_msg hS hmk
  obtain ⟨xs, _, _, hx⟩ := view_ext hsr h hS hmk
  have hw := Schema.wf_msg hwf hmk
  split
  · next hwk =>
    cases hme : m.mapEntry with
    | false => rfl
    | true =>
      have := hK.entry k md hk (hme ▸ hv.entry)
      rw [← hv.name] at this
      rw [this] at hwk; cases hwk
  · next hwk =>
    have hwk : wkt? md.id.fullName = none := by
      rw [← hv.name]; cases hq : wkt? m.name <;> simp_all
    simp only [jsonMsg, extNames, Bool.and_eq_true, decide_eq_true_eq, List.all_eq_true, bne_iff_ne]
    refine ⟨⟨⟨?_, n4, ?_⟩, view_plain hsr h hS hsh hN hmk⟩, ?_⟩
    · rintro f hf g hg (e | e)
      · exact inj_of_nodup n2 hf hg e
      · exact inj_of_nodup n1 hf hg e
    · intro x hx' f hf
      rw [n5 x hx']
      rw [hv.fields] at hf
      obtain ⟨a, ha, rfl⟩ := List.mem_map.1 hf
      refine ⟨fun e => ?_, fun e => ?_⟩
      · obtain ⟨i, hi⟩ := List.getElem?_of_mem ha
        obtain ⟨_, y, fd, ⟨g, _, s, g1, g2, g3, _, _, _, g8⟩, _⟩ := (hH.desc hsr).field_is hk hi
        obtain ⟨c, t, e', hc, _⟩ : IsIdent a.id.name := by rw [g8]; exact hN.ident _ _ _ _ _ g1 g3
        have e : a.id.name = ['['] ++ x.name ++ [']'] := e
        rw [e'] at e
        simp only [List.cons_append, List.cons.injEq] at e
        rw [e.1] at hc
        exact absurd hc (by decide)
      · refine hK.bracket k md a hk ha ?_
        have e : a.jsonName = ['['] ++ x.name ++ [']'] := e
        rw [e]; rfl
    · intro f hf
      rcases List.mem_append.1 hf with hf | hf
      · have hko := (hw.fields f hf).kind
        rw [hv.fields] at hf
        obtain ⟨a, ha, rfl⟩ := List.mem_map.1 hf
        exact kinds _ hko fun e ed h1 h2 => hK.null k md a e ed hk hwk ha h1 h2
      · have hko := (hw.exts f hf).kind
        obtain ⟨i, hi⟩ := List.getElem?_of_mem hf
        obtain ⟨x, d, _, hd, rfl, hex⟩ := hx i f hi
        exact kinds _ hko fun e ed h1 h2 => hK.nullExt x d md e ed hd (hex ▸ hk) hwk h1 h2

omit hsr in
/-- **C68, declared names in JSON.** -/
theorem C68_cross {S : Schema} (hS : p.view = .ok S) (hX : Crossless p) : namesApart S = true := by
  simp only [namesApart, List.all_eq_true, Bool.or_eq_true, decide_eq_true_eq]
  intro m hmem
  obtain ⟨k, hmk⟩ := List.getElem?_of_mem hmem
  obtain ⟨md, hk, hv⟩ := view_msg hS (k := k) (m := m) hmk
  refine .inr fun f hf g hg e => ?_
  rw [hv.fields] at hf hg
  obtain ⟨a, ha, rfl⟩ := List.mem_map.1 hf
  obtain ⟨b, hb, rfl⟩ := List.mem_map.1 hg
  rw [hX k md a b hk ha hb e]

/-! ### Extension numbers -/

/-- The extensions of a message have distinct numbers, which the pool does not check (`C32_false`). -/
def Apart (p : Pool) : Prop := ∀ (e e' : Nat) d d', p.extensions[e]? = some d → p.extensions[e']? = some d' →
  d.extendee = d'.extendee → d.number = d'.number → e = e'

/-- **C68, extensions.** -/
theorem C68_apart (h : Accepts env acc p) {S : Schema} (hS : p.view = .ok S) (hA : Apart p) :
    extsApart S = true := by
  simp only [extsApart, List.all_eq_true, decide_eq_true_eq]
  intro m hmem
  obtain ⟨k, hmk⟩ := List.getElem?_of_mem hmem
  obtain ⟨xs, hnd, _, hx⟩ := view_ext hsr h hS (k := k) (m := m) hmk
  refine nodup_map_of_inj fun i j a b ha hb hab => ?_
  obtain ⟨e, d, x1, he, rfl, hd⟩ := hx i a ha
  obtain ⟨e', d', x2, he', rfl, hd'⟩ := hx j b hb
  have := hA e e' d d' he he' (hd.trans hd'.symm) hab
  subst this
  rcases Nat.lt_trichotomy i j with hlt | heq | hgt
  · exact absurd rfl (pairwise_get hnd hlt x1 x2)
  · exact heq
  · exact absurd rfl (pairwise_get hnd hgt x2 x1)

/-! ### Messages of a pool's types -/

/-- **C69, bytes.** A conforming message of a type of the pool survives encoding and decoding. -/
theorem C69_bytes (h : Accepts env acc p) (hsh : Shaped acc p) : ∃ S, p.view = .ok S ∧
    ∀ m, confMsg S m = true → depthMsg m ≤ 100 → ∃ b, encMsg S m = some b ∧
      (b.length < 2 ^ 64 → ∃ m', decode S m.desc b = .ok m' ∧ confMsg S m' = true ∧ SameMsg S m m') := by
  obtain ⟨S, hS⟩ := C68_total hsr h
  exact ⟨S, hS, fun m hm hd => C01_roundtrip (C68_wf hsr h hS hsh) hm hd⟩

/-- **C69, decoding.** Decoding any bytes as a message of a type of the pool gives a conforming message of
that type or an error, never a panic. -/
theorem C69_decode (h : Accepts env acc p) (hsh : Shaped acc p) : ∃ S, p.view = .ok S ∧
    ∀ (d : Nat) md, p.messages[d]? = some md → ∀ b,
      (∃ m, decode S d b = .ok m ∧ confMsg S m = true ∧ m.desc = d) ∨
      (∃ e, decode S d b = .error e ∧ e ≠ .panic ∧ e ≠ .unsupported ∧ e ≠ .fuel) := by
  obtain ⟨S, hS⟩ := C68_total hsr h
  refine ⟨S, hS, fun d md hd b => ?_⟩
  obtain ⟨m, hm, _⟩ := (view_ok hS).2.2 d md hd
  exact C06_decode (C68_wf hsr h hS hsh) hm b

/-- **C69, text format.** Printing a conforming message of a type of the pool gives text that parses as a
message that is alike; enum numbers are looked up in the pool. -/
theorem C69_text (h : Accepts env acc p) (hsh : Shaped acc p) (hN : Named acc p) :
    ∃ S, p.view = .ok S ∧ ∀ (tenv : TEnv) (o : FOpts), FloatSpec tenv → tenv.enumName = enumNameIn env p →
      o.skipUnknown = true → o.expandAny = false → ∀ m, confMsg S m = true → textSlots m.fields →
      ∀ k, 2 * depthMsg m + 2 ≤ k → ∃ s m', toText tenv S o k m = some s ∧
        parseText tenv S k m.desc s = .ok m' ∧ m'.desc = m.desc ∧ AlikeMsg S m m' := by
  obtain ⟨S, hS⟩ := C68_total hsr h
  refine ⟨S, hS, fun tenv o hf he hs ha m hm hp k hk => ?_⟩
  exact C34_roundtrip_partial (C68_wf hsr h hS hsh) (C68_text hsr h hS hsh hN) hf
    (fun ed v n hn => enumNameIn_mem hsr h.hist (by rw [← he]; exact hn)) hs (.inl ha) hm hp hk

/-- **C69, JSON round trip.** Writing a conforming message of a type of the pool as JSON and reading it back
gives a message that is alike.  Declared names may be written if no field has the name of another one as its
JSON name, see `C43_names_false`. -/
theorem C69_json (h : Accepts env acc p) (hsh : Shaped acc p) (hN : Named acc p) (hK : Keyed p) :
    ∃ S, p.view = .ok S ∧ ∀ (jenv : JEnv) (so : SOpts) (o : DOpts), (so.protoNames = true → Crossless p) →
      JFloatSpec jenv → jenv.enumName = enumNameIn env p → ∀ m, confMsg S m = true → Ordinary S m →
      keepSlots f32Ok (Ordinary S) m.fields → ∀ k, 2 * depthMsg m + 2 ≤ k →
      ∃ j m', toJson jenv S so k m = .ok j ∧ fromJson jenv S o k m.desc j = .ok m' ∧ m'.desc = m.desc ∧
        AlikeMsg S m m' ∧ confMsg S m' = true := by
  obtain ⟨S, hS⟩ := C68_total hsr h
  refine ⟨S, hS, fun jenv so o hx hf he m hm ho hp k hk => ?_⟩
  exact C43_roundtrip_partial (C68_wf hsr h hS hsh) (C68_json hsr h hS hsh hN hK)
    (fun h => C68_cross hS (hx h)) hf
    (fun ed v n hn => enumNameIn_mem hsr h.hist (by rw [← he]; exact hn)) o hm ho hp hk

/-- **C69, reading JSON.** Reading any JSON as a message of a type of the pool gives a message of that type
that can be encoded, or an error, never a panic. -/
theorem C69_json_safe (h : Accepts env acc p) (hsh : Shaped acc p) (hA : Apart p) : ∃ S, p.view = .ok S ∧
    ∀ jenv, OrderOk jenv → ∀ o k (d : Nat) md, p.messages[d]? = some md → ∀ j : Json,
      (∃ m, fromJson jenv S o k d j = .ok m ∧ m.desc = d ∧ ∃ b, encMsg S m = some b) ∨
      fromJson jenv S o k d j = .error .err ∨ (fromJson jenv S o k d j = .error .stack ∧ k + 1 < j.depth) := by
  obtain ⟨S, hS⟩ := C68_total hsr h
  have hwf := C68_wf hsr h hS hsh
  refine ⟨S, hS, fun jenv hO o k d md hd j => ?_⟩
  obtain ⟨m, hm, _⟩ := (view_ok hS).2.2 d md hd
  rcases C58_safe_partial hO hwf (C68_apart hsr h hS hA) o k hm j with ⟨m', h1, h2, h3⟩ | h1
  · exact .inl ⟨m', h1, h3, (encMsg_total hwf m' h2).1⟩
  · exact .inr h1

/-- **C69, parsing text.** Parsing any text as a message of a type of the pool gives a conforming message of
that type or an error, never a panic.  `hany`: the published `google.protobuf.Any` has no repeated fields. -/
theorem C69_text_safe (h : Accepts env acc p) (hsh : Shaped acc p) (hA : Apart p)
    (hany : ∀ md ∈ p.messages, md.id.fullName = "google.protobuf.Any".toList → ∀ f ∈ md.fields, f.card ≠ .repeated) :
    ∃ S, p.view = .ok S ∧ ∀ tenv, ParsesFloats tenv.parse64 → ∀ k (d : Nat) md, p.messages[d]? = some md →
      ∀ text : List Char, (∃ m, parseText tenv S k d text = .ok m ∧ confMsg S m = true ∧ m.desc = d) ∨
        (∃ e, parseText tenv S k d text = .error e ∧ e ≠ .panic ∧ e ≠ .fuel) := by
  obtain ⟨S, hS⟩ := C68_total hsr h
  refine ⟨S, hS, fun tenv hp k d md hd text => ?_⟩
  obtain ⟨m, hm, _⟩ := (view_ok hS).2.2 d md hd
  refine C52_parse hp (C68_wf hsr h hS hsh) ?_ k hm text
  have hX := List.all_eq_true.1 (C68_apart hsr h hS hA)
  simp only [textSafe, List.all_eq_true]
  intro a ha
  obtain ⟨i, hi⟩ := List.getElem?_of_mem ha
  obtain ⟨mi, hmi, hv⟩ := view_msg hS (k := i) (m := a) hi
  simp only [anyShape, Bool.and_eq_true, Bool.or_eq_true, bne_iff_ne, List.all_eq_true, decide_eq_true_eq]
  refine ⟨of_decide_eq_true (hX a ha), ?_⟩
  by_cases hn : a.name = anyName
  · refine .inr fun f hf => .inr ?_
    rw [hv.fields] at hf
    obtain ⟨b, hb, rfl⟩ := List.mem_map.1 hf
    exact hany mi (List.mem_of_getElem? hmi) (by rw [← hv.name, hn]; rfl) b hb
  · exact .inl hn

end

/-! ### An example -/

def fileNamed (f : FileP) : Bool :=
  let enum (e : EnumP) : Bool := decide (IsIdent e.name) && e.values.all (fun v => decide (IsIdent v.name))
  (f.package.isEmpty || dotted f.package) &&
    f.enums.all enum && f.exts.all (fun x => decide (IsIdent x.name)) &&
    f.services.all (fun x => decide (IsIdent x.name) && x.methods.all (fun m => decide (IsIdent m.name))) &&
    MsgP.allOf (fun m => decide (IsIdent m.name) && m.enums.all enum &&
      m.exts.all (fun x => decide (IsIdent x.name)) && m.oneofs.all (fun x => decide (IsIdent x.name)) &&
      m.fields.all (fun x => decide (IsIdent x.name) &&
        (parseSyn f.syn != some .proto3 || x.default.isNone))) f.messages

def groupNamed (p : Pool) (md : MsgD) (d : FieldD) : Bool :=
  !d.group || match d.kind with
    | .message t =>
      match p.messages[t]? with
      | some mt => mt.id.fullName == qualified md.id.fullName mt.id.name && mt.id.name.map asciiLower == d.id.name
      | none => true
    | _ => true

def entryNamed (m : MsgP) : Bool := m.fields.all fun f => f.oneofIndex.isNone && f.ty != .group &&
  (f.number != 1 || f.name == "key".toList) && (f.number != 2 || f.name == "value".toList)

/-- `Named`, computed. -/
def named (acc : List FileP) (p : Pool) : Bool :=
  acc.all fileNamed && p.messages.all (fun md => md.fields.all (groupNamed p md)) &&
  p.messages.zipIdx.all (fun x =>
    match p.isMapEntry x.2 with
    | .ok true =>
      match acc[x.1.id.file]? with
      | some g =>
        match findMsg g x.1.id.path with
        | some m => entryNamed m
        | none => false
      | none => false
    | _ => true)

theorem named_ok {acc : List FileP} {p : Pool} (h : named acc p = true) : Named acc p := by
  simp only [named, Bool.and_eq_true, List.all_eq_true] at h
  obtain ⟨⟨h1, h2⟩, h3⟩ := h
  have file : ∀ {j : Nat} {g}, acc[j]? = some g → fileNamed g = true := fun hj => h1 _ (List.mem_of_getElem? hj)
  have msg : ∀ {j : Nat} {g path s m}, acc[j]? = some g → Has g path s (.message m) → IsIdent m.name ∧
      (∀ e ∈ m.enums, IsIdent e.name ∧ ∀ v ∈ e.values, IsIdent v.name) ∧ (∀ x ∈ m.exts, IsIdent x.name) ∧
      (∀ x ∈ m.oneofs, IsIdent x.name) ∧
      ∀ x ∈ m.fields, IsIdent x.name ∧ (parseSyn g.syn = some .proto3 → x.default = none) := by
    intro j g path s m hg hm
    have h0 := file hg
    simp only [fileNamed, Bool.and_eq_true] at h0
    have := MsgP.allIn_self (MsgP.allIn_has h0.2 hm)
    simp only [Bool.and_eq_true, List.all_eq_true, decide_eq_true_eq, Bool.or_eq_true, bne_iff_ne,
      Option.isNone_iff_eq_none] at this
    obtain ⟨⟨⟨⟨a1, a2⟩, a3⟩, a4⟩, a5⟩ := this
    exact ⟨a1, a2, a3, a4, fun x hx => ⟨(a5 x hx).1, fun hs => (a5 x hx).2.resolve_left (fun hn => hn hs)⟩⟩
  have enums : ∀ {j : Nat} {g path s e}, acc[j]? = some g → Has g path s (.enum e) →
      IsIdent e.name ∧ ∀ v ∈ e.values, IsIdent v.name := by
    intro j g path s e hg he
    have h0 := file hg
    simp only [fileNamed, Bool.and_eq_true, List.all_eq_true, decide_eq_true_eq] at h0
    cases he with
    | enum i _ hi => exact h0.1.1.1.2 e (List.mem_of_getElem? hi)
    | enumIn path s m i _ hm hi => exact (msg hg hm).2.1 e (List.mem_of_getElem? hi)
  have services : ∀ {j : Nat} {g path s x}, acc[j]? = some g → Has g path s (.service x) →
      IsIdent x.name ∧ ∀ v ∈ x.methods, IsIdent v.name := by
    intro j g path s e hg he
    have h0 := file hg
    simp only [fileNamed, Bool.and_eq_true, List.all_eq_true, decide_eq_true_eq] at h0
    cases he with
    | service i _ hi => exact h0.1.2 e (List.mem_of_getElem? hi)
  refine ⟨?_, ?_, ?_, ?_, ?_⟩
  · intro j g path s x hg hx
    have h0 := file hg
    simp only [fileNamed, Bool.and_eq_true, List.all_eq_true, decide_eq_true_eq] at h0
    cases x with
    | message m => exact (msg hg hx).1
    | enum e => exact (enums hg hx).1
    | service e => exact (services hg hx).1
    | field f => cases hx with | field path s m i _ hm hi => exact ((msg hg hm).2.2.2.2 f (List.mem_of_getElem? hi)).1
    | oneof f => cases hx with | oneof path s m i _ hm hi => exact (msg hg hm).2.2.2.1 f (List.mem_of_getElem? hi)
    | value f => cases hx with | value path s m i _ hm hi => exact (enums hg hm).2 f (List.mem_of_getElem? hi)
    | method f => cases hx with | method path s m i _ hm hi => exact (services hg hm).2 f (List.mem_of_getElem? hi)
    | extension f =>
      cases hx with
      | extension i _ hi => exact h0.1.1.2 f (List.mem_of_getElem? hi)
      | extensionIn path s m i _ hm hi => exact (msg hg hm).2.2.1 f (List.mem_of_getElem? hi)
  · intro g hg
    have h0 := h1 g hg
    simp only [fileNamed, Bool.and_eq_true, Bool.or_eq_true, List.isEmpty_iff] at h0
    exact h0.1.1.1.1
  · intro j g path s f hg hx hs
    cases hx with | field path s m i _ hm hi => exact ((msg hg hm).2.2.2.2 f (List.mem_of_getElem? hi)).2 hs
  · intro k md d t mt hk hd hg hkd ht
    have := h2 md (List.mem_of_getElem? hk) d hd
    simpa only [groupNamed, hg, hkd, ht, Bool.not_true, Bool.false_or, Bool.and_eq_true, beq_iff_eq] using this
  · intro k md g s m hk hg hm he
    have hmem : (md, k) ∈ p.messages.zipIdx := by
      rw [List.mem_zipIdx_iff_getElem?]; exact hk
    have := h3 _ hmem
    simp only [he, hg, show findMsg g md.id.path = some m from hm.found.2] at this
    simp only [entryNamed, Bool.and_eq_true, List.all_eq_true, Option.isNone_iff_eq_none, bne_iff_ne,
      Bool.or_eq_true, beq_iff_eq] at this
    intro f hf
    obtain ⟨⟨⟨a, b⟩, c⟩, d⟩ := this f hf
    exact ⟨a, b, fun e => c.resolve_left fun hn => hn e, fun e => d.resolve_left fun hn => hn e⟩

/-- Not an enum of the name `google.protobuf.NullValue`. -/
def notNull (p : Pool) : Kind → Bool
  | .enum e =>
    match p.enums[e]? with
    | some ed => ed.id.fullName != nullName
    | none => true
  | _ => true

/-- `Crossless`, computed. -/
def crossless (p : Pool) : Bool := p.messages.all fun m => m.fields.zipIdx.all fun a =>
  m.fields.zipIdx.all fun b => a.1.jsonName != b.1.id.name || a.2 == b.2

theorem crossless_ok {p : Pool} (h : crossless p = true) : Crossless p := by
  simp only [crossless, List.all_eq_true] at h
  intro k md a b hk ha hb e
  obtain ⟨i, hi⟩ := List.getElem?_of_mem ha
  obtain ⟨j, hj⟩ := List.getElem?_of_mem hb
  have := h md (List.mem_of_getElem? hk) (a, i) (by rw [List.mem_zipIdx_iff_getElem?]; exact hi) (b, j)
    (by rw [List.mem_zipIdx_iff_getElem?]; exact hj)
  simp only [Bool.or_eq_true, bne_iff_ne, beq_iff_eq] at this
  have := this.resolve_left fun hn => hn e
  subst this
  rw [hi] at hj; exact Option.some.inj hj

/-- `Keyed`, computed. -/
def keyed (p : Pool) : Bool :=
  p.messages.zipIdx.all (fun x =>
    x.1.fields.all (fun a => a.jsonName.head? != some '[') &&
    ((wkt? x.1.id.fullName).isSome || x.1.fields.all (fun a => notNull p a.kind)) &&
    ((wkt? x.1.id.fullName).isNone || match p.isMapEntry x.2 with
      | .ok true => false
      | _ => true)) &&
  p.extensions.all (fun d => notNull p d.kind)

theorem keyed_ok {p : Pool} (h : keyed p = true) : Keyed p := by
  simp only [keyed, Bool.and_eq_true, List.all_eq_true] at h
  obtain ⟨h1, h2⟩ := h
  have null : ∀ {kd : Kind} {e : Nat} {ed}, notNull p kd = true → kd = .enum e → p.enums[e]? = some ed →
      ed.id.fullName ≠ nullName := by
    rintro _ e ed hn rfl he
    simpa only [notNull, he, bne_iff_ne] using hn
  have mem : ∀ {α : Type} {l : List α} {i : Nat} {a : α}, l[i]? = some a → (a, i) ∈ l.zipIdx := by
    intro α l i a ha
    rw [List.mem_zipIdx_iff_getElem?]; exact ha
  refine ⟨?_, ?_, ?_, ?_⟩
  · intro k md a hk ha
    have := (h1 _ (mem hk)).1.1 a ha
    simpa using this
  · intro k md a e ed hk hw ha hkd he
    have := (h1 _ (mem hk)).1.2
    rw [Bool.or_eq_true, hw, List.all_eq_true] at this
    exact null (this.resolve_left nofun a ha) hkd he
  · intro x d md e ed hx _ _ hkd he
    exact null (h2 d (List.mem_of_getElem? hx)) hkd he
  · intro k md hk he
    have := (h1 _ (mem hk)).2
    rw [Bool.or_eq_true, he] at this
    simpa using this

def apart (p : Pool) : Bool := p.extensions.zipIdx.all fun x => p.extensions.zipIdx.all fun y =>
  x.1.extendee != y.1.extendee || x.1.number != y.1.number || x.2 == y.2

theorem apart_ok {p : Pool} (h : apart p = true) : Apart p := by
  simp only [apart, List.all_eq_true, Bool.or_eq_true, bne_iff_ne, beq_iff_eq] at h
  intro e e' d d' he he' h1 h2
  have := h (d, e) (by rw [List.mem_zipIdx_iff_getElem?]; exact he) (d', e')
    (by rw [List.mem_zipIdx_iff_getElem?]; exact he')
  rcases this with (h3 | h3) | h3
  · exact absurd h1 h3
  · exact absurd h2 h3
  · exact h3

/-- `syntax = "proto2"; package g; message Q { optional group Grp = 1 { optional int32 v = 1; }
optional int32 a_b = 2 [json_name = "zed"]; }` -/
def fileGroup : FileP where
  name := nm "g.proto"
  package := nm "g"
  messages := [{
    name := nm "Q"
    fields := [{ name := nm "grp", number := 1, ty := .group, typeName := nm "Q.Grp" },
      { name := nm "a_b", number := 2, ty := .int32, jsonName := some (nm "zed") }]
    nested := [{ name := nm "Grp", fields := [{ name := nm "v", number := 1, ty := .int32 }] }] }]

/-- `google/protobuf/any.proto` -/
def fileAny : FileP where
  name := nm "google/protobuf/any.proto"
  package := nm "google.protobuf"
  messages := [{
    name := nm "Any"
    fields := [{ name := nm "type_url", number := 1, ty := .string }, { name := nm "value", number := 2, ty := .bytes }] }]
  syn := some (nm "proto3")

/-- `google.protobuf.Any` has no repeated field. -/
def anyPlain (p : Pool) : Bool := p.messages.all fun md =>
  md.id.fullName != "google.protobuf.Any".toList || md.fields.all fun f => f.card != .repeated

/-- All conditions, and the labels the pool shows. -/
def showPool (acc : List FileP) (p : Pool) : Bool :=
  shaped acc p && named acc p && keyed p && apart p && crossless p && anyPlain p &&
    p.messages.flatMap (fun m => m.fields.map (·.jsonName)) ==
      [nm "xY", nm "ys", nm "n", nm "e", nm "m", nm "ps", nm "n", nm "key", nm "value", nm "grp", nm "zed", nm "v",
        nm "typeUrl", nm "value"]

theorem showPool_ex : ∃ acc p, Accepts env0 acc p ∧ showPool acc p = true :=
  accept_ex (b := [fileA, fileMap, fileGroup, fileAny]) showPool (by decide +kernel)

/-- The conditions hold together of a pool with maps, a group, a oneof, an enum, an extension and a JSON name
of its own. -/
example : ∃ acc p, Accepts env0 acc p ∧ Shaped acc p ∧ Named acc p ∧ Keyed p ∧ Apart p ∧ Crossless p ∧
    p.messages.flatMap (fun m => m.fields.map (·.jsonName)) =
      [nm "xY", nm "ys", nm "n", nm "e", nm "m", nm "ps", nm "n", nm "key", nm "value", nm "grp", nm "zed",
        nm "v", nm "typeUrl", nm "value"] ∧
    ∀ md ∈ p.messages, md.id.fullName = "google.protobuf.Any".toList → ∀ f ∈ md.fields, f.card ≠ .repeated := by
  obtain ⟨acc, p, h, hc⟩ := showPool_ex
  simp only [showPool, Bool.and_eq_true, beq_iff_eq] at hc
  obtain ⟨⟨⟨⟨⟨⟨h1, h2⟩, h3⟩, h4⟩, h5⟩, h7⟩, h6⟩ := hc
  refine ⟨acc, p, h, shaped_ok h1, named_ok h2, keyed_ok h3, apart_ok h4, crossless_ok h5, h6, fun md hmd hn f hf => ?_⟩
  have := List.all_eq_true.1 h7 md hmd
  simp only [hn, bne_self_eq_false, Bool.false_or, List.all_eq_true, bne_iff_ne] at this
  exact this f hf

/-! ### Where JSON names get in the way -/

deriving instance DecidableEq for MsgDesc, EnumDesc, Schema

/-- `message X { optional int32 a = 1 [json_name = "b"]; optional int32 b = 2 [json_name = "c"]; }` -/
def fileCross : FileP where
  name := nm "x.proto"
  messages := [{
    name := nm "X"
    fields := [{ name := nm "a", number := 1, ty := .int32, jsonName := some (nm "b") },
      { name := nm "b", number := 2, ty := .int32, jsonName := some (nm "c") }] }]

/-- What the pool shows of it. -/
def crossSchema : Schema where
  msgs := [{
    name := nm "X"
    fields := [{ Ex.fld 1 "a" .int32 with jsonName := nm "b", presence := true },
      { Ex.fld 2 "b" .int32 with jsonName := nm "c", presence := true }]
    mapEntry := false
    extensions := [] }]
  enums := []

def crossPool (acc : List FileP) (p : Pool) : Bool :=
  shaped acc p && named acc p && keyed p && match p.view with
    | .ok S => decide (S = crossSchema)
    | .error _ => false

theorem crossPool_ex : ∃ acc p, Accepts env0 acc p ∧ crossPool acc p = true :=
  accept_ex (b := [fileCross]) crossPool (by decide +kernel)

theorem crossPool_view : ∃ acc p, Accepts env0 acc p ∧ Shaped acc p ∧ Named acc p ∧ Keyed p ∧
    p.view = .ok crossSchema := by
  obtain ⟨acc, p, h, hc⟩ := crossPool_ex
  simp only [crossPool, Bool.and_eq_true] at hc
  obtain ⟨⟨⟨h1, h2⟩, h3⟩, h4⟩ := hc
  refine ⟨acc, p, h, shaped_ok h1, named_ok h2, keyed_ok h3, ?_⟩
  split at h4
  · next S hS => rw [of_decide_eq_true h4] at hS; exact hS
  · cases h4

/-- **C62 fails** for a message type that a pool accepts: the entry `"b"` sets the field `a`, not the
field `b`. -/
theorem C62_false : ∃ acc p S, Accepts env0 acc p ∧ p.view = .ok S ∧ ∃ md f, S.msg? 0 = some md ∧
    f ∈ md.fields ∧ f.name = "b".toList ∧ ∀ env o k,
      fromJson env S o (k + 1) 0 (.obj [(f.name, .uint 1)]) = .ok ⟨0, [(1, .val (.i32 1))]⟩ ∧
      fromJson env S o (k + 1) 0 (.obj [(f.jsonName, .uint 1)]) = .ok ⟨0, [(f.number, .val (.i32 1))]⟩ ∧
      f.number = 2 := by
  obtain ⟨acc, p, h, _, _, _, hS⟩ := crossPool_view
  refine ⟨acc, p, crossSchema, h, hS, _, { Ex.fld 2 "b" .int32 with jsonName := nm "c", presence := true }, rfl,
    .tail _ (.head _), rfl, fun env o k => ⟨rfl, rfl, rfl⟩⟩

/-- **C43 fails** for that type when the declared names are written: a message in which `b` is set reads back
as one in which `a` is set. -/
theorem C43_names_false : ∃ acc p S, Accepts env0 acc p ∧ p.view = .ok S ∧ S.wf = true ∧ jsonWf S = true ∧
    ∃ m m' j, confMsg S m = true ∧ m.desc = 0 ∧ m'.desc = 0 ∧ ∀ env (so : SOpts) o k, so.protoNames = true →
      toJson env S so (k + 2) m = .ok j ∧ fromJson env S o (k + 2) 0 j = .ok m' ∧
      FieldSet.getValue m.fields 2 = some (.i32 1) ∧ FieldSet.getValue m'.fields 2 = none ∧
      FieldSet.getValue m.fields 1 = none ∧ FieldSet.getValue m'.fields 1 = some (.i32 1) := by
  obtain ⟨acc, p, h, _, _, _, hS⟩ := crossPool_view
  refine ⟨acc, p, crossSchema, h, hS, by decide +kernel, by decide +kernel, ⟨0, [(2, .val (.i32 1))]⟩,
    ⟨0, [(1, .val (.i32 1))]⟩, .obj [(nm "b", .uint 1)], by decide +kernel, rfl, rfl,
    fun env so o k hp => ⟨?_, rfl, rfl, rfl, rfl, rfl⟩⟩
  obtain ⟨s64, en, pn, sd⟩ := so
  cases hp
  cases sd <;> rfl

/-! ### Where extension numbers get in the way -/

/-- What a pool shows of `fileAny` and of `fileDup`, which extends `M` twice with the number 100. -/
def dupSchema : Schema where
  msgs := [{
    name := nm "google.protobuf.Any"
    fields := [{ Ex.fld 1 "type_url" .string with jsonName := nm "typeUrl" }, Ex.fld 2 "value" .bytes]
    mapEntry := false
    extensions := [] }, {
    name := nm "M"
    fields := []
    mapEntry := false
    extensions := [{ Ex.fld 100 "a" .int32 with jsonName := nm "[a]", presence := true },
      { Ex.fld 100 "b" .string with jsonName := nm "[b]", presence := true }] }]
  enums := []

def dupPool (acc : List FileP) (p : Pool) : Bool :=
  shaped acc p && named acc p && keyed p && crossless p && match p.view with
    | .ok S => decide (S = dupSchema)
    | .error _ => false

theorem dupPool_ex : ∃ acc p, Accepts env0 acc p ∧ dupPool acc p = true :=
  accept_ex (b := [fileAny, fileDup]) dupPool (by decide +kernel)

/-- **C69 and C58 fail** for a pool without `Apart`: reading `{"@type": "/M", "[b]": "x"}` as an `Any` panics, and
what `{"[b]": "x"}` gives panics when it is encoded. -/
theorem C69_apart_false : ∃ acc p S, Accepts env0 acc p ∧ Shaped acc p ∧ Named acc p ∧ Keyed p ∧ Crossless p ∧
    p.view = .ok S ∧ ∀ env, OrderOk env → ∀ o k,
      fromJson env S o (k + 1) 0 twiceJson = .error .panic ∧
      ∃ m, fromJson env S o (k + 1) 1 (.obj [("[b]".toList, .str "x".toList)]) = .ok m ∧ encMsg S m = none := by
  obtain ⟨acc, p, h, hc⟩ := dupPool_ex
  simp only [dupPool, Bool.and_eq_true] at hc
  obtain ⟨⟨⟨⟨c1, c2⟩, c3⟩, c4⟩, c5⟩ := hc
  refine ⟨acc, p, dupSchema, h, shaped_ok c1, named_ok c2, keyed_ok c3, crossless_ok c4, ?_, fun env hO o k => ?_⟩
  · split at c5
    · next S hS => rw [of_decide_eq_true c5] at hS; exact hS
    · cases c5
  · have ho : env.order [] = [] := (hO []).eq_nil
    have h1 : ∀ md, dupSchema.msg? 1 = some md →
        deEntries dupSchema o (deVal env dupSchema o (k + 1)) md (DynMsg.empty 1)
          [("[b]".toList, .str "x".toList)] = .ok ⟨1, [(100, .val (.str (utf8Encode "x".toList)))]⟩ := by
      intro md hmd; cases hmd; rfl
    have h2 : encMsg dupSchema ⟨1, [(100, .val (.str (utf8Encode "x".toList)))]⟩ = none := by decide +kernel
    obtain ⟨md, h4, h3⟩ : ∃ md, dupSchema.msg? 1 = some md ∧ wkt? md.name = none := ⟨_, rfl, by decide +kernel⟩
    obtain ⟨ma, h7, h8⟩ : ∃ md, dupSchema.msg? 0 = some md ∧ wkt? md.name = some .any := ⟨_, rfl, by decide +kernel⟩
    have h9 : findKey typeKey [] [("@type".toList, .str "/M".toList), ("[b]".toList, .str "x".toList)] =
        some ([], .str "/M".toList, [("[b]".toList, .str "x".toList)]) := rfl
    have h10 : Text.urlName "/M".toList = some "M".toList := by decide +kernel
    have h11 : Text.Schema.msgByName dupSchema "M".toList = some 1 := by decide +kernel
    have h12 : (wkt? "M".toList).isSome = false := by decide +kernel
    have h1 := h1 md h4
    constructor
    · simp only [fromJson, deMsg, h7, h8, twiceJson, deAny, h9, h10, h11, anyPayload, h12,
        Bool.false_eq_true, if_false, h4, ho]
      simp only [deEntries] at h1 ⊢
      simp only [h1, h2]
    · refine ⟨_, ?_, h2⟩
      simp only [fromJson, deMsg, h4, h3, h1]

/-- **C52 fails** for such a pool: parsing `[x/M]{[b]:"x"}` as an `Any` panics. -/
theorem C52_apart_false : ∃ acc p S, Accepts env0 acc p ∧ Shaped acc p ∧ Named acc p ∧ p.view = .ok S ∧
    ParsesFloats exEnv.parse64 ∧ parseText exEnv S 5 0 "[x/M]{[b]:\"x\"}".toList = .error .panic := by
  obtain ⟨acc, p, h, hc⟩ := dupPool_ex
  simp only [dupPool, Bool.and_eq_true] at hc
  obtain ⟨⟨⟨⟨c1, c2⟩, c3⟩, c4⟩, c5⟩ := hc
  refine ⟨acc, p, dupSchema, h, shaped_ok c1, named_ok c2, ?_, fun _ _ => rfl, by decide +kernel⟩
  split at c5
  · next S hS => rw [of_decide_eq_true c5] at hS; exact hS
  · cases c5

end Verif.Props
