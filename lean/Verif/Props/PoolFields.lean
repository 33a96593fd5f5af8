import Verif.Pool.Exts
import Verif.Props.PoolExample
/-!
Properties of the descriptors in a pool: C25 to C27, C30 to C32, C45.
-/
set_option autoImplicit false
namespace Verif.Props
open Verif.Wire Verif.Dyn Verif.Pool

/-- When `isPacked` holds, without reference to how it is computed. -/
theorem isPacked_iff {syn : Syn} {x : FieldP} {k : Kind} {g : Bool}
    (ho : syn = .proto2 ∨ x.options ≠ some none) : isPacked syn x (some (k, g)) = true ↔
      x.label = .repeated ∧ (∀ j, k ≠ .message j) ∧ k ≠ .string ∧ k ≠ .bytes ∧
        (x.options.join = some true ∨ (syn = .proto3 ∧ x.options.join ≠ some false)) := by
  have hp : k.packable = true ↔ (∀ j, k ≠ .message j) ∧ k ≠ .string ∧ k ≠ .bytes := by
    cases k <;> simp [Kind.packable]
  rcases hx : x.options with _ | _ | b
  · simp [isPacked, hx, hp, and_assoc]
  · cases syn <;> simp_all [isPacked]
  · cases b <;> simp [isPacked, hx, hp, and_assoc]

section
variable {env : Env} (hsr : SearchOk env.search) {acc : List FileP} {p : Pool}
include hsr

/-! ### C25 -/

/-- **C25, fields.** In every message declared in an accepted file the field numbers are pairwise
distinct, valid, not reserved, and outside the extension ranges.  (The last for fields that do
not carry an `extendee`; see `C25_false`.) -/
theorem C25_fields_partial (h : Hist env acc p) {j : Nat} {g : FileP} {path : Path} {s : Name} {m : MsgP}
    (hg : acc[j]? = some g) (hm : Has g path s (.message m)) :
    (m.fields.map (·.number)).Nodup ∧
    ∀ f ∈ m.fields, 1 ≤ f.number ∧ f.number ≤ 536870911 ∧
      ¬ (19000 ≤ f.number ∧ f.number ≤ 19999) ∧
      (∀ r ∈ m.reserved, ¬ (r.1 ≤ f.number ∧ f.number < r.2)) ∧
      (f.extendee = none → ∀ r ∈ m.extRanges, ¬ (r.1 ≤ f.number ∧ f.number < r.2)) := by
  have hD := h.desc hsr
  obtain ⟨e, he, hei⟩ := has_visited (o := {}) hg hm
  cases e <;> simp only [Event.item, Option.some.injEq, Prod.mk.injEq, reduceCtorEq, and_false,
    Item.message.injEq] at hei
  next path' full fi parent k m' =>
  obtain ⟨h0, rfl, rfl, rfl⟩ := hei
  obtain ⟨_, ⟨md, hk, hid, _, hl, _, hok⟩, _⟩ := hD.evs _ he
  have hfield : ∀ (i : Nat) f, m'.fields[i]? = some f → ∃ d, md.fields[i]? = some d ∧
      (d.number : Int) = f.number ∧ NumberOk m' f := by
    intro i f hf
    have hv := (visit_full acc {} _ he).1 i _ hf
    obtain ⟨_, fd, md', d, g1, g2, g3, g4, g5⟩ := hD.evs _ hv
    rw [hk] at g2; cases g2
    obtain ⟨md', x, y, k1, ⟨g', _, s', k2, _, k3, _⟩, k5⟩ := hD.number_ok g4
    rw [hk] at k1; cases k1
    have hfi : fi = j := by
      have : ({} : Offs).file = 0 := rfl
      omega
    subst hfi
    rw [hid] at k2 k3
    have k2 : acc[fi]? = some g' := k2
    rw [hg] at k2; cases k2
    have := hm.found.unique k3.found rfl
    cases this
    exact ⟨d, g3, g5.number, k5⟩
  constructor
  · refine nodup_map_of_inj fun i i' a b ha hb heq => ?_
    obtain ⟨d, d1, d2, _⟩ := hfield i a ha
    obtain ⟨d', d1', d2', _⟩ := hfield i' b hb
    exact hok.numbers.inj d1 d1' (by show d.number = d'.number; omega)
  · intro f hf
    obtain ⟨i, hi⟩ := List.getElem?_of_mem hf
    obtain ⟨d, _, _, hN⟩ := hfield i f hi
    have hv := hN.valid
    simp only [numberOk, Bool.and_eq_true, decide_eq_true_eq, Bool.not_eq_true',
      decide_eq_false_iff_not] at hv
    refine ⟨by omega, by omega, by omega, hN.reserved, ?_⟩
    intro hn r hr
    have := hN.ext
    rw [hn] at this
    simp only [Option.isSome_none, Bool.false_eq, List.any_eq_false] at this
    have := this r hr
    simpa [inRange] using this

/-- **C25, extensions.** The number of every extension declared with an `extendee` is valid, lies in
an extension range of the message it extends, and in none of its reserved ranges. -/
theorem C25_extensions (h : Hist env acc p) {e : Nat} {d : ExtD} (he : p.extensions[e]? = some d) :
    ∃ x y md m z, Stands acc p d.id (.extension x) (.extension y) ∧ (d.number : Int) = x.number ∧
      p.messages[d.extendee]? = some md ∧ Stands acc p md.id (.message m) (.message z) ∧
      1 ≤ x.number ∧ x.number ≤ 536870911 ∧ ¬ (19000 ≤ x.number ∧ x.number ≤ 19999) ∧
      (∀ r ∈ m.reserved, ¬ (r.1 ≤ x.number ∧ x.number < r.2)) ∧
      (x.extendee ≠ none → ∃ r ∈ m.extRanges, r.1 ≤ x.number ∧ x.number < r.2) := by
  have hD := h.desc hsr
  obtain ⟨path, full, fi, parent, f, fd, hv, hf, hN, hE⟩ := hD.extension_at he
  obtain ⟨md, m, z, k1, k2, k3⟩ := hD.number_ok hN
  obtain ⟨y, hy⟩ := hD.stands hv rfl hE.id
  have hvalid := k3.valid
  simp only [numberOk, Bool.and_eq_true, decide_eq_true_eq, Bool.not_eq_true',
    decide_eq_false_iff_not] at hvalid
  have hyy : ∃ y', y = .extension y' := by
    obtain ⟨_, _, _, _, _, _, _, h5, _⟩ := hy
    cases y <;> simp only [Item.strip, reduceCtorEq, Item.extension.injEq] at h5
    exact ⟨_, rfl⟩
  obtain ⟨y', rfl⟩ := hyy
  refine ⟨f, y', md, m, z, hy, hE.number, k1, k2, by omega, by omega, by omega, k3.reserved, ?_⟩
  intro hne
  have := k3.ext
  rw [Option.isSome_iff_ne_none.mpr hne] at this
  obtain ⟨r, hr, hir⟩ := List.any_eq_true.mp this.symm
  exact ⟨r, hr, by simpa [inRange] using hir⟩

/-! ### C26 -/

/-- **C26.** For every enum of a pool: looking up a number never panics and returns a value with that
number if one is declared, otherwise none; `values()` lists every declared value exactly once, by
ascending number; names are found exactly; without `allow_alias` the numbers are distinct; no
number lies in a reserved range (whose ends are inclusive). -/
theorem C26_enum (h : Hist env acc p) {k : Nat} {ed : EnumD} (hk : p.enums[k]? = some ed) :
    ∃ x, Stands acc p ed.id (.enum x) (.enum x) ∧
    (∀ n, ∃ r, ed.value? env n = .ok r ∧
      (∀ i, r = some i → ∃ v, x.values[i]? = some v ∧ v.number = n) ∧
      (r = none → ∀ v ∈ x.values, v.number ≠ n)) ∧
    ed.valueList.Perm (List.range x.values.length) ∧
    (∀ (a b i j : Nat) v w, a < b → ed.valueList[a]? = some i → ed.valueList[b]? = some j →
      x.values[i]? = some v → x.values[j]? = some w → v.number ≤ w.number) ∧
    (∀ n i, ed.valueByName? n = some i ↔ ∃ v, x.values[i]? = some v ∧ v.name = n) ∧
    (x.allowAlias = false → (x.values.map (·.number)).Nodup) ∧
    (∀ v ∈ x.values, ∀ r ∈ x.reserved, ¬ (r.1 ≤ v.number ∧ v.number ≤ r.2)) := by
  obtain ⟨x, hx, ha, hok, hl, _, hv⟩ := (h.desc hsr).values_of hk
  have hnum : ∀ n i, (n, i) ∈ ed.valueNumbers ↔ ∃ v, x.values[i]? = some v ∧ v.number = n := by
    intro n i
    rw [hok.numbers, List.take_length]
    constructor
    · rintro ⟨d, hd, hn⟩
      have hi : i < x.values.length := by rw [← hl]; exact getElem?_lt hd
      obtain ⟨⟨d', hd', _, h2⟩, _⟩ := hv i _ (List.getElem?_eq_getElem hi)
      simp only [hd] at hd'; cases hd'
      exact ⟨_, List.getElem?_eq_getElem hi, by rw [← h2]; exact hn⟩
    · rintro ⟨v, hi, hn⟩
      obtain ⟨⟨d', hd', _, h2⟩, _⟩ := hv i _ hi
      exact ⟨d', hd', h2.trans hn⟩
  refine ⟨x, hx, ?_, ?_, ?_, ?_, ?_, ?_⟩
  · intro n
    unfold EnumD.value?
    cases hs : env.search ed.valueNumbers n with
    | mk b i =>
      cases b with
      | false =>
        refine ⟨none, rfl, (by simp), ?_⟩
        rintro - v hv' rfl
        obtain ⟨j, hj⟩ := List.getElem?_of_mem hv'
        have hm := (hnum v.number j).2 ⟨v, hj, rfl⟩
        obtain ⟨_, h1, h2⟩ := hsr.miss _ _ _ hok.asc hs
        rw [← List.take_append_drop i ed.valueNumbers, List.mem_append] at hm
        rcases hm with hm | hm
        · exact absurd (h1 _ hm) (Int.lt_irrefl _)
        · exact absurd (h2 _ hm) (Int.lt_irrefl _)
      | true =>
        obtain ⟨j, hj⟩ := hsr.hit _ _ _ hok.asc hs
        simp only [hj]
        refine ⟨some j, rfl, ?_, (by simp)⟩
        rintro i' hi'
        cases hi'
        exact (hnum _ _).1 (List.mem_of_getElem? hj)
  · refine perm_of_cover _ _ List.nodup_range ?_ ?_
    · intro i hi
      rw [List.mem_range] at hi
      exact List.mem_map.2 ⟨_, (hnum _ i).2 ⟨_, List.getElem?_eq_getElem hi, rfl⟩, rfl⟩
    · rw [List.length_range, EnumD.valueList, List.length_map, hok.len, hl]; exact Nat.le_refl _
  · intro a b i j v w hab hia hjb hvi hwj
    simp only [EnumD.valueList, List.getElem?_map, Option.map_eq_some_iff] at hia hjb
    obtain ⟨⟨n, i'⟩, hia, rfl⟩ := hia
    obtain ⟨⟨n', j'⟩, hjb, rfl⟩ := hjb
    obtain ⟨v', h1, h2⟩ := (hnum _ _).1 (List.mem_of_getElem? hia)
    obtain ⟨w', h3, h4⟩ := (hnum _ _).1 (List.mem_of_getElem? hjb)
    rw [hvi] at h1; cases h1
    rw [hwj] at h3; cases h3
    rw [h2, h4]; exact pairwise_get hok.asc hab hia hjb
  · intro n i
    have := hok.names n i
    rw [List.take_length] at this
    rw [EnumD.valueByName?, this]
    constructor
    · rintro ⟨d, hd, hn⟩
      have hi : i < x.values.length := by rw [← hl]; exact getElem?_lt hd
      obtain ⟨⟨d', hd', h2, _⟩, _⟩ := hv i _ (List.getElem?_eq_getElem hi)
      rw [hd] at hd'; cases hd'
      exact ⟨_, List.getElem?_eq_getElem hi, by rw [← h2]; exact hn⟩
    · rintro ⟨v, hi, hn⟩
      obtain ⟨⟨d', hd', h2, _⟩, _⟩ := hv i _ hi
      exact ⟨d', hd', h2.trans hn⟩
  · intro hal
    have hs := hok.strict (ha.trans hal)
    refine nodup_map_of_inj fun i j a b hi hj heq => ?_
    obtain ⟨c, hc⟩ := List.getElem?_of_mem ((hnum _ i).2 ⟨a, hi, rfl⟩)
    obtain ⟨d, hd⟩ := List.getElem?_of_mem ((hnum _ j).2 ⟨b, hj, rfl⟩)
    rcases Nat.lt_trichotomy c d with hlt | heq' | hgt
    · have := pairwise_get hs hlt hc hd
      simp only at this; omega
    · subst heq'
      rw [hc] at hd
      simp only [Option.some.injEq, Prod.mk.injEq] at hd
      exact hd.2
    · have := pairwise_get hs hgt hd hc
      simp only at this; omega
  · intro v hm
    obtain ⟨i, hi⟩ := List.getElem?_of_mem hm
    exact (hv i v hi).2

/-- **C26, first value.** Every enum of a pool has a value; in a proto3 file the first is zero. -/
theorem C26_first (h : Hist env acc p) {k : Nat} {ed : EnumD} (hk : p.enums[k]? = some ed) :
    ∃ x fd, Stands acc p ed.id (.enum x) (.enum x) ∧ p.files[ed.id.file]? = some fd ∧
      ∃ v r, x.values = v :: r ∧ (fd.syn = .proto3 → v.number = 0) := by
  obtain ⟨x, hx, _, _, _, ⟨fd, h1, v, r, h2⟩, _⟩ := (h.desc hsr).values_of hk
  exact ⟨x, fd, hx, h1, v, r, h2⟩

/-! ### C27 -/

/-- **C27.** In every message of a pool, the three look-ups find a field exactly under its number, its
name and its JSON name; so no two fields share any of them.  `fields()` lists every field once,
by ascending number. -/
theorem C27_lookups (h : Hist env acc p) {k : Nat} {md : MsgD} (hk : p.messages[k]? = some md) :
    (∀ n i, md.field? n = some i ↔ ∃ d, md.fields[i]? = some d ∧ d.number = n) ∧
    (∀ n i, md.fieldByName? n = some i ↔ ∃ d, md.fields[i]? = some d ∧ d.id.name = n) ∧
    (∀ n i, md.fieldByJson? n = some i ↔ ∃ d, md.fields[i]? = some d ∧ d.jsonName = n) ∧
    md.fieldList.Perm (List.range md.fields.length) ∧
    (∀ (a b i j : Nat) d e, a < b → md.fieldList[a]? = some i → md.fieldList[b]? = some j →
      md.fields[i]? = some d → md.fields[j]? = some e → d.number < e.number) := by
  obtain ⟨_, _, _, _, _, _, _, _, _, _, hok⟩ := (h.desc hsr).message_at hk
  have hnum : ∀ n i, (n, i) ∈ md.fieldNumbers ↔ ∃ d, md.fields[i]? = some d ∧ d.number = n := by
    intro n i
    rw [SMap.mem_iff hok.sorted]
    exact hok.numbers n i
  refine ⟨hok.numbers, hok.names, hok.jsons, ?_, ?_⟩
  · refine perm_of_mem_iff _ _ List.nodup_range ?_ ?_
    · rw [MsgD.fieldList, List.Nodup, List.pairwise_map, List.pairwise_iff_getElem]
      intro a b ha hb hab heq
      obtain ⟨v, h1, h2⟩ := (hnum _ _).1 (List.getElem_mem ha)
      obtain ⟨w, h3, h4⟩ := (hnum _ _).1 (List.getElem_mem hb)
      have heq : (md.fieldNumbers.get ⟨a, ha⟩).2 = (md.fieldNumbers.get ⟨b, hb⟩).2 := heq
      have h3 : md.fields[(md.fieldNumbers.get ⟨b, hb⟩).2]? = some w := h3
      rw [heq, h3] at h1; cases h1
      have h4 : v.number = md.fieldNumbers[b].1 := h4
      have h2 : v.number = md.fieldNumbers[a].1 := h2
      have := pairwise_get (List.pairwise_map.1 (sortedFrom_keys hok.sorted)) hab
        (List.getElem?_eq_getElem ha) (List.getElem?_eq_getElem hb)
      omega
    · intro i
      rw [List.mem_range, MsgD.fieldList, List.mem_map]
      constructor
      · rintro ⟨⟨n, j⟩, hm, rfl⟩
        obtain ⟨_, h1, _⟩ := (hnum _ _).1 hm
        exact getElem?_lt h1
      · exact fun hi => ⟨_, (hnum _ i).2 ⟨_, List.getElem?_eq_getElem hi, rfl⟩, rfl⟩
  · intro a b i j v w hab hia hjb hvi hwj
    simp only [MsgD.fieldList, List.getElem?_map, Option.map_eq_some_iff] at hia hjb
    obtain ⟨⟨n, i'⟩, hia, rfl⟩ := hia
    obtain ⟨⟨n', j'⟩, hjb, rfl⟩ := hjb
    obtain ⟨v', h1, h2⟩ := (hnum _ _).1 (List.mem_of_getElem? hia)
    obtain ⟨w', h3, h4⟩ := (hnum _ _).1 (List.mem_of_getElem? hjb)
    rw [hvi] at h1; cases h1
    rw [hwj] at h3; cases h3
    have := pairwise_get (List.pairwise_map.1 (sortedFrom_keys hok.sorted)) hab hia hjb
    rw [h2, h4]; exact this

/-- **C27, declarations.** The fields of a message are the declared ones, in order, with the declared
name and number, and the declared JSON name if there is one. -/
theorem C27_declared (h : Hist env acc p) {k : Nat} {md : MsgD} (hk : p.messages[k]? = some md) :
    ∃ x y, Stands acc p md.id (.message x) (.message y) ∧ md.fields.length = x.fields.length ∧
      ∀ (i : Nat) f, x.fields[i]? = some f → ∃ d, md.fields[i]? = some d ∧ d.id.name = f.name ∧
        (d.number : Int) = f.number ∧ ∀ n, f.jsonName = some n → d.jsonName = n := by
  have hD := h.desc hsr
  obtain ⟨path, full, fi, parent, m, he, hid, hl, _, hf⟩ := hD.fields_of hk
  obtain ⟨y, hy⟩ := hD.stands he rfl hid
  have hyy : ∃ y', y = .message y' := by
    obtain ⟨_, _, _, _, _, _, _, h5, _⟩ := hy
    cases y <;> simp only [Item.strip, reduceCtorEq, Item.message.injEq] at h5
    exact ⟨_, rfl⟩
  obtain ⟨y', rfl⟩ := hyy
  refine ⟨m, y', hy, hl, fun i f hi => ?_⟩
  obtain ⟨fd, d, g1, g2, g3, g4⟩ := hf i f hi
  refine ⟨d, g2, by rw [g4.id]; exact Ident.mk'_name _ _ _ _, g4.number, fun n hn => ?_⟩
  rw [g4.json, jsonOf, hn]

/-! ### C30 -/

/-- **C30, fields.** A field is packed exactly if it is repeated, of a packable kind, and `packed` is set
to true, or left out in a proto3 file — provided it is not left out of an options message that is
present (`C30_false`). -/
theorem C30_fields_partial (h : Hist env acc p) {k i : Nat} {md : MsgD} {d : FieldD}
    (hk : p.messages[k]? = some md) (hi : md.fields[i]? = some d) :
    ∃ x y fd, Stands acc p d.id (.field x) (.field y) ∧ p.files[d.id.file]? = some fd ∧
      (fd.syn = .proto2 ∨ x.options ≠ some none →
        (d.packed = true ↔ x.label = .repeated ∧ (∀ j, d.kind ≠ .message j) ∧ d.kind ≠ .string ∧
          d.kind ≠ .bytes ∧ (x.options.join = some true ∨
            (fd.syn = .proto3 ∧ x.options.join ≠ some false)))) := by
  obtain ⟨x, y, fd, h1, h2, _, h3⟩ := (h.desc hsr).field_is hk hi
  refine ⟨x, y, fd, h1, h2, fun ho => ?_⟩
  rw [h3.packed]
  exact isPacked_iff ho

/-- **C30, extensions.** -/
theorem C30_extensions_partial (h : Hist env acc p) {k : Nat} {d : ExtD}
    (hk : p.extensions[k]? = some d) :
    ∃ x y fd, Stands acc p d.id (.extension x) (.extension y) ∧
      p.files[d.id.file]? = some fd ∧
      (fd.syn = .proto2 ∨ x.options ≠ some none →
        (d.packed = true ↔ x.label = .repeated ∧ (∀ j, d.kind ≠ .message j) ∧ d.kind ≠ .string ∧
          d.kind ≠ .bytes ∧ (x.options.join = some true ∨
            (fd.syn = .proto3 ∧ x.options.join ≠ some false)))) := by
  obtain ⟨x, y, fd, h1, h2, _, h3⟩ := (h.desc hsr).extension_is hk
  refine ⟨x, y, fd, h1, h2, fun ho => ?_⟩
  rw [h3.packed]
  exact isPacked_iff ho

/-! ### C31 -/

/-- **C31, what holds.** If a message that says it is a map entry declares fields 1 and 2 then the two
accessors return them. -/
theorem C31_partial (h : Hist env acc p) {k : Nat} {md : MsgD} (hk : p.messages[k]? = some md) :
    ∃ x y, Stands acc p md.id (.message x) (.message y) ∧
      ((∃ f ∈ x.fields, f.number = 1) → ∃ i f, x.fields[i]? = some f ∧ f.number = 1 ∧
        p.mapKeyField k = .ok i) ∧
      ((∃ f ∈ x.fields, f.number = 2) → ∃ i f, x.fields[i]? = some f ∧ f.number = 2 ∧
        p.mapValueField k = .ok i) := by
  obtain ⟨x, y, h1, h2, h3⟩ := C27_declared hsr h hk
  obtain ⟨hl, _⟩ := C27_lookups hsr h hk
  refine ⟨x, y, h1, ?_, ?_⟩
  · rintro ⟨f, hf, hn⟩
    obtain ⟨i, hi⟩ := List.getElem?_of_mem hf
    obtain ⟨d, g1, _, g2, _⟩ := h3 i f hi
    refine ⟨i, f, hi, hn, ?_⟩
    simp only [Pool.mapKeyField, getR, hk]
    show unwrapR (md.field? 1) = _
    rw [(hl 1 i).2 ⟨d, g1, by omega⟩]; rfl
  · rintro ⟨f, hf, hn⟩
    obtain ⟨i, hi⟩ := List.getElem?_of_mem hf
    obtain ⟨d, g1, _, g2, _⟩ := h3 i f hi
    refine ⟨i, f, hi, hn, ?_⟩
    simp only [Pool.mapValueField, getR, hk]
    show unwrapR (md.field? 2) = _
    rw [(hl 2 i).2 ⟨d, g1, by omega⟩]; rfl

/-! ### C32 -/

/-- **C32, what holds.** As long as no addition failed, `get_extension` never panics and returns an
extension of that message with that number if there is one, otherwise none. -/
theorem C32_lookup_partial (h : Accepts env acc p) {k : Nat} (hk : k < p.messages.length) (n : Nat) :
    ∃ r, p.extension? k n = .ok r ∧
      (∀ e, r = some e → ∃ d, p.extensions[e]? = some d ∧ d.extendee = k ∧ d.number = n) ∧
      (r = none → ∀ d ∈ p.extensions, ¬ (d.extendee = k ∧ d.number = n)) := by
  have hm := List.getElem?_eq_getElem hk
  obtain ⟨_, hx⟩ := h.exts hsr k _ hm
  obtain ⟨r, h1, h2, h3⟩ := findExtension_spec (p := p) (t := fun e => e.number == n)
    (l := (p.messages[k]).extensions) (fun i hi => by
      obtain ⟨d, hd, _⟩ := (hx i).1 hi
      exact getElem?_lt hd)
  refine ⟨r, ?_, ?_, ?_⟩
  · simp only [Pool.extension?, getR, hm]; exact h1
  · intro e he
    obtain ⟨g1, d, g2, g3⟩ := h2 e he
    obtain ⟨d', g4, g5⟩ := (hx e).1 g1
    rw [g2] at g4; cases g4
    exact ⟨d, g2, g5, by simpa using g3⟩
  · rintro hr d hd ⟨h4, h5⟩
    obtain ⟨e, he⟩ := List.getElem?_of_mem hd
    have := h3 hr e ((hx e).2 ⟨d, he, h4⟩) d he
    simp only [beq_eq_false_iff_ne, ne_eq] at this
    exact this h5

end

/-! ### C45 -/

/-- The first letter in upper case. -/
def capitalised : Name → Name
  | [] => []
  | c :: r => c.toUpper :: r

theorem toJsonName_clean (b : Bool) : ∀ w : Name, '_' ∉ w →
    toJsonName b w = if b then capitalised w else w
  | [], _ => by cases b <;> rfl
  | c :: r, h => by
    simp only [List.mem_cons, not_or] at h
    have ih := toJsonName_clean false r h.2
    simp only [Bool.false_eq_true, if_false] at ih
    rw [toJsonName, if_neg (fun e => h.1 e.symm), ih]
    cases b <;> rfl

theorem toJsonName_word (n : Name) : ∀ (w : Name) (b : Bool), '_' ∉ w →
    toJsonName b (w ++ '_' :: n) = toJsonName b w ++ toJsonName true n
  | [], b, _ => by simp [toJsonName]
  | c :: r, b, h => by
    simp only [List.mem_cons, not_or] at h
    have hc : ¬ c = '_' := fun e => h.1 e.symm
    have ih := toJsonName_word n r false h.2
    cases b <;> simp [toJsonName, hc, ih]

/-- **C45.** The derived JSON name of words joined by underscores is the first word followed by the
other words with their first letter in upper case. -/
theorem C45_words (w : Name) (ws : List Name) (h : ∀ v ∈ w :: ws, '_' ∉ v) :
    toJsonName false (List.intercalate ['_'] (w :: ws)) = w ++ (ws.map capitalised).flatten := by
  have key : ∀ (ws : List Name) (w : Name) (b : Bool), (∀ v ∈ w :: ws, '_' ∉ v) →
      toJsonName b (List.intercalate ['_'] (w :: ws)) =
        (if b then capitalised w else w) ++ (ws.map capitalised).flatten := by
    intro ws
    induction ws with
    | nil =>
      intro w b h
      simpa [List.intercalate] using toJsonName_clean b w (h w (List.mem_cons_self ..))
    | cons v ws ih =>
      intro w b h
      have h1 := h w (List.mem_cons_self ..)
      have := ih v true fun u hu => h u (List.mem_cons_of_mem _ hu)
      simp only [if_true] at this
      rw [show List.intercalate ['_'] (w :: v :: ws) = w ++ '_' :: List.intercalate ['_'] (v :: ws) by
        simp [List.intercalate], toJsonName_word _ _ _ h1, toJsonName_clean b w h1, this]
      simp
  simpa using key ws w false h

/-- Every name is such a list of words. -/
theorem C45_every_name : ∀ n : Name, ∃ w ws, (∀ v ∈ w :: ws, '_' ∉ v) ∧
    n = List.intercalate ['_'] (w :: ws)
  | [] => ⟨[], [], by simp, by simp [List.intercalate]⟩
  | c :: n => by
    obtain ⟨w, ws, h1, h2⟩ := C45_every_name n
    by_cases hc : c = '_'
    · refine ⟨[], w :: ws, ?_, ?_⟩
      · intro v hv
        rcases List.mem_cons.1 hv with rfl | hv
        · simp
        · exact h1 v hv
      · rw [hc, h2]; simp [List.intercalate]
    · refine ⟨c :: w, ws, ?_, ?_⟩
      · intro v hv
        rcases List.mem_cons.1 hv with rfl | hv
        · intro hm
          rcases List.mem_cons.1 hm with hm | hm
          · exact hc hm.symm
          · exact h1 w (List.mem_cons_self ..) hm
        · exact h1 v (List.mem_cons_of_mem _ hv)
      · rw [h2]
        cases ws <;> simp [List.intercalate]

theorem toUpper_ne_underscore (c : Char) (h : c ≠ '_') : c.toUpper ≠ '_' := by
  unfold Char.toUpper
  split
  · next hc =>
    intro he
    have := congrArg Char.val he
    simp only at this
    have h1 : c.val = '_'.val - ('A'.val - 'a'.val) := by rw [← this]; simp
    have h2 := hc.2
    rw [h1] at h2
    exact absurd h2 (by decide)
  · exact h

/-- **C45.** It contains no underscore and is the name itself if that has none. -/
theorem C45_clean (n : Name) : '_' ∉ toJsonName false n ∧
    ('_' ∉ n → toJsonName false n = n) := by
  refine ⟨?_, fun h => by simpa using toJsonName_clean false n h⟩
  have key : ∀ (n : Name) (b : Bool), '_' ∉ toJsonName b n := by
    intro n
    induction n with
    | nil => intro b; cases b <;> simp [toJsonName]
    | cons c r ih =>
      intro b
      rw [toJsonName]
      split
      · exact ih true
      · next hc =>
        split
        · intro hm
          rcases List.mem_cons.1 hm with hm | hm
          · exact toUpper_ne_underscore c hc hm.symm
          · exact ih false hm
        · intro hm
          rcases List.mem_cons.1 hm with hm | hm
          · exact hc hm.symm
          · exact ih false hm
  exact key n false

/-- **C45, pools.** The JSON name of a field is the declared one, otherwise the derived one; that of an
extension is its full name in brackets. -/
theorem C45_fields {env : Env} (hsr : SearchOk env.search) {acc : List FileP} {p : Pool}
    (h : Hist env acc p) {k i : Nat} {md : MsgD} {d : FieldD}
    (hk : p.messages[k]? = some md) (hi : md.fields[i]? = some d) :
    ∃ x y, Stands acc p d.id (.field x) (.field y) ∧
      (∀ n, x.jsonName = some n → d.jsonName = n) ∧
      (x.jsonName = none → d.jsonName = toJsonName false x.name) := by
  obtain ⟨x, y, fd, h1, _, _, h3⟩ := (h.desc hsr).field_is hk hi
  refine ⟨x, y, h1, fun n hn => ?_, fun hn => ?_⟩ <;> rw [h3.json, jsonOf, hn]

theorem C45_extensions {env : Env} (hsr : SearchOk env.search) {acc : List FileP} {p : Pool}
    (h : Hist env acc p) {k : Nat} {d : ExtD} (hk : p.extensions[k]? = some d) :
    d.jsonName = ['['] ++ d.id.fullName ++ [']'] := by
  obtain ⟨x, y, fd, _, _, _, h3⟩ := (h.desc hsr).extension_is hk
  exact h3.json

example : toJsonName false (nm "foo__bar_baz_1") = nm "fooBarBaz1" := by decide +kernel
example : toJsonName false (nm "_foo_Bar_") = nm "FooBar" := by decide +kernel

/-! ### Examples and counterexamples -/

/-- The history of fileA, then a failing file, then fileB meets the hypotheses of C25 to C27: -/
example : ∃ acc p, Hist env0 acc p ∧ (acc.map (·.name) == [nm "a.proto", nm "b.proto"] &&
    p.messages.map (·.fieldList) == [[0, 1, 2, 3], [], [0]] &&
    p.enums.map (·.valueList) == [[0, 1]] && p.extensions.map (·.number) == [100]) = true :=
  run_ex [[fileA], [{ name := nm "x", messages := [{}, {}] }], [fileB]] _ (by decide +kernel)

/-- An enum declared out of order, with aliases. -/
def fileEnum : FileP where
  name := nm "e.proto"
  enums := [{
    name := nm "E", allowAlias := true, reserved := [(3, 4)]
    values := [⟨nm "C", 5⟩, ⟨nm "A", -1⟩, ⟨nm "B", 2⟩, ⟨nm "B2", 2⟩] }]

example : ∃ acc p, Hist env0 acc p ∧ (p.enums.map (·.valueList) == [[1, 3, 2, 0]] &&
    p.enums.all (fun e => (match e.value? env0 2 with | .ok r => r.isSome | _ => false) &&
      (match e.value? env0 3 with | .ok r => r.isNone | _ => false))) = true :=
  run_ex [[fileEnum]] _ (by decide +kernel)

/-- The reserved range of an enum includes both ends: such values are rejected. -/
example : (match buildFiles env0 Pool.empty [{ fileEnum with enums := [{
    name := nm "E", reserved := [(3, 4)], values := [⟨nm "A", 4⟩] }] }] with
    | .ok ⟨_, es⟩ => es.length == 1
    | _ => false) = true := by decide +kernel

/-- `message M { extensions 100 to 199; }` whose regular field 100 carries an `extendee`. -/
def fileOdd : FileP where
  name := nm "odd.proto"
  messages := [{ name := nm "M", extRanges := [(100, 200)], fields := [
    { name := nm "f", number := 100, ty := .int32, extendee := some (nm "M") }] }]

/-- **C25 fails** for a regular field that carries an `extendee`: it is accepted inside an extension
range of its message. -/
theorem C25_false : ∃ acc p, Hist env0 acc p ∧ ∃ g ∈ acc, ∃ m ∈ g.messages, ∃ f ∈ m.fields,
    ∃ r ∈ m.extRanges, r.1 ≤ f.number ∧ f.number < r.2 := by
  obtain ⟨acc, p, h, hc⟩ := run_ex [[fileOdd]] (fun acc _ => acc.any fun g => g.messages.any fun m =>
    m.fields.any fun f => m.extRanges.any fun r => r.1 ≤ f.number && f.number < r.2)
    (by decide +kernel)
  simp only [List.any_eq_true, Bool.and_eq_true, decide_eq_true_eq] at hc
  exact ⟨acc, p, h, hc⟩

/-- `syntax = "proto3"; message M { repeated int32 a = 1 [deprecated = true]; repeated int32 b = 2; }` -/
def fileUnpacked : FileP where
  name := nm "u.proto"
  syn := some (nm "proto3")
  messages := [{ name := nm "M", fields := [
    { name := nm "a", number := 1, label := .repeated, ty := .int32, options := some none },
    { name := nm "b", number := 2, label := .repeated, ty := .int32 }] }]

/-- **C30 fails**: a repeated integer field of a proto3 file with any options at all that do not mention
`packed` is not packed. -/
theorem C30_false : ∃ acc p, Hist env0 acc p ∧ (acc.map (·.syn) == [some (nm "proto3")] &&
    acc.all (fun f => f.messages.all fun m => m.fields.all fun x => x.label == .repeated &&
      x.ty == .int32 && x.options.join != some false) &&
    p.messages.map (fun m => m.fields.map (·.packed)) == [[false, true]]) = true :=
  run_ex [[fileUnpacked]] _ (by decide +kernel)

/-- `message M { message E { option map_entry = true; } }` -/
def fileNoKey : FileP where
  name := nm "k.proto"
  messages := [{ name := nm "E", options := some (some true) }]

/-- **C31 fails**: a message without fields may say it is a map entry; then asking for its key panics. -/
theorem C31_false : ∃ acc p, Hist env0 acc p ∧
    ((match p.isMapEntry 0 with | .ok b => b | _ => false) &&
      (match p.mapKeyField 0 with | .error .index => true | _ => false) &&
      (match p.mapValueField 0 with | .error .index => true | _ => false)) = true :=
  run_ex [[fileNoKey]] _ (by decide +kernel)

/-- `message M { extensions 100 to 199; } extend M { int32 a = 100; string b = 100; }` -/
def fileDup : FileP where
  name := nm "d.proto"
  messages := [{ name := nm "M", extRanges := [(100, 200)] }]
  exts := [{ name := nm "a", number := 100, ty := .int32, extendee := some (nm "M") },
    { name := nm "b", number := 100, ty := .string, extendee := some (nm "M") }]

/-- **C32 fails**: two extensions of a message with the same number are accepted. -/
theorem C32_false : ∃ acc p, Hist env0 acc p ∧
    (p.extensions.map (fun e => (e.number, e.extendee)) == [(100, 0), (100, 0)] &&
      (match p.extension? 0 100 with | .ok (some 0) => true | _ => false)) = true :=
  run_ex [[fileDup]] _ (by decide +kernel)

end Verif.Props
