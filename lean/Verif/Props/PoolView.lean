import Verif.Pool.View
import Verif.Props.PoolFields
import Verif.Props.PoolNames
import Verif.Text.Format
/-!
C68: what a pool built through the API shows to dynamic messages.

The theorems about dynamic messages, JSON and text are about a `Schema` with `Schema.wf`.  The
theorems here say that the schema is the one the accessors of the pool answer with, and that it is
well-formed whenever the declarations have the shape that `protoc` enforces and the pool does not
check.
-/
set_option autoImplicit false
namespace Verif.Props
open Verif.Wire Verif.Dyn Verif.Pool

section
variable {env : Env} (hsr : SearchOk env.search) {acc : List FileP} {p : Pool}
include hsr

theorem isMapEntry_ok (h : Hist env acc p) {k : Nat} {md : MsgD} (hk : p.messages[k]? = some md) :
    ∃ b, p.isMapEntry k = .ok b := by
  have hD := h.desc hsr
  obtain ⟨x, y, ⟨f, fd, s, h1, h2, h3, h4, _⟩, _⟩ := hD.message_stands hk
  obtain ⟨_, _, _, _, hp, _⟩ := hD.file_inv h2
  have hy : findMsg fd.raw md.id.path = some y := hp ▸ h4.found.2
  refine ⟨match y.options with
    | some o => o == some true
    | none => false, ?_⟩
  simp only [Pool.isMapEntry, getR, hk, h2, hy, unwrapR, bind, Except.bind]
  rfl

/-- **C68, the view exists.** As long as no addition failed, none of the accessors that dynamic
messages use panics. -/
theorem C68_total (h : Accepts env acc p) : ∃ S, p.view = .ok S := by
  have : ∀ k ∈ List.range p.messages.length, ∃ m, p.msgView k = .ok m := by
    intro k hk
    have hlt := List.mem_range.1 hk
    have hm := List.getElem?_eq_getElem hlt
    obtain ⟨b, hb⟩ := isMapEntry_ok hsr h.hist hm
    obtain ⟨_, hx⟩ := h.exts hsr k _ hm
    obtain ⟨xs, hxs⟩ : ∃ xs, p.extensionsOf p.messages[k] = .ok xs := by
      refine mapR_total fun e he => ?_
      obtain ⟨d, hd, _⟩ := (hx e).1 he
      exact ⟨d, getR_ok.2 hd⟩
    refine ⟨⟨p.messages[k].id.fullName, p.messages[k].fields.map FieldD.view, b, xs.map ExtD.view⟩, ?_⟩
    simp only [Pool.msgView, getR_ok.2 hm, hb, hxs]
  obtain ⟨ms, hms⟩ := mapR_total this
  refine ⟨⟨ms, p.enums.map EnumD.view⟩, ?_⟩
  simp only [Pool.view, hms]

omit hsr in
theorem find?_map_key {α β κ : Type} [BEq κ] [LawfulBEq κ] {l : List α} {g : α → β} {key : β → κ} {n : κ} :
    (l.map g).find? (fun b => key b == n) = (l.find? (fun a => key (g a) == n)).map g := by
  rw [List.find?_map]; rfl

omit hsr in
theorem find?_idx {α κ : Type} [BEq κ] [LawfulBEq κ] {t : κ → Option Nat} {l : List α} {key : α → κ}
    (h : ∀ n i, t n = some i ↔ ∃ a, l[i]? = some a ∧ key a = n) (n : κ) :
    l.find? (fun a => key a == n) = (t n).bind fun i => l[i]? := by
  cases ht : t n with
  | none =>
    rw [Option.bind_none, List.find?_eq_none]
    intro a ha
    obtain ⟨i, hi⟩ := List.getElem?_of_mem ha
    intro hk
    have := (h n i).2 ⟨a, hi, by simpa using hk⟩
    rw [ht] at this; cases this
  | some i =>
    obtain ⟨a, ha, hk⟩ := (h n i).1 ht
    rw [Option.bind_some, ha]
    cases hf : l.find? (fun a => key a == n) with
    | none =>
      have := List.find?_eq_none.1 hf a (List.mem_of_getElem? ha)
      simp [hk] at this
    | some b =>
      obtain ⟨j, hj⟩ := List.getElem?_of_mem (List.mem_of_find?_eq_some hf)
      have hb : key b = n := by simpa using List.find?_some hf
      have := (h n j).2 ⟨b, hj, hb⟩
      rw [ht] at this; cases this
      rw [ha] at hj; exact hj.symm

omit hsr in
theorem findExtension_view {t : ExtD → Bool} : ∀ {l : List Nat} {xs : List ExtD}, xs.length = l.length →
    (∀ (i e : Nat), l[i]? = some e → ∃ x, xs[i]? = some x ∧ p.extensions[e]? = some x) →
    ∃ r, findExtension p t l = .ok r ∧ xs.find? t = r.bind fun e => p.extensions[e]?
  | [], [], _, _ => ⟨none, rfl, rfl⟩
  | e :: l, x :: xs, hl, h => by
    obtain ⟨x', h1, h2⟩ := h 0 e rfl
    simp only [List.getElem?_cons_zero, Option.some.injEq] at h1
    subst h1
    simp only [findExtension, h2]
    cases ht : t x with
    | true => exact ⟨some e, by simp, by rw [List.find?_cons_of_pos ht]; simp [h2]⟩
    | false =>
      obtain ⟨r, h3, h4⟩ := findExtension_view (t := t) (l := l) (xs := xs) (by simpa using hl)
        fun i e he => by simpa using h (i + 1) e (by simpa using he)
      exact ⟨r, by simpa using h3, by rw [List.find?_cons_of_neg (by simp [ht])]; exact h4⟩
  | [], _ :: _, hl, _ => by simp at hl
  | _ :: _, [], hl, _ => by simp at hl

/-- **C68, the view answers like the pool.** Number, name and JSON name of a field, number, full name
and JSON name of an extension, the name of the message and whether it is a map entry. -/
theorem C68_message (h : Hist env acc p) {S : Schema} (hS : p.view = .ok S) {k : Nat} {md : MsgD}
    (hk : p.messages[k]? = some md) : ∃ m, S.msg? k = some m ∧ m.name = md.id.fullName ∧
      p.isMapEntry k = .ok m.mapEntry ∧
      (∀ n, m.getField n = ((md.field? n).bind fun i => md.fields[i]?).map FieldD.view) ∧
      (∀ n, m.fields.find? (fun f => f.name == n) =
        ((md.fieldByName? n).bind fun i => md.fields[i]?).map FieldD.view) ∧
      (∀ n, m.fields.find? (fun f => f.jsonName == n) =
        ((md.fieldByJson? n).bind fun i => md.fields[i]?).map FieldD.view) ∧
      (∀ n, ∃ r, p.extension? k n = .ok r ∧
        m.getExtension n = (r.bind fun e => p.extensions[e]?).map ExtD.view) ∧
      (∀ n, ∃ r, p.extensionByFullName? k n = .ok r ∧
        m.extensions.find? (fun f => f.name == n) = (r.bind fun e => p.extensions[e]?).map ExtD.view) := by
  obtain ⟨_, _, hms⟩ := view_ok hS
  obtain ⟨m, hm, hv⟩ := hms k md hk
  obtain ⟨h1, h2, h3, _⟩ := C27_lookups hsr h hk
  obtain ⟨xs, hx, hl, hxe⟩ := hv.exts
  refine ⟨m, hm, hv.name, hv.entry, fun n => ?_, fun n => ?_, fun n => ?_, fun n => ?_, fun n => ?_⟩
  · rw [MsgDesc.getField, hv.fields, find?_map_key, ← find?_idx (key := FieldD.number) h1]; rfl
  · rw [hv.fields, find?_map_key, ← find?_idx (key := fun d : FieldD => d.id.name) h2]; rfl
  · rw [hv.fields, find?_map_key, ← find?_idx (key := FieldD.jsonName) h3]; rfl
  · obtain ⟨r, h4, h5⟩ := findExtension_view (t := fun e => e.number == n) hl hxe
    refine ⟨r, by simp only [Pool.extension?, getR, hk]; exact h4, ?_⟩
    rw [MsgDesc.getExtension, hx, find?_map_key, ← h5]; rfl
  · obtain ⟨r, h4, h5⟩ := findExtension_view (t := fun e => e.id.fullName == n) hl hxe
    refine ⟨r, by simp only [Pool.extensionByFullName?, getR, hk]; exact h4, ?_⟩
    rw [hx, find?_map_key, ← h5]; rfl

/-- **C68, message names.** -/
theorem C68_name (h : Hist env acc p) {S : Schema} (hS : p.view = .ok S) (n : Name) :
    Text.Schema.msgByName S n = p.messageByName n := by
  obtain ⟨hl, _, hms⟩ := view_ok hS
  have key : ∀ k m, S.msg? k = some m → (m.name = stripDot n ↔ p.messageByName n = some k) := by
    intro k m hm
    obtain ⟨md, h1, h2⟩ := view_msg hS hm
    rw [C18_message hsr h, h2.name]
    constructor
    · intro he; exact ⟨md, h1, he⟩
    · rintro ⟨d, h3, h4⟩; rw [h1] at h3; cases h3; exact h4
  have hdef : Text.Schema.msgByName S n = S.msgs.findIdx? (fun m => m.name == stripDot n) := by
    unfold Text.Schema.msgByName
    congr 1
  rw [hdef]
  cases hp : p.messageByName n with
  | none =>
    rw [List.findIdx?_eq_none_iff]
    intro m hm
    obtain ⟨k, hk⟩ := List.getElem?_of_mem hm
    have := (key k m hk)
    rw [hp] at this
    simp only [reduceCtorEq, iff_false] at this
    simpa using this
  | some k =>
    obtain ⟨md, h1, h2⟩ := (C18_message hsr h n k).1 hp
    obtain ⟨m, h3, h4⟩ := hms k md h1
    rw [List.findIdx?_eq_some_iff_getElem]
    obtain ⟨hlt, hget⟩ := List.getElem?_eq_some_iff.1 h3
    refine ⟨hlt, ?_, fun j hj => ?_⟩
    · rw [hget, h4.name, h2]; simp
    · have := key j _ (List.getElem?_eq_getElem (Nat.lt_trans hj hlt))
      rw [hp] at this
      have hne : ¬ (S.msgs[j]'(Nat.lt_trans hj hlt)).name = stripDot n := by
        rw [this]
        simp only [Option.some.injEq]
        omega
      simpa using hne

/-- **C68, enums.** The names and numbers of the view of an enum are the declared ones, in order. -/
theorem C68_enum (h : Hist env acc p) {S : Schema} (hS : p.view = .ok S) {k : Nat} {ed : EnumD}
    (hk : p.enums[k]? = some ed) : ∃ x e, Stands acc p ed.id (.enum x) (.enum x) ∧ S.enums[k]? = some e ∧
      e.name = ed.id.fullName ∧ e.values = x.values.map (fun v => (v.name, BitVec.ofInt 32 v.number)) ∧
      ∀ n, (e.values.find? (fun v => v.1 == n)).map (·.2) =
        ((ed.valueByName? n).bind fun i => x.values[i]?).map (fun v => BitVec.ofInt 32 v.number) := by
  obtain ⟨x, hx, _, hok, hl, _, hv⟩ := (h.desc hsr).values_of hk
  obtain ⟨_, he, _⟩ := view_ok hS
  have hvals : ed.view.values = x.values.map (fun v => (v.name, BitVec.ofInt 32 v.number)) := by
    apply List.ext_getElem?
    intro i
    simp only [EnumD.view, List.getElem?_map]
    cases hi : x.values[i]? with
    | none =>
      rw [List.getElem?_eq_none_iff] at hi
      rw [List.getElem?_eq_none_iff.2 (by omega)]; rfl
    | some v =>
      obtain ⟨⟨d, h1, h2, h3⟩, _⟩ := hv i v hi
      rw [h1]; simp only [Option.map_some, h2, h3]
  refine ⟨x, ed.view, hx, by rw [he, List.getElem?_map, hk]; rfl, rfl, hvals, fun n => ?_⟩
  obtain ⟨x', hx', _, _, _, hn, _⟩ := C26_enum hsr h hk
  have hxx : x' = x := by
    obtain ⟨_, _, _, a1, a2, a3, _⟩ := hx
    obtain ⟨_, _, _, b1, b2, b3, _⟩ := hx'
    rw [a1] at b1; cases b1
    have := b3.found.unique a3.found rfl
    cases this; rfl
  subst hxx
  rw [hvals, find?_map_key (g := fun v : EnumValueP => (v.name, BitVec.ofInt 32 v.number)),
    ← find?_idx (key := EnumValueP.name) hn]
  cases x'.values.find? _ <;> rfl

/-! ### Well-formedness -/

/-- What `protoc` enforces for a repeated field or extension and the pool does not check. -/
def ListShaped (f : FieldP) : Prop :=
  f.label = .repeated → f.oneofIndex = none ∧ f.default = none ∧ f.proto3Optional = false

/-- The types of map keys. -/
def KeyType (t : PType) : Prop :=
  t ∈ [.int32, .int64, .uint32, .uint64, .sint32, .sint64, .fixed32, .fixed64, .sfixed32, .sfixed64,
    .bool, .string]

/-- The declarations have the shape that `protoc` gives them: repeated fields are not in a oneof,
have no default and are not `optional`; extensions, and no other fields, name the message they
extend; a message that says it is a map entry has a singular field 1 of a type for keys and a
singular field 2. -/
structure Shaped (acc : List FileP) (p : Pool) : Prop where
  field : ∀ (j : Nat) g path s f, acc[j]? = some g → Has g path s (.field f) →
    ListShaped f ∧ f.extendee = none
  extension : ∀ (j : Nat) g path s f, acc[j]? = some g → Has g path s (.extension f) →
    ListShaped f ∧ f.extendee ≠ none
  entry : ∀ (k : Nat) md g s m, p.messages[k]? = some md → acc[md.id.file]? = some g →
    Has g md.id.path s (.message m) → p.isMapEntry k = .ok true →
    (∃ f ∈ m.fields, f.number = 1 ∧ f.label ≠ .repeated ∧ f.typeName = [] ∧ KeyType f.ty) ∧
    ∃ f ∈ m.fields, f.number = 2 ∧ f.label ≠ .repeated

omit hsr in
theorem defaultOf_scalarOk {enums : List EnumD} {k : Kind} {s : Name} {w : Value}
    (h : defaultOf env enums k s = .ok (some w)) : scalarOk k w = true := by
  unfold defaultOf at h
  split at h
  · cases h
  · split at h
    · cases h
    · simp only [Except.ok.injEq, Option.map_eq_some_iff] at h
      obtain ⟨v, _, rfl⟩ := h
      rfl
  · unfold parseSimple at h
    split at h
    all_goals try
      simp only [Except.ok.injEq, Option.map_eq_some_iff, Option.some.injEq] at h
    · obtain ⟨_, _, rfl⟩ := h; rfl
    · obtain ⟨_, _, rfl⟩ := h; rfl
    · obtain ⟨_, _, rfl⟩ := h; rfl
    · obtain ⟨_, _, rfl⟩ := h; rfl
    · obtain ⟨_, _, rfl⟩ := h; rfl
    · obtain ⟨_, _, rfl⟩ := h; rfl
    · obtain ⟨_, _, rfl⟩ := h; rfl
    · obtain ⟨_, _, rfl⟩ := h; rfl
    · obtain ⟨_, _, rfl⟩ := h; rfl
    · obtain ⟨_, _, rfl⟩ := h; rfl
    · obtain ⟨_, _, rfl⟩ := h; rfl
    · obtain ⟨_, _, rfl⟩ := h; rfl
    · obtain ⟨_, _, rfl⟩ := h; rfl
    · subst h; simp only [scalarOk, utf8Valid_encode, Bool.and_true]; rfl
    · split at h
      · simp only [Except.ok.injEq, Option.map_eq_some_iff] at h
        obtain ⟨_, _, rfl⟩ := h; rfl
      · cases h
    · cases h
    · cases h

omit hsr in
theorem number_valid {d : Nat} {n : Int} (hd : (d : Int) = n) (h : numberOk n = true) : ValidNumber d := by
  simp only [numberOk, Bool.and_eq_true, decide_eq_true_eq] at h
  unfold ValidNumber
  omega

omit hsr in
theorem default_ok {enums : List EnumD} {k : Kind} {s : Option Name} {v : Option Value}
    (h : DefaultOk env enums k s v) (w : Value) (hw : v = some w) : scalarOk k w = true := by
  cases s with
  | none => rw [show v = none from h] at hw; cases hw
  | some s =>
    obtain ⟨w', h1, h2⟩ := h
    rw [h1] at hw; cases hw
    exact defaultOf_scalarOk h2

omit hsr in
theorem fieldWf_of {S : Schema} {f : FieldDesc} (h1 : ValidNumber f.number) (h2 : kindOk S f.kind = true)
    (h3 : f.group = true → f.kind.isMessage = true)
    (h4 : f.packed = true → f.card = .repeated ∧ f.kind.packable = true)
    (h5 : f.card = .repeated → f.presence = false ∧ f.default = none ∧ f.oneof = none)
    (h6 : f.card ≠ .repeated → f.kind.isMessage = true → f.presence = true)
    (h7 : ∀ v, f.default = some v → scalarOk f.kind v = true)
    (h8 : f.oneof ≠ none → f.presence = true) : fieldWf S f = true := by
  unfold fieldWf
  rw [h2, decide_eq_true h1]
  simp only [Bool.true_and, Bool.and_eq_true]
  refine ⟨⟨⟨⟨⟨?_, ?_⟩, ?_⟩, ?_⟩, ?_⟩, ?_⟩
  · cases hg : f.group with
    | false => rfl
    | true => simpa using h3 hg
  · cases hg : f.packed with
    | false => rfl
    | true => simpa using h4 hg
  · by_cases hc : f.card = .repeated
    · obtain ⟨a, b, c⟩ := h5 hc
      simp [a, b, c]
    · simp [hc]
  · by_cases hc : f.card = .repeated
    · simp [hc]
    · cases hm : f.kind.isMessage with
      | false => simp
      | true => simp [h6 hc hm]
  · cases hd : f.default with
    | none => rfl
    | some v => exact h7 v hd
  · cases ho : f.oneof with
    | none => rfl
    | some j => simp only [Option.isNone_some, Bool.false_or]; exact h8 (by rw [ho]; simp)

theorem kind_ok (h : Hist env acc p) {S : Schema} (hS : p.view = .ok S) {f : FieldP} {k : Kind} {g : Bool}
    (hk : KindOk p f k g) : kindOk S k = true ∧ (g = true → k.isMessage = true) := by
  obtain ⟨hl, he, hm⟩ := view_ok hS
  cases hk with
  | scalar _ _ hs =>
    refine ⟨?_, fun h => by cases h⟩
    cases hty : f.ty <;> rw [hty] at hs <;> simp only [scalarKind, Option.some.injEq, reduceCtorEq] at hs <;>
      subst hs <;> rfl
  | message i _ hi =>
    refine ⟨?_, fun _ => rfl⟩
    obtain ⟨m, h1, _⟩ := hm i _ (List.getElem?_eq_getElem hi)
    simp [kindOk, h1]
  | enum i _ hi =>
    refine ⟨?_, fun h => by cases h⟩
    have hk := List.getElem?_eq_getElem hi
    obtain ⟨x, _, hx, _, v, r, hvr, _⟩ := C26_first hsr h hk
    obtain ⟨x', e, hx', h1, _, h2, _⟩ := C68_enum hsr h hS hk
    have hxx : x' = x := by
      obtain ⟨_, _, _, a1, a2, a3, _⟩ := hx
      obtain ⟨_, _, _, b1, b2, b3, _⟩ := hx'
      rw [a1] at b1; cases b1
      have := b3.found.unique a3.found rfl
      cases this; rfl
    subst hxx
    rw [hvr] at h2
    simp [kindOk, Schema.enumDefault, h1, h2]

theorem field_wf (h : Hist env acc p) {S : Schema} (hS : p.view = .ok S) (hsh : Shaped acc p) {k i : Nat}
    {md : MsgD} {d : FieldD} (hk : p.messages[k]? = some md) (hi : md.fields[i]? = some d) :
    fieldWf S d.view = true := by
  obtain ⟨x, y, fd, ⟨g, _, s, g1, _, g3, _⟩, _, _, hI⟩ := (h.desc hsr).field_is hk hi
  obtain ⟨hls, _⟩ := hsh.field _ _ _ _ _ g1 g3
  obtain ⟨k1, k2⟩ := kind_ok hsr h hS hI.kind
  have hone : d.oneof.isSome = x.oneofIndex.isSome := by rw [← hI.oneof]; cases d.oneof <;> rfl
  have hpk := hI.packed
  have hpr := hI.presence
  simp only [isPacked] at hpk
  simp only [supportsPresence] at hpr
  refine fieldWf_of (number_valid hI.number hI.valid) k1 k2 ?_ ?_ ?_ (default_ok hI.default) ?_ <;>
    simp only [FieldD.view]
  · intro hp
    rw [hp] at hpk
    have := hpk.symm
    simp only [Bool.and_eq_true, beq_iff_eq] at this
    exact ⟨hI.card.trans this.1.1, this.1.2⟩
  · intro hc
    rw [hI.card] at hc
    obtain ⟨a1, a2, a3⟩ := hls hc
    rw [a1, a3, hc] at hpr
    refine ⟨by rw [hpr]; rfl, ?_, ?_⟩
    · have := hI.default; rw [a2] at this; exact this
    · rw [a1] at hone; cases ho : d.oneof <;> simp [ho] at hone ⊢
  · intro hc hm
    rw [hI.card] at hc
    rw [hpr]
    cases hkd : d.kind <;> rw [hkd] at hm <;> try cases hm
    simp [hc]
  · intro ho
    have : x.oneofIndex.isSome = true := by rw [← hone]; exact Option.isSome_iff_ne_none.2 ho
    rw [hpr, this]; simp

theorem ext_wf (h : Hist env acc p) {S : Schema} (hS : p.view = .ok S) (hsh : Shaped acc p) {e : Nat}
    {d : ExtD} (he : p.extensions[e]? = some d) : fieldWf S d.view = true := by
  obtain ⟨x, y, fd, ⟨g, _, s, g1, _, g3, _⟩, _, _, hI⟩ := (h.desc hsr).extension_is he
  obtain ⟨hls, _⟩ := hsh.extension _ _ _ _ _ g1 g3
  obtain ⟨k1, k2⟩ := kind_ok hsr h hS hI.kind
  have hpk := hI.packed
  simp only [isPacked] at hpk
  refine fieldWf_of (number_valid hI.number hI.valid) k1 k2 ?_ ?_ ?_ (default_ok hI.default) ?_ <;>
    simp only [ExtD.view]
  · intro hp
    rw [hp] at hpk
    have := hpk.symm
    simp only [Bool.and_eq_true, beq_iff_eq] at this
    exact ⟨hI.card.trans this.1.1, this.1.2⟩
  · intro hc
    have hc' := hc
    rw [hI.card] at hc'
    obtain ⟨a1, a2, a3⟩ := hls hc'
    refine ⟨by simp [hc], ?_, trivial⟩
    have := hI.default; rw [a2] at this; exact this
  · intro hc _
    simpa using hc
  · intro ho; exact absurd rfl ho

/-- The number of an extension of a message is not one of its fields'. -/
theorem ext_apart (h : Hist env acc p) (hsh : Shaped acc p) {e k : Nat} {d : ExtD} {md : MsgD} {b : FieldD}
    (he : p.extensions[e]? = some d) (hx : d.extendee = k) (hk : p.messages[k]? = some md)
    (hb : b ∈ md.fields) : b.number ≠ d.number := by
  have hD := h.desc hsr
  obtain ⟨x, y, fd, ⟨g, _, s, g1, _, g3, _⟩, _, hN, hI⟩ := hD.extension_is he
  obtain ⟨_, hex⟩ := hsh.extension _ _ _ _ _ g1 g3
  obtain ⟨i, hi⟩ := List.getElem?_of_mem hb
  obtain ⟨x', y', fd', ⟨g', _, s', g1', _, g3', _⟩, _, hN', hI'⟩ := hD.field_is hk hi
  obtain ⟨_, hex'⟩ := hsh.field _ _ _ _ _ g1' g3'
  obtain ⟨md1, fd1, mp1, a1, a2, a3, a4⟩ := hN
  obtain ⟨md2, fd2, mp2, b1, b2, b3, b4⟩ := hN'
  rw [hx, hk] at a1; cases a1
  rw [hk] at b1; cases b1
  rw [a2] at b2; cases b2
  rw [a3] at b3; cases b3
  intro heq
  have e1 := a4.ext
  have e2 := b4.ext
  rw [Option.isSome_iff_ne_none.2 hex, ← hI.number, ← heq, hI'.number] at e1
  rw [hex', ← e1] at e2
  cases e2

omit hsr in
theorem key_kind {f : FieldP} {k : Kind} {g : Bool} (h : KindOk p f k g) (ht : f.typeName = [])
    (hty : KeyType f.ty) : (MapKey.default k).isSome = true := by
  cases h with
  | scalar _ _ hs =>
    simp only [KeyType, List.mem_cons, List.not_mem_nil, or_false] at hty
    rcases hty with e | e | e | e | e | e | e | e | e | e | e | e <;> rw [e] at hs <;>
      simp only [scalarKind, Option.some.injEq] at hs <;> rw [← hs] <;> rfl
  | message i hne => exact absurd ht hne
  | enum i hne => exact absurd ht hne

/-- **C68, well-formed.** The schema shown by a pool whose declarations have the shape `protoc` gives
them is well-formed: every theorem about messages of a well-formed schema applies to it. -/
theorem C68_wf (h : Accepts env acc p) {S : Schema} (hS : p.view = .ok S) (hsh : Shaped acc p) :
    S.wf = true := by
  have hH := h.hist
  unfold Schema.wf
  rw [List.all_eq_true]
  rintro ⟨m, k⟩ hmk
  have hm : S.msg? k = some m := by
    have := List.mem_zipIdx hmk
    simp only [Nat.zero_add, Nat.sub_zero] at this
    obtain ⟨_, h1, h2⟩ := this
    rw [Schema.msg?, List.getElem?_eq_getElem h1, ← h2]
  obtain ⟨md, hk, hv⟩ := view_msg hS hm
  obtain ⟨xs, hx, hl, hxe⟩ := hv.exts
  obtain ⟨_, hex⟩ := h.exts hsr k md hk
  obtain ⟨h1, _⟩ := C27_lookups hsr hH hk
  have hext : ∀ x ∈ xs, ∃ e : Nat, p.extensions[e]? = some x ∧ x.extendee = k := by
    intro x hxm
    obtain ⟨i, hi⟩ := List.getElem?_of_mem hxm
    have hlt : i < md.extensions.length := hl ▸ getElem?_lt hi
    obtain ⟨x', a1, a2⟩ := hxe i _ (List.getElem?_eq_getElem hlt)
    rw [hi] at a1; cases a1
    obtain ⟨d, b1, b2⟩ := (hex _).1 (List.getElem_mem hlt)
    rw [a2] at b1; cases b1
    exact ⟨_, a2, b2⟩
  simp only [msgWf, Bool.and_eq_true, List.all_eq_true, Bool.or_eq_true, Bool.not_eq_true']
  refine ⟨⟨⟨⟨?_, ?_⟩, ?_⟩, ?_⟩, ?_⟩
  · intro f hf
    rw [hv.fields] at hf
    obtain ⟨d, hd, rfl⟩ := List.mem_map.1 hf
    obtain ⟨i, hi⟩ := List.getElem?_of_mem hd
    exact field_wf hsr hH hS hsh hk hi
  · intro f hf
    rw [hx] at hf
    obtain ⟨d, hd, rfl⟩ := List.mem_map.1 hf
    obtain ⟨e, he, _⟩ := hext d hd
    exact ext_wf hsr hH hS hsh he
  · simp only [numbersNodup, hv.fields, List.map_map, decide_eq_true_eq]
    refine nodup_map_of_inj fun i j a b ha hb hab => ?_
    have e1 := (h1 a.number i).2 ⟨a, ha, rfl⟩
    have e2 := (h1 a.number j).2 ⟨b, hb, hab.symm⟩
    rw [e1] at e2; exact Option.some.inj e2
  · intro f hf
    rw [hx] at hf
    obtain ⟨d, hd, rfl⟩ := List.mem_map.1 hf
    obtain ⟨e, he, hek⟩ := hext d hd
    refine ⟨?_, rfl⟩
    rw [MsgDesc.getField, hv.fields, Option.isNone_iff_eq_none, List.find?_eq_none]
    intro f hf
    obtain ⟨b, hb, rfl⟩ := List.mem_map.1 hf
    have := ext_apart hsr hH hsh he hek hk hb
    simpa [FieldD.view, ExtD.view] using this
  · cases hme : m.mapEntry with
    | false => exact .inl rfl
    | true =>
      right
      obtain ⟨path, full, fi, parent, mp, hev, hid, _, _, hfs⟩ := (hH.desc hsr).fields_of hk
      obtain ⟨y, g, fd, s, g1, _, g3, _⟩ := (hH.desc hsr).stands hev rfl hid
      obtain ⟨⟨kf, hkf, kn, kl, kt, kty⟩, vf, hvf, vn, vl⟩ :=
        hsh.entry k md g s mp hk g1 g3 (hme ▸ hv.entry)
      have get : ∀ (n : Nat) (f : FieldP), f ∈ mp.fields → f.number = (n : Int) →
          ∃ d, S.field? k n = some (FieldD.view d) ∧ d.card = f.label ∧ KindOk p f d.kind d.group := by
        intro n f hf hn
        obtain ⟨i, hi⟩ := List.getElem?_of_mem hf
        obtain ⟨_, d, _, d2, _, d4⟩ := hfs i f hi
        refine ⟨d, ?_, d4.card, d4.kind⟩
        have hdn : d.number = n := by have := d4.number; omega
        simp only [Schema.field?, hm, Option.bind_some, MsgDesc.getField, hv.fields]
        rw [find?_map_key, show (fun a : FieldD => a.view.number == n) = fun a => a.number == n from rfl,
          find?_idx (key := FieldD.number) h1, (h1 n i).2 ⟨d, d2, hdn⟩, Option.bind_some, d2]
        rfl
      obtain ⟨kd, k1, k2, k3⟩ := get 1 kf hkf kn
      obtain ⟨vd, v1, v2, v3⟩ := get 2 vf hvf vn
      have hkey := key_kind k3 kt kty
      simp only [entryWf, Schema.mapKV, k1, v1, FieldD.view, hkey, k2, v2]
      simp [kl, vl]

end

/-! ### An example -/

mutual
/-- A condition on a message and everything nested in it. -/
def MsgP.allIn (P : MsgP → Bool) : MsgP → Bool
  | ⟨name, fields, exts, nested, enums, extRanges, oneofs, options, reserved, reservedNames⟩ =>
    P ⟨name, fields, exts, nested, enums, extRanges, oneofs, options, reserved, reservedNames⟩ && MsgP.allOf P nested
termination_by structural m => m
def MsgP.allOf (P : MsgP → Bool) : List MsgP → Bool
  | [] => true
  | m :: ms => MsgP.allIn P m && MsgP.allOf P ms
termination_by structural ms => ms
end

theorem MsgP.allOf_mem {P : MsgP → Bool} : ∀ {l : List MsgP} {m : MsgP}, MsgP.allOf P l = true → m ∈ l →
    MsgP.allIn P m = true
  | a :: l, m, h, hm => by
    simp only [MsgP.allOf, Bool.and_eq_true] at h
    rcases List.mem_cons.1 hm with rfl | hm
    · exact h.1
    · exact MsgP.allOf_mem h.2 hm

theorem MsgP.allIn_has {P : MsgP → Bool} {f : FileP} (hf : MsgP.allOf P f.messages = true) {path : Path}
    {s : Name} {m : MsgP} (h : Has f path s (.message m)) : MsgP.allIn P m = true := by
  generalize hx : Item.message m = x at h
  induction h generalizing m with
  | message i n hi => cases hx; exact MsgP.allOf_mem hf (List.mem_of_getElem? hi)
  | nested path s t i n hp hi ih =>
    cases hx
    have := ih rfl
    cases t
    simp only [MsgP.allIn, Bool.and_eq_true] at this
    exact MsgP.allOf_mem this.2 (List.mem_of_getElem? hi)
  | _ => cases hx

theorem MsgP.allIn_self {P : MsgP → Bool} {m : MsgP} (h : MsgP.allIn P m = true) : P m = true := by
  cases m
  simp only [MsgP.allIn, Bool.and_eq_true] at h
  exact h.1

def listShaped (f : FieldP) : Bool :=
  f.label != .repeated || (f.oneofIndex.isNone && f.default.isNone && !f.proto3Optional)

def entryShaped (m : MsgP) : Bool :=
  m.fields.any (fun f => f.number == 1 && f.label != .repeated && f.typeName.isEmpty &&
    [PType.int32, .int64, .uint32, .uint64, .sint32, .sint64, .fixed32, .fixed64, .sfixed32, .sfixed64,
      .bool, .string].contains f.ty) &&
  m.fields.any (fun f => f.number == 2 && f.label != .repeated)

/-- `Shaped`, computed. -/
def shaped (acc : List FileP) (p : Pool) : Bool :=
  acc.all (fun f => f.exts.all (fun x => listShaped x && x.extendee.isSome) &&
    MsgP.allOf (fun m => m.fields.all (fun x => listShaped x && x.extendee.isNone) &&
      m.exts.all (fun x => listShaped x && x.extendee.isSome)) f.messages) &&
  p.messages.zipIdx.all (fun x =>
    match p.isMapEntry x.2 with
    | .ok true =>
      match acc[x.1.id.file]? with
      | some g =>
        match findMsg g x.1.id.path with
        | some m => entryShaped m
        | none => false
      | none => false
    | _ => true)

theorem listShaped_iff {f : FieldP} (h : listShaped f = true) : ListShaped f := by
  intro hl
  simpa [listShaped, hl, and_assoc] using h

theorem shaped_ok {acc : List FileP} {p : Pool} (h : shaped acc p = true) : Shaped acc p := by
  simp only [shaped, Bool.and_eq_true, List.all_eq_true] at h
  obtain ⟨h1, h2⟩ := h
  have msg : ∀ (j : Nat) g path s m, acc[j]? = some g → Has g path s (.message m) →
      (∀ x ∈ m.fields, ListShaped x ∧ x.extendee = none) ∧ ∀ x ∈ m.exts, ListShaped x ∧ x.extendee ≠ none := by
    intro j g path s m hg hm
    have := MsgP.allIn_self (MsgP.allIn_has (h1 g (List.mem_of_getElem? hg)).2 hm)
    simp only [Bool.and_eq_true, List.all_eq_true] at this
    exact ⟨fun x hx => ⟨listShaped_iff (this.1 x hx).1, by simpa using (this.1 x hx).2⟩,
      fun x hx => ⟨listShaped_iff (this.2 x hx).1, Option.isSome_iff_ne_none.1 (this.2 x hx).2⟩⟩
  refine ⟨?_, ?_, ?_⟩
  · intro j g path s f hg hf
    cases hf with
    | field path s m i x hm hi => exact (msg _ _ _ _ _ hg hm).1 f (List.mem_of_getElem? hi)
  · intro j g path s f hg hf
    cases hf with
    | extension i x hi =>
      have := (h1 g (List.mem_of_getElem? hg)).1 f (List.mem_of_getElem? hi)
      exact ⟨listShaped_iff this.1, Option.isSome_iff_ne_none.1 this.2⟩
    | extensionIn path s m i x hm hi => exact (msg _ _ _ _ _ hg hm).2 f (List.mem_of_getElem? hi)
  · intro k md g s m hk hg hm he
    have hmem : (md, k) ∈ p.messages.zipIdx := by
      rw [List.mem_zipIdx_iff_getElem?]; exact hk
    have := h2 _ hmem
    simp only [he, hg, show findMsg g md.id.path = some m from hm.found.2] at this
    simp only [entryShaped, Bool.and_eq_true, List.any_eq_true, beq_iff_eq, bne_iff_ne, List.isEmpty_iff,
      List.contains_iff_mem] at this
    obtain ⟨⟨k, a1, ⟨⟨a2, a3⟩, a4⟩, a5⟩, v, b1, b2, b3⟩ := this
    exact ⟨⟨k, a1, a2, a3, a4, a5⟩, v, b1, b2, b3⟩

/-- `import "a.proto"; package c; message P { map<string, a.b.M> m = 1; repeated P ps = 2;
optional int32 n = 3 [default = -7]; }` -/
def fileMap : FileP where
  name := nm "m.proto"
  package := nm "c"
  deps := [nm "a.proto"]
  messages := [{
    name := nm "P"
    fields := [
      { name := nm "m", number := 1, label := .repeated, ty := .message, typeName := nm "P.MEntry" },
      { name := nm "ps", number := 2, label := .repeated, ty := .message, typeName := nm "P" },
      { name := nm "n", number := 3, ty := .int32, default := some (nm "-7") }]
    nested := [{
      name := nm "MEntry"
      fields := [{ name := nm "key", number := 1, ty := .string },
        { name := nm "value", number := 2, ty := .message, typeName := nm "a.b.M" }]
      options := some (some true) }] }]

/-- Like `run_ex`, for additions that all succeed. -/
theorem accept_ex {b : List FileP} (c : List FileP → Pool → Bool)
    (h : (match buildFiles env0 Pool.empty b with
      | .ok ⟨q, []⟩ => c ([] ++ b.filter fun f => (lookupN Pool.empty.fileNames f.name).isNone) q
      | _ => false) = true) : ∃ acc p, Accepts env0 acc p ∧ c acc p = true := by
  split at h
  · next q hq => exact ⟨_, q, .accept _ _ _ _ .empty hq, h⟩
  · cases h

/-- The pool is shaped and shows these messages. -/
def mapPool (acc : List FileP) (p : Pool) : Bool :=
  shaped acc p &&
    match p.view with
    | .ok S => S.msgs.map (fun m => (m.name, m.mapEntry)) ==
      [(nm "a.b.M", false), (nm "a.b.M.N", false), (nm "c.P", false), (nm "c.P.MEntry", true)]
    | .error _ => false

theorem mapPool_ex : ∃ acc p, Accepts env0 acc p ∧ mapPool acc p = true :=
  accept_ex (b := [fileA, fileMap]) mapPool (by decide +kernel)

/-- The hypotheses of `C68_wf` hold of a pool with maps, lists, defaults, a oneof and an extension. -/
example : ∃ acc p S, Accepts env0 acc p ∧ p.view = .ok S ∧ Shaped acc p ∧ S.wf = true ∧
    S.msgs.map (fun m => (m.name, m.mapEntry)) =
      [(nm "a.b.M", false), (nm "a.b.M.N", false), (nm "c.P", false), (nm "c.P.MEntry", true)] := by
  obtain ⟨acc, p, h, hc⟩ := mapPool_ex
  rw [mapPool, Bool.and_eq_true] at hc
  obtain ⟨h1, h2⟩ := hc
  cases hS : p.view with
  | error e => rw [hS] at h2; cases h2
  | ok S =>
    rw [hS] at h2
    exact ⟨acc, p, S, h, hS, shaped_ok h1, C68_wf linearSearch_ok h hS (shaped_ok h1), eq_of_beq h2⟩

/-- **C68 fails after a failed addition**: the message extended by a file that was rejected keeps the
index of the extension, and listing its extensions panics. -/
theorem C68_total_false : ∃ acc p, Hist env0 acc p ∧ (match p.view with
    | .error .index => true
    | _ => false) = true :=
  run_ex [[fileMN], [fileBadExt]] _ (by decide +kernel)

/-- **C68 fails without the shape**: a message that says it is a map entry and has no fields. -/
theorem C68_wf_false : ∃ acc p, Hist env0 acc p ∧ (match p.view with
    | .ok S => !S.wf
    | _ => false) = true :=
  run_ex [[fileNoKey]] _ (by decide +kernel)

end Verif.Props
