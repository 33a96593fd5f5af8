import Verif.Dyn.Decode
/-!
Field sets: look-ups after the mutating operations, and preservation of conformance.
-/
set_option autoImplicit false
namespace Verif.Dyn
open Verif.Wire

namespace SMap
variable {α : Type}
theorem insert_insert (n : Nat) (a b : α) (m : SMap α) : insert n a (insert n b m) = insert n a m := by
  induction m with
  | nil => simp [insert]
  | cons p r ih =>
    obtain ⟨k, v⟩ := p
    simp only [insert]
    split
    · simp [insert]
    · split
      · simp [insert]
      · rename_i h1 h2; simp [insert, h1, h2, ih]
end SMap

/-! ### Clearing -/

theorem sorted_clearAll (ns : List Nat) : ∀ (fs : FieldSet), SMap.sorted fs = true →
    SMap.sorted (FieldSet.clearAll ns fs) = true := by
  induction ns with
  | nil => intro fs h; exact h
  | cons n r ih => intro fs h; exact ih _ (SMap.sorted_erase h)

theorem get?_clearAll (ns : List Nat) : ∀ (fs : FieldSet), SMap.sorted fs = true → ∀ k,
    SMap.get? (FieldSet.clearAll ns fs) k = if k ∈ ns then none else SMap.get? fs k := by
  induction ns with
  | nil => intro fs _ k; simp [FieldSet.clearAll]
  | cons n r ih =>
    intro fs h k
    have := ih (SMap.erase n fs) (SMap.sorted_erase h) k
    simp only [FieldSet.clearAll, List.foldl_cons] at this ⊢
    rw [this, SMap.get?_erase h]
    by_cases h1 : k ∈ r
    · simp [h1]
    · by_cases h2 : k = n
      · simp [h2]
      · simp [h1, h2]

theorem mem_clearAll {ns : List Nat} : ∀ {fs : FieldSet} {p : Nat × Slot},
    p ∈ FieldSet.clearAll ns fs → p ∈ fs := by
  induction ns with
  | nil => intro fs p h; exact h
  | cons n r ih => intro fs p h; exact SMap.mem_erase (ih h)

/-! ### Siblings -/

theorem mem_siblings {md : MsgDesc} {f : FieldDesc} {m : Nat} : m ∈ siblings md f ↔
    ∃ o, f.oneof = some o ∧ ∃ g ∈ md.fields, g.oneof = some o ∧ g.number ≠ f.number ∧ g.number = m := by
  unfold siblings
  cases ho : f.oneof with
  | none => simp
  | some o =>
    simp only [List.mem_map, List.mem_filter, Bool.and_eq_true, beq_iff_eq, bne_iff_ne, ne_eq,
      Option.some.injEq, exists_eq_left']
    constructor
    · rintro ⟨g, ⟨h1, h2, h3⟩, h4⟩; exact ⟨g, h1, h2, h3, h4⟩
    · rintro ⟨g, h1, h2, h3, h4⟩; exact ⟨g, ⟨h1, h2, h3⟩, h4⟩

theorem not_mem_siblings {md : MsgDesc} {f : FieldDesc} : f.number ∉ siblings md f := by
  intro h
  obtain ⟨_, _, g, _, _, hne, he⟩ := mem_siblings.1 h
  exact hne he

theorem getField_of_mem {md : MsgDesc} (hn : (md.fields.map (·.number)).Nodup) {f : FieldDesc}
    (hf : f ∈ md.fields) : md.getField f.number = some f := by
  unfold MsgDesc.getField
  have key : ∀ l : List FieldDesc, (l.map (·.number)).Nodup → f ∈ l →
      l.find? (fun g => g.number == f.number) = some f := by
    intro l
    induction l with
    | nil => intro _ h; cases h
    | cons g r ih =>
      intro hn hf
      simp only [List.map_cons, List.nodup_cons] at hn
      rcases List.mem_cons.1 hf with rfl | hf
      · simp
      · have : g.number ≠ f.number := by
          intro h; apply hn.1; rw [h]; exact List.mem_map_of_mem hf
        rw [List.find?_cons_of_neg (by simpa using this)]
        exact ih hn.2 hf
  exact key _ hn hf

theorem siblings_symm {md : MsgDesc} (hn : (md.fields.map (·.number)).Nodup) {f g : FieldDesc}
    {n k : Nat} (hf : md.getField n = some f) (hg : md.getField k = some g)
    (h : n ∈ siblings md g) : k ∈ siblings md f := by
  obtain ⟨o, ho, x, hx, hxo, hne, hxn⟩ := mem_siblings.1 h
  have hfx : f = x := by
    have := getField_of_mem hn hx
    rw [hxn, hf] at this
    exact Option.some.inj this
  subst hfx
  obtain ⟨hgm, hgk⟩ := getField_mem hg
  exact mem_siblings.2 ⟨o, hxo, g, hgm, ho, fun h => hne h.symm, hgk⟩

theorem getField_of_sibling {md : MsgDesc} (hn : (md.fields.map (·.number)).Nodup) {f : FieldDesc}
    {m : Nat} (h : m ∈ siblings md f) : ∃ g, md.getField m = some g := by
  obtain ⟨o, ho, x, hx, hxo, hne, hxn⟩ := mem_siblings.1 h
  exact ⟨x, by rw [← hxn]; exact getField_of_mem hn hx⟩

/-! ### The oneof invariant by look-up -/

def OneofInv (md : MsgDesc) (fs : FieldSet) : Prop :=
  ∀ n g s, SMap.get? fs n = some s → md.getField n = some g → ∀ m ∈ siblings md g,
    SMap.get? fs m = none

theorem oneofOk_iff {S : Schema} {d : Nat} {fs : FieldSet} (hs : SMap.sorted fs = true) :
    oneofOk S d fs = true ↔ ∃ md, S.msg? d = some md ∧ OneofInv md fs := by
  unfold oneofOk
  cases hm : S.msg? d with
  | none => simp
  | some md =>
    simp only [List.all_eq_true, Option.some.injEq, exists_eq_left']
    constructor
    · intro h n g s hn hg m hm
      have := h (n, s) (SMap.mem_of_get? hn)
      simp only [hg, List.all_eq_true, Option.isNone_iff_eq_none] at this
      exact this m hm
    · rintro h ⟨n, s⟩ hp
      have hget := SMap.get?_of_mem hs hp
      simp only
      split
      · rfl
      · rename_i g hg
        simp only [List.all_eq_true, Option.isNone_iff_eq_none]
        exact h n g s hget hg

theorem OneofInv.insert_field {md : MsgDesc} (hnd : (md.fields.map (·.number)).Nodup) {fs : FieldSet}
    (hs : SMap.sorted fs = true) (h : OneofInv md fs) {f : FieldDesc} {n : Nat}
    (hf : md.getField n = some f) (s : Slot) :
    OneofInv md (SMap.insert n s (FieldSet.clearAll (siblings md f) fs)) := by
  have hfn := (getField_mem hf).2
  intro k g t hk hg m hm
  rw [SMap.get?_insert, get?_clearAll _ _ hs] at hk ⊢
  by_cases hkn : k = n
  · subst hkn
    rw [hf] at hg; cases hg
    have : m ≠ k := by
      intro h; subst h; rw [← hfn] at hm; exact not_mem_siblings hm
    rw [if_neg this, if_pos hm]
  · rw [if_neg hkn] at hk
    by_cases hks : k ∈ siblings md f
    · rw [if_pos hks] at hk; cases hk
    · rw [if_neg hks] at hk
      have hmn : m ≠ n := by
        rintro rfl
        exact hks (siblings_symm hnd hf hg hm)
      rw [if_neg hmn]
      split
      · rfl
      · exact h k g t hk hg m hm

theorem OneofInv.insert_other {md : MsgDesc} (hnd : (md.fields.map (·.number)).Nodup) {fs : FieldSet}
    (h : OneofInv md fs) {n : Nat} (hf : md.getField n = none) (s : Slot) :
    OneofInv md (SMap.insert n s fs) := by
  intro k g t hk hg m hm
  rw [SMap.get?_insert] at hk ⊢
  by_cases hkn : k = n
  · subst hkn; rw [hf] at hg; cases hg
  · rw [if_neg hkn] at hk
    have hmn : m ≠ n := by
      rintro rfl
      obtain ⟨x, hx⟩ := getField_of_sibling hnd hm
      rw [hf] at hx; cases hx
    rw [if_neg hmn]
    exact h k g t hk hg m hm

/-! ### Conformance of slots -/

/-- One entry conforms. -/
def confSlot (S : Schema) (d n : Nat) : Slot → Bool
  | .taken => true
  | .unknown u => (S.field? d n).isNone && (S.ext? d n).isNone && unknownOk n u
  | .val v =>
    match S.field? d n with
    | some f => confVal S f v
    | none =>
      match S.ext? d n with
      | some f => confVal S f v
      | none => false

theorem confSlots_iff {S : Schema} {d : Nat} (fs : FieldSet) :
    confSlots S d fs = true ↔ ∀ p ∈ fs, confSlot S d p.1 p.2 = true := by
  induction fs with
  | nil => simp [confSlots]
  | cons p r ih =>
    obtain ⟨n, s⟩ := p
    rw [List.forall_mem_cons, ← ih]
    cases s with
    | taken => simp only [confSlots, confSlot, true_and]
    | unknown u => simp only [confSlots, confSlot, Bool.and_eq_true]
    | val v => simp only [confSlots, Bool.and_eq_true]; exact Iff.rfl

theorem confVals_iff {S : Schema} {f : FieldDesc} (vs : List Value) :
    confVals S f vs = true ↔ ∀ v ∈ vs, confVal S f v = true := by
  induction vs with
  | nil => simp [confVals]
  | cons v r ih => simp only [confVals, List.forall_mem_cons, Bool.and_eq_true, ih]

theorem confMap_iff {S : Schema} {kd vd : FieldDesc} (kvs : List (MapKey × Value)) :
    confMap S kd vd kvs = true ↔ ∀ p ∈ kvs, keyOk kd.kind p.1 = true ∧ confVal S vd p.2 = true := by
  induction kvs with
  | nil => simp [confMap]
  | cons p r ih =>
    obtain ⟨k, v⟩ := p
    simp only [confMap, List.forall_mem_cons, Bool.and_eq_true, ih]

/-- The parts of `confMsg`. -/
structure Conf (S : Schema) (m : DynMsg) (md : MsgDesc) : Prop where
  sorted : SMap.sorted m.fields = true
  desc : S.msg? m.desc = some md
  oneof : OneofInv md m.fields
  slots : ∀ p ∈ m.fields, confSlot S m.desc p.1 p.2 = true

theorem confMsg_iff {S : Schema} {m : DynMsg} : confMsg S m = true ↔ ∃ md, Conf S m md := by
  unfold confMsg
  simp only [Bool.and_eq_true]
  constructor
  · rintro ⟨⟨h1, h2⟩, h3⟩
    obtain ⟨md, hm, ho⟩ := (oneofOk_iff h1).1 h2
    exact ⟨md, h1, hm, ho, (confSlots_iff _).1 h3⟩
  · rintro ⟨md, h1, h2, h3, h4⟩
    exact ⟨⟨h1, (oneofOk_iff h1).2 ⟨md, h2, h3⟩⟩, (confSlots_iff _).2 h4⟩

theorem Conf.get {S : Schema} {m : DynMsg} {md : MsgDesc} (h : Conf S m md) {n : Nat} {s : Slot}
    (hg : SMap.get? m.fields n = some s) : confSlot S m.desc n s = true :=
  h.slots (n, s) (SMap.mem_of_get? hg)

theorem Conf.pos {S : Schema} {m : DynMsg} {md : MsgDesc} (h : Conf S m md) {n : Nat} {s : Slot}
    (hg : SMap.get? m.fields n = some s) : 0 < n :=
  SMap.mem_gt h.sorted (n, s) (SMap.mem_of_get? hg)

theorem field?_eq {S : Schema} {d : Nat} {md : MsgDesc} (h : S.msg? d = some md) (n : Nat) :
    S.field? d n = md.getField n := by simp [Schema.field?, h]

theorem ext?_eq {S : Schema} {d : Nat} {md : MsgDesc} (h : S.msg? d = some md) (n : Nat) :
    S.ext? d n = md.getExtension n := by simp [Schema.ext?, h]

/-- Writing a conforming value to a declared field. -/
theorem Conf.insert_field {S : Schema} (hS : S.wf = true) {m : DynMsg} {md : MsgDesc}
    (h : Conf S m md) {n : Nat} {f : FieldDesc} (hf : md.getField n = some f) {v : Value}
    (hv : confVal S f v = true) :
    Conf S ⟨m.desc, SMap.insert n (.val v) (FieldSet.clearAll (siblings md f) m.fields)⟩ md := by
  have hw := Schema.wf_msg hS h.desc
  obtain ⟨hmem, hn⟩ := getField_mem hf
  have hpos : 0 < n := hn ▸ (hw.fields f hmem).num.1
  refine ⟨SMap.sorted_insert hpos (sorted_clearAll _ _ h.sorted), h.desc,
    OneofInv.insert_field hw.nodup h.sorted h.oneof hf _, ?_⟩
  intro p hp
  rcases SMap.mem_insert hp with rfl | hp
  · simp only [confSlot, field?_eq h.desc, hf]; exact hv
  · exact h.slots p (mem_clearAll hp)

/-- Writing a conforming value to an extension. -/
theorem Conf.insert_ext {S : Schema} (hS : S.wf = true) {m : DynMsg} {md : MsgDesc}
    (h : Conf S m md) {n : Nat} {f : FieldDesc} (hf : md.getExtension n = some f) {v : Value}
    (hv : confVal S f v = true) : Conf S ⟨m.desc, SMap.insert n (.val v) m.fields⟩ md := by
  have hw := Schema.wf_msg hS h.desc
  obtain ⟨hmem, hn⟩ := getExtension_mem hf
  have hpos : 0 < n := hn ▸ (hw.exts f hmem).num.1
  have hnone : md.getField n = none := hn ▸ (hw.extNew f hmem).1
  refine ⟨SMap.sorted_insert hpos h.sorted, h.desc,
    OneofInv.insert_other hw.nodup h.oneof hnone _, ?_⟩
  intro p hp
  rcases SMap.mem_insert hp with rfl | hp
  · simp only [confSlot, field?_eq h.desc, ext?_eq h.desc, hf, hnone]; exact hv
  · exact h.slots p hp

/-- Storing unknown fields. -/
theorem Conf.insert_unknown {S : Schema} (hS : S.wf = true) {m : DynMsg} {md : MsgDesc}
    (h : Conf S m md) {n : Nat} (hpos : 0 < n) (hf : md.getField n = none)
    (he : md.getExtension n = none) {u : USet} (hu : unknownOk n u = true) :
    Conf S ⟨m.desc, SMap.insert n (.unknown u) m.fields⟩ md := by
  have hw := Schema.wf_msg hS h.desc
  refine ⟨SMap.sorted_insert hpos h.sorted, h.desc,
    OneofInv.insert_other hw.nodup h.oneof hf _, ?_⟩
  intro p hp
  rcases SMap.mem_insert hp with rfl | hp
  · simp only [confSlot, field?_eq h.desc, ext?_eq h.desc, hf, he, hu]; rfl
  · exact h.slots p hp

/-- The empty message conforms. -/
theorem Conf.empty {S : Schema} {d : Nat} {md : MsgDesc} (h : S.msg? d = some md) :
    Conf S ⟨d, []⟩ md :=
  ⟨rfl, h, (by intro n g s hn; cases hn), (by intro p hp; cases hp)⟩

/-- Entries of a conforming message at unknown numbers. -/
theorem Conf.unknown_or {S : Schema} {m : DynMsg} {md : MsgDesc} (h : Conf S m md) {n : Nat}
    (hf : md.getField n = none) (he : md.getExtension n = none) :
    SMap.get? m.fields n = none ∨ SMap.get? m.fields n = some .taken ∨
      ∃ u, SMap.get? m.fields n = some (.unknown u) ∧ unknownOk n u = true := by
  cases hg : SMap.get? m.fields n with
  | none => exact .inl rfl
  | some s =>
    have := h.get hg
    cases s with
    | taken => exact .inr (.inl rfl)
    | val v => simp [confSlot, field?_eq h.desc, ext?_eq h.desc, hf, he] at this
    | unknown u =>
      simp only [confSlot, Bool.and_eq_true] at this
      exact .inr (.inr ⟨u, rfl, this.2⟩)

theorem unknownOk_append {n : Nat} {u v : USet} (hu : unknownOk n u = true) (hv : unknownOk n v = true) :
    unknownOk n (u ++ v) = true := by
  simp only [unknownOk, Bool.and_eq_true, Bool.not_eq_true', List.all_append,
    List.isEmpty_eq_false_iff] at hu hv ⊢
  refine ⟨⟨by simp [hu.1.1], hu.1.2, hv.1.2⟩, ?_⟩
  rw [USet.wf_iff] at *
  exact Wire.USet.wf_append.2 ⟨hu.2, hv.2⟩

theorem unknownOk_single {n : Nat} {v : UVal} (hn : ValidNumber n) (hv : v.Wf) :
    unknownOk n [(n, v)] = true := by
  simp only [unknownOk, Bool.and_eq_true, USet.wf, decide_eq_true_eq, UVal.wf_iff]
  exact ⟨⟨rfl, by simp⟩, ⟨hn, hv⟩, trivial⟩

/-! ### Values -/

theorem elem_card {f : FieldDesc} : f.elem.card ≠ .repeated := by
  intro h; cases h

theorem confVal_elem {S : Schema} {f : FieldDesc} (h : f.card ≠ .repeated) (v : Value) :
    confVal S f.elem v = confVal S f v := by
  have h1 : (f.card != .repeated) = true := by simpa using h
  have h2 : (f.elem.card != .repeated) = true := rfl
  have h3 : isList S f = false := isList_of_ne h
  have h4 : isList S f.elem = false := isList_of_ne elem_card
  have h5 : isMap S f = false := isMap_of_ne h
  have h6 : isMap S f.elem = false := isMap_of_ne elem_card
  cases v <;> simp only [confVal, h1, h2, h3, h4, h5, h6, Bool.false_and, Bool.true_and] <;> rfl

theorem confMsg_of_confVal {S : Schema} {f : FieldDesc} {d : Nat} {fs : List (Nat × Slot)}
    (h : confVal S f (.msg d fs) = true) :
    f.card ≠ .repeated ∧ f.kind = .message d ∧ confMsg S ⟨d, fs⟩ = true := by
  simp only [confVal, Bool.and_eq_true, bne_iff_ne, beq_iff_eq] at h
  refine ⟨h.1.1, h.1.2, ?_⟩
  simp only [confMsg, Bool.and_eq_true]
  exact h.2

theorem confVal_msg {S : Schema} {f : FieldDesc} {m : DynMsg} (hc : f.card ≠ .repeated)
    (hk : f.kind = .message m.desc) (h : confMsg S m = true) : confVal S f m.toValue = true := by
  simp only [DynMsg.toValue, confVal, Bool.and_eq_true, bne_iff_ne, beq_iff_eq]
  refine ⟨⟨hc, hk⟩, ?_⟩
  simp only [confMsg, Bool.and_eq_true] at h
  exact h

/-- A non-message value conforms to a singular field iff it is a scalar of its kind. -/
theorem confVal_scalar {S : Schema} {f : FieldDesc} {v : Value} (hc : f.card ≠ .repeated)
    (h : scalarOk f.kind v = true) : confVal S f v = true := by
  have h1 : (f.card != .repeated) = true := by simpa using hc
  cases v <;> simp only [confVal, h1, Bool.true_and] <;> first
    | exact h
    | (exfalso; cases hk : f.kind <;> rw [hk] at h <;> simp [scalarOk, Value.isValid] at h)

theorem scalarOk_of_confVal {S : Schema} {f : FieldDesc} {v : Value}
    (hk : f.kind.isMessage = false) (hc : f.card ≠ .repeated) (h : confVal S f v = true) :
    scalarOk f.kind v = true := by
  have h3 : isList S f = false := isList_of_ne hc
  have h5 : isMap S f = false := isMap_of_ne hc
  cases v <;> simp only [confVal, h3, h5, Bool.false_and, Bool.and_eq_true] at h <;> first
    | exact h.2
    | (cases h; done)
    | (exfalso; have := h.1.2; rw [beq_iff_eq] at this; rw [this] at hk; cases hk)

/-- The value a message-typed singular field can hold. -/
theorem msg_of_confVal {S : Schema} {f : FieldDesc} {v : Value} {i : Nat}
    (hk : f.kind = .message i) (hc : f.card ≠ .repeated) (h : confVal S f v = true) :
    ∃ fs, v = .msg i fs ∧ confMsg S ⟨i, fs⟩ = true := by
  have h3 : isList S f = false := isList_of_ne hc
  have h5 : isMap S f = false := isMap_of_ne hc
  cases v <;> simp only [confVal, h3, h5, Bool.false_and, Bool.and_eq_true, hk, scalarOk] at h
  case msg d fs =>
    have := h.1.2
    rw [beq_iff_eq] at this
    cases this
    exact ⟨fs, rfl, by simp only [confMsg, Bool.and_eq_true]; exact h.2⟩
  all_goals first
    | (cases h; done)
    | (cases h.2; done)

theorem kindDefault_conf {S : Schema} {f : FieldDesc} (hf : FieldWf S f) :
    ∃ v, kindDefault S f.kind = some v ∧ confVal S f.elem v = true := by
  obtain ⟨v, hv, hm, hs⟩ := kindDefault_some hf.kind
  refine ⟨v, hv, ?_⟩
  cases hk : f.kind.isMessage with
  | false => exact confVal_scalar (f := f.elem) elem_card (hs hk)
  | true =>
    cases hk' : f.kind with
    | message i =>
      rw [hm i hk']
      have := hf.kind
      rw [hk'] at this
      obtain ⟨md, hmd⟩ := Option.isSome_iff_exists.1 this
      exact confVal_msg (f := f.elem) (m := ⟨i, []⟩) elem_card hk'
        (confMsg_iff.2 ⟨md, Conf.empty hmd⟩)
    | _ => rw [hk'] at hk; cases hk

theorem fieldDefault_conf {S : Schema} (hS : S.wf = true) {f : FieldDesc} (hf : FieldWf S f) :
    ∃ v, fieldDefault S f = some v ∧ confVal S f v = true := by
  unfold fieldDefault
  by_cases h1 : isList S f = true
  · exact ⟨.list [], by rw [if_pos h1], by simp [confVal, h1, confVals]⟩
  · rw [if_neg h1]
    by_cases h2 : isMap S f = true
    · rw [if_pos h2]
      obtain ⟨_, i, hi, he⟩ := isMap_iff.1 h2
      obtain ⟨kd, vd, hE⟩ := Schema.wf_entry hS he
      exact ⟨.map [], rfl, by simp [confVal, h2, hi, hE.kv, KMap.distinct, confMap]⟩
    · rw [if_neg h2]
      have hc : f.card ≠ .repeated := by
        intro hc; apply h1; rw [isList_iff]; exact ⟨hc, by simpa using h2⟩
      split
      · rename_i v hd
        exact ⟨v, rfl, confVal_scalar hc (hf.dflt v hd)⟩
      · obtain ⟨v, hv, hcf⟩ := kindDefault_conf hf
        exact ⟨v, hv, by rw [← confVal_elem hc]; exact hcf⟩

/-- `get_mut` on a conforming message: a conforming value, to be written back. -/
theorem getMut_field {S : Schema} (hS : S.wf = true) {m : DynMsg} {md : MsgDesc} (h : Conf S m md)
    {n : Nat} {f : FieldDesc} (hf : md.getField n = some f) :
    ∃ fs v, FieldSet.getMut S (siblings md f) m.fields f = some (fs, v) ∧ confVal S f v = true ∧
      (∀ v', FieldSet.write f v' fs =
        SMap.insert n (.val v') (FieldSet.clearAll (siblings md f) m.fields)) ∧
      ((FieldSet.getValue (FieldSet.clearAll (siblings md f) m.fields) n = some v) ∨
        (FieldSet.getValue (FieldSet.clearAll (siblings md f) m.fields) n = none ∧
          fieldDefault S f = some v)) := by
  have hw := Schema.wf_msg hS h.desc
  obtain ⟨hmem, hn⟩ := getField_mem hf
  obtain ⟨v0, hv0, hc0⟩ := fieldDefault_conf hS (hw.fields f hmem)
  have hsl : ∀ v, SMap.get? (FieldSet.clearAll (siblings md f) m.fields) n = some (.val v) →
      confVal S f v = true := by
    intro v hv
    rw [get?_clearAll _ _ h.sorted] at hv
    split at hv
    · cases hv
    · have := h.get hv
      simpa [confSlot, field?_eq h.desc, hf] using this
  unfold FieldSet.getMut FieldSet.write FieldSet.getValue
  simp only [hn]
  split
  · rename_i v hv
    exact ⟨_, v, rfl, hsl v hv, fun _ => rfl, .inl rfl⟩
  · simp only [hv0]
    exact ⟨_, v0, rfl, hc0, fun v' => SMap.insert_insert _ _ _ _, .inr ⟨trivial, rfl⟩⟩

theorem getMut_ext {S : Schema} (hS : S.wf = true) {m : DynMsg} {md : MsgDesc} (h : Conf S m md)
    {n : Nat} {f : FieldDesc} (hf : md.getExtension n = some f) :
    ∃ fs v, FieldSet.getMut S [] m.fields f = some (fs, v) ∧ confVal S f v = true ∧
      (∀ v', FieldSet.write f v' fs = SMap.insert n (.val v') m.fields) ∧
      ((FieldSet.getValue m.fields n = some v) ∨
        (FieldSet.getValue m.fields n = none ∧ fieldDefault S f = some v)) := by
  have hw := Schema.wf_msg hS h.desc
  obtain ⟨hmem, hn⟩ := getExtension_mem hf
  obtain ⟨v0, hv0, hc0⟩ := fieldDefault_conf hS (hw.exts f hmem)
  have hsl : ∀ v, SMap.get? m.fields n = some (.val v) → confVal S f v = true := by
    intro v hv
    have := h.get hv
    have hnone : md.getField n = none := hn ▸ (hw.extNew f hmem).1
    simpa [confSlot, field?_eq h.desc, ext?_eq h.desc, hf, hnone] using this
  unfold FieldSet.getMut FieldSet.write FieldSet.getValue FieldSet.clearAll
  simp only [hn, List.foldl_nil]
  split
  · rename_i v hv
    exact ⟨_, v, rfl, hsl v hv, fun _ => rfl, .inl rfl⟩
  · simp only [hv0]
    exact ⟨_, v0, rfl, hc0, fun v' => SMap.insert_insert _ _ _ _, .inr ⟨trivial, rfl⟩⟩

end Verif.Dyn
