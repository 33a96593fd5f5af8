import Verif.Dyn.AccessLemmas
import Verif.Props.Binary
/-!
Properties of the accessors of dynamic messages: C11 to C16 and C46.
-/
set_option autoImplicit false
namespace Verif.Props
open Verif.Wire Verif.Dyn

/-! ### C11 -/

/-- **C11.** Any history of accessor calls on a message whose entries are in order (every
conforming message is, `Conf.inv`, and so is every message reached by such a history) runs without
panic, returns exactly what the abstract machine `Op.spec` on the finite map of stored values
returns, ends in the map that machine ends in, and leaves type and unknown fields alone. -/
theorem C11_accessors {S : Schema} (hS : S.wf = true) {m : DynMsg} {md : MsgDesc}
    (hd : S.msg? m.desc = some md) (hI : Inv md m) {dflt : FieldDesc → Value}
    {valid : FieldDesc → Value → Bool} (hP : Params S md dflt valid) (os : List Op)
    (ho : ∀ o ∈ os, o.ok md) :
    ∃ m', Op.run S md m os = some (m', (Op.specRun dflt valid md m.abs os).2) ∧
      m'.abs = (Op.specRun dflt valid md m.abs os).1 ∧ m'.desc = m.desc ∧
      iterUnknown m'.fields = iterUnknown m.fields ∧ Inv md m' := by
  obtain ⟨m', h1, h2⟩ := Op.run_sim hS hP os hd hI ho
  exact ⟨m', h1, h2.abs, h2.desc, h2.unknown, h2.inv⟩

/-- The parameters of `C11_accessors` exist for every well-formed schema. -/
theorem C11_params {S : Schema} (hS : S.wf = true) {d : Nat} {md : MsgDesc} (hd : S.msg? d = some md) :
    ∃ dflt valid, Params S md dflt valid := ⟨_, _, params_exist hS hd⟩

/-- The message type used by the examples. -/
def exMd : MsgDesc :=
  { name := "t.M".toList,
    fields := [Ex.fA, Ex.fS, Ex.fChild, Ex.fXs, Ex.fTags, Ex.fO1, Ex.fO2, Ex.fYs, Ex.fG, Ex.fE, Ex.fD],
    mapEntry := false, extensions := [Ex.xExt, Ex.xMsgs] }

theorem exMd_eq : Ex.schema.msg? 0 = some exMd := rfl

theorem exInv (m : DynMsg) (h : confMsg Ex.schema m = true) (h0 : m.desc = 0) : Inv exMd m := by
  obtain ⟨md, hC⟩ := confMsg_iff.1 h
  have : md = exMd := by have := hC.desc; rw [h0, exMd_eq] at this; exact (Option.some.inj this).symm
  subst this
  exact hC.inv (by decide)

example : ∃ m md, Ex.schema.msg? m.desc = some md ∧ Inv md m ∧
    (∀ o ∈ [Op.set Ex.fO2 (.msg 0 []), .clear Ex.fA, .setExt Ex.xExt (.i64 3), .take Ex.fO1], o.ok md) :=
  ⟨Ex.small, exMd, rfl, exInv _ (by decide) rfl, by
    intro o ho
    simp only [List.mem_cons, List.not_mem_nil, or_false] at ho
    rcases ho with rfl | rfl | rfl | rfl <;> simp [Op.ok, exMd]⟩

/-- A history on the example: writing `o2` clears `o1`, as the abstract machine says. -/
example : (match Op.run Ex.schema exMd Ex.small
      [.set Ex.fO2 (.msg 0 []), .has Ex.fO1, .has Ex.fO2, .set Ex.fA (.str []), .takeN 1, .has Ex.fA] with
    | some (m, [.res (.ok ()), .bool false, .bool true, .res (.error (.invalidType f _)),
        .opt (some (.i32 v)), .bool false]) =>
      f.number == 1 && v == -1 && m.fields.map (·.1) == [7]
    | _ => false) = true := by decide +kernel

/-! ### C12 -/

/-- **C12.** After any history starting from an empty message (accessor calls, decoding
field by field including failed fields, draining, in-place iteration), a member of a oneof
holds a value exactly when it is the member last written and not removed since. -/
theorem C12_oneof {S : Schema} (hS : S.wf = true) {d : Nat} {md : MsgDesc} (hd : S.msg? d = some md)
    (es : List Ev) (he : ∀ e ∈ es, e.ok md ∧ e.pos) {m : DynMsg}
    (h : Ev.run S md (DynMsg.empty d) es = some m) {f : FieldDesc} (hf : f ∈ md.fields) {o : Nat}
    (ho : f.oneof = some o) :
    m.hasField S f = some (decide (Ev.recordAll S md (fun _ => none) es o = some f.number)) := by
  have hA : Agree md (fun _ => none) (DynMsg.empty d).abs := by
    intro g _ o _
    simp [DynMsg.abs, FieldSet.getValue, DynMsg.empty, SMap.get?]
  have hI : Inv md (DynMsg.empty d) := ⟨rfl, by intro g _ u hu; cases hu⟩
  obtain ⟨_, _, h3⟩ := Ev.run_agree hS es (m := DynMsg.empty d) hd hI he hA h
  have h4 := h3 f hf o ho
  have hp : f.presence = true := by
    rcases ((Schema.wf_msg hS hd).fields f hf).oneof with h | h
    · rw [h] at ho; cases ho
    · exact h
  unfold DynMsg.hasField FieldSet.has
  unfold DynMsg.abs at h4
  cases hg : FieldSet.getValue m.fields f.number with
  | none =>
    rw [hg] at h4
    simp only [Option.isSome_none, Bool.false_eq_true, false_iff] at h4
    simp [h4]
  | some v =>
    rw [hg] at h4
    simp only [Option.isSome_some, true_iff] at h4
    simp [h4, hasVal, hp]

/-- At most one member of a oneof holds a value. -/
theorem C12_exclusive {S : Schema} (hS : S.wf = true) {d : Nat} {md : MsgDesc} (hd : S.msg? d = some md)
    (es : List Ev) (he : ∀ e ∈ es, e.ok md ∧ e.pos) {m : DynMsg}
    (h : Ev.run S md (DynMsg.empty d) es = some m) {f g : FieldDesc} (hf : f ∈ md.fields)
    (hg : g ∈ md.fields) {o : Nat} (hfo : f.oneof = some o) (hgo : g.oneof = some o)
    (h1 : m.hasField S f = some true) (h2 : m.hasField S g = some true) : f = g := by
  rw [C12_oneof hS hd es he h hf hfo] at h1
  rw [C12_oneof hS hd es he h hg hgo] at h2
  simp only [Option.some.injEq, decide_eq_true_eq] at h1 h2
  rw [h1] at h2
  exact field_unique (Schema.wf_msg hS hd).nodup hf hg (Option.some.inj h2)

/-- A successful `merge` of any bytes is such a history of decoded fields. -/
theorem C12_merge_is_history {S : Schema} {md : MsgDesc} {m m' : DynMsg} {b : Bytes}
    (h : merge S m b = .ok m') :
    ∃ es : List Ev, (∀ e ∈ es, e.isWire ∧ e.ok md ∧ e.pos) ∧ Ev.run S md m es = some m' := by
  obtain ⟨es, h1, h2⟩ := merge_events (md := md) h
  refine ⟨es, ?_, h2⟩
  intro e he
  have := h1 e he
  cases e with
  | wire n w b g => exact ⟨this, trivial, this⟩
  | _ => cases this

/-- A history: set `o1`, decode an `o2` field, a failing decode of `o1`, clear `o2`. -/
example : (match Ev.run Ex.schema exMd (DynMsg.empty 0)
      [.call (.set Ex.fO1 (.str [97])), .wire 7 .lengthDelimited [0] id,
       .wire 6 .varint [] id, .call (.clear Ex.fO2)] with
    | some m => m.fields.map (·.1) == [6]
    | none => false) = true ∧
    Ev.recordAll Ex.schema exMd (fun _ => none)
      [.call (.set Ex.fO1 (.str [97])), .wire 7 .lengthDelimited [0] id,
       .wire 6 .varint [] id, .call (.clear Ex.fO2)] 0 = some 6 := by
  constructor <;> decide +kernel

/-! ### C13 -/

/-- What `try_set_field` accepts, stated outright: a list only for a repeated field, every
element of the element kind; a map only for a map field, every key and value of the kinds
of the entry type; anything else if it is of the field's kind. -/
def Acceptable (S : Schema) (f : FieldDesc) (v : Value) : Prop :=
  (∃ vs, v = .list vs ∧ f.card = .repeated ∧ isMap S f = false ∧ ∀ x ∈ vs, x.isValid f.kind = true) ∨
  (∃ kvs i kd vd, v = .map kvs ∧ f.kind = .message i ∧ isMap S f = true ∧ S.field? i 1 = some kd ∧
    S.field? i 2 = some vd ∧ ∀ p ∈ kvs, p.1.isValid kd.kind = true ∧ p.2.isValid vd.kind = true) ∨
  ((∀ vs, v ≠ .list vs) ∧ (∀ kvs, v ≠ .map kvs) ∧ v.isValid f.kind = true)

theorem validFor_iff {S : Schema} (hS : S.wf = true) (f : FieldDesc) (v : Value) :
    validFor S f v = some true ↔ Acceptable S f v := by
  cases v with
  | list vs =>
    simp only [validFor, Acceptable]
    constructor
    · intro h
      split at h
      · rename_i hl
        obtain ⟨h1, h2⟩ := isList_iff.1 hl
        simp only [Option.some.injEq, List.all_eq_true] at h
        exact .inl ⟨vs, rfl, h1, h2, h⟩
      · cases h
    · rintro (⟨vs', h1, h2, h3, h4⟩ | ⟨_, _, _, _, h1, _⟩ | ⟨h1, _⟩)
      · cases h1
        rw [if_pos (isList_iff.2 ⟨h2, h3⟩)]
        simp only [Option.some.injEq, List.all_eq_true]; exact h4
      · cases h1
      · exact absurd rfl (h1 vs)
  | map kvs =>
    simp only [validFor, Acceptable]
    constructor
    · intro h
      split at h
      · rename_i i hi
        split at h
        · rename_i hm
          obtain ⟨j, hj, hj'⟩ := (isMap_iff.1 hm).2
          rw [hi] at hj; cases hj
          obtain ⟨kd, vd, hE⟩ := Schema.wf_entry hS hj'
          rw [hE.kv] at h
          have h2 := hE.kv
          unfold Schema.mapKV at h2
          split at h2
          · rename_i k v hk hv
            cases h2
            exact .inr (.inl ⟨kvs, i, kd, vd, rfl, hi, hm, hk, hv, (validMap_iff hE.val.2.2 kvs).1 h⟩)
          · cases h2
        · cases h
      · cases h
    · rintro (⟨vs', h1, _⟩ | ⟨kvs', i, kd, vd, h1, h2, h3, h4, h5, h6⟩ | ⟨_, h1, _⟩)
      · cases h1
      · cases h1
        obtain ⟨j, hj, hj'⟩ := (isMap_iff.1 h3).2
        rw [h2] at hj; cases hj
        obtain ⟨kd', vd', hE⟩ := Schema.wf_entry hS hj'
        have hkv : S.mapKV i = some (kd, vd) := by simp only [Schema.mapKV, h4, h5]
        have h7 := hE.kv
        rw [hkv] at h7; cases h7
        simp only [h2, h3, hkv, if_true]
        exact (validMap_iff hE.val.2.2 kvs).2 h6
      · exact absurd rfl (h1 kvs)
  | _ =>
    simp only [validFor, Option.some.injEq, Acceptable]
    simp

/-- **C13.** `try_set_field` never panics; it succeeds exactly on the acceptable values; when it
fails it hands back the field and the value and the message is the same message. -/
theorem C13_try_set {S : Schema} (hS : S.wf = true) (md : MsgDesc) (m : DynMsg) (f : FieldDesc)
    (v : Value) :
    (Acceptable S f v ∧ ∃ m', m.trySetField S md f v = some (m', .ok ()) ∧
      m.setField S md f v = some m') ∨
    (¬ Acceptable S f v ∧ m.trySetField S md f v = some (m, .error (.invalidType f v)) ∧
      m.setField S md f v = none) := by
  obtain ⟨b, hb⟩ := validFor_total hS v f
  have hi := validFor_iff hS f v
  rw [hb] at hi
  cases b with
  | true =>
    refine .inl ⟨hi.1 rfl, ⟨m.desc, FieldSet.set (siblings md f) m.fields f v⟩, ?_, ?_⟩
    · simp only [DynMsg.trySetField, hb]
    · simp only [DynMsg.setField, DynMsg.trySetField, hb]
  | false =>
    refine .inr ⟨fun h => ?_, ?_, ?_⟩
    · have := hi.2 h; cases this
    · simp only [DynMsg.trySetField, hb]
    · simp only [DynMsg.setField, DynMsg.trySetField, hb]

/-- The same by number and by name: an unknown number or name is reported and changes nothing. -/
theorem C13_try_set_by {S : Schema} (hS : S.wf = true) (md : MsgDesc) (m : DynMsg) (v : Value) :
    (∀ n m' e, m.trySetByNumber S md n v = some (m', .error e) → m' = m) ∧
    (∀ n m' e, m.trySetByName S md n v = some (m', .error e) → m' = m) ∧
    (∀ n, m.trySetByNumber S md n v ≠ none) ∧ (∀ n, m.trySetByName S md n v ≠ none) ∧
    (∀ n, (∀ f ∈ md.fields, f.number ≠ n) → m.trySetByNumber S md n v = some (m, .error .notFound)) ∧
    (∀ n, (∀ f ∈ md.fields, f.name ≠ n) → m.trySetByName S md n v = some (m, .error .notFound)) := by
  have one : ∀ f m' e, m.trySetField S md f v = some (m', .error e) → m' = m := by
    intro f m' e h
    rcases C13_try_set hS md m f v with ⟨_, m1, h1, _⟩ | ⟨_, h1, _⟩
    · rw [h1] at h; simp at h
    · rw [h1] at h; simp only [Option.some.injEq, Prod.mk.injEq] at h; exact h.1.symm
  have tot : ∀ f, m.trySetField S md f v ≠ none := by
    intro f h
    rcases C13_try_set hS md m f v with ⟨_, m1, h1, _⟩ | ⟨_, h1, _⟩ <;> rw [h1] at h <;> cases h
  refine ⟨?_, ?_, ?_, ?_, ?_, ?_⟩
  · intro n m' e h
    unfold DynMsg.trySetByNumber at h
    split at h
    · exact one _ m' e h
    · simp only [Option.some.injEq, Prod.mk.injEq] at h; exact h.1.symm
  · intro n m' e h
    unfold DynMsg.trySetByName at h
    split at h
    · exact one _ m' e h
    · simp only [Option.some.injEq, Prod.mk.injEq] at h; exact h.1.symm
  · intro n
    unfold DynMsg.trySetByNumber
    split
    · exact tot _
    · simp
  · intro n
    unfold DynMsg.trySetByName
    split
    · exact tot _
    · simp
  · intro n h
    have : md.getField n = none := by
      unfold MsgDesc.getField
      rw [List.find?_eq_none]
      intro f hf; simpa using h f hf
    simp only [DynMsg.trySetByNumber, this]
  · intro n h
    have : md.getFieldByName n = none := by
      unfold MsgDesc.getFieldByName
      rw [List.find?_eq_none]
      intro f hf; simpa using h f hf
    simp only [DynMsg.trySetByName, this]

example : Acceptable Ex.schema Ex.fTags (.map [(.str [1], .f64 3)]) :=
  (validFor_iff (by decide) _ _).1 (by decide)
example : ¬ Acceptable Ex.schema Ex.fTags (.map [(.i32 1, .f64 3)]) :=
  fun h => absurd ((validFor_iff (by decide) _ _).2 h) (by decide)
example : ¬ Acceptable Ex.schema Ex.fXs (.list [.i32 1, .i64 3]) :=
  fun h => absurd ((validFor_iff (by decide) _ _).2 h) (by decide)

/-! ### C46 -/

/-- **C46 (partial).** A conforming value is accepted; a field of scalar, string, bytes or enum
kind that is not repeated accepts only values of its own kind, and an accepted list holds only
elements of the kind. Missing: message values (see `C46_false`) and non-list values for
repeated fields (see `C46_bare_element`). -/
theorem C46_type_checked_partial {S : Schema} (hS : S.wf = true) (md : MsgDesc) (m : DynMsg)
    {f : FieldDesc} (v : Value) :
    (confVal S f v = true → ∃ m', m.trySetField S md f v = some (m', .ok ())) ∧
    (f.card ≠ .repeated → ∀ m', m.trySetField S md f v = some (m', .ok ()) → v.isValid f.kind = true) ∧
    (∀ vs m', v = .list vs → m.trySetField S md f v = some (m', .ok ()) →
      f.card = .repeated ∧ ∀ x ∈ vs, x.isValid f.kind = true) := by
  refine ⟨?_, ?_, ?_⟩
  · intro h
    have := (conf_accepted hS v f h).1
    exact ⟨_, by simp only [DynMsg.trySetField, this]; rfl⟩
  · intro hc m' h
    rcases C13_try_set hS md m f v with ⟨h1, _⟩ | ⟨_, h1, _⟩
    · rcases h1 with ⟨vs, _, h2, _⟩ | ⟨_, _, _, _, _, _, h2, _⟩ | ⟨_, _, h2⟩
      · exact absurd h2 hc
      · exact absurd (isMap_iff.1 h2).1 hc
      · exact h2
    · rw [h1] at h; simp at h
  · intro vs m' hv h
    rcases C13_try_set hS md m f v with ⟨h1, _⟩ | ⟨_, h1, _⟩
    · rcases h1 with ⟨vs', he, h2, _, h3⟩ | ⟨_, _, _, _, he, _⟩ | ⟨he, _⟩
      · rw [hv] at he; cases he; exact ⟨h2, h3⟩
      · rw [hv] at he; cases he
      · exact absurd hv (he vs)
    · rw [h1] at h; simp at h

/-- **C46 is false**: a field of message type `t.M` accepts a value of the unrelated type
`t.G`; what is then encoded does not decode to that content. -/
theorem C46_false : ∃ (S : Schema) (md : MsgDesc) (m m' : DynMsg) (f : FieldDesc) (d : Nat) (fs : FieldSet),
    S.wf = true ∧ S.msg? m.desc = some md ∧ confMsg S m = true ∧ f ∈ md.fields ∧
    f.kind = .message 0 ∧ d ≠ 0 ∧
    m.trySetField S md f (.msg d fs) = some (m', .ok ()) ∧ confMsg S m' = false :=
  ⟨Ex.schema, exMd, Ex.small, _, Ex.fChild, 2, [(1, .val (.i64 4))], by decide, rfl, by decide,
    by simp [exMd], rfl, by decide, rfl, by decide⟩

/-- A repeated field accepts a bare element. -/
theorem C46_bare_element : ∃ (S : Schema) (md : MsgDesc) (m m' : DynMsg) (f : FieldDesc) (v : Value),
    S.wf = true ∧ S.msg? m.desc = some md ∧ confMsg S m = true ∧ f ∈ md.fields ∧
    f.card = .repeated ∧ (∀ vs, v ≠ .list vs) ∧ (∀ kvs, v ≠ .map kvs) ∧
    m.trySetField S md f v = some (m', .ok ()) ∧ confMsg S m' = false :=
  ⟨Ex.schema, exMd, Ex.small, _, Ex.fYs, .str [97], by decide, rfl, by decide,
    by simp [exMd], rfl, (by intro vs h; cases h), (by intro vs h; cases h), rfl, by decide⟩

/-! ### C14 -/

/-- The stored entries by class: `fields()` yields exactly the declared fields for which
`has_field` is true, each with the value `get_field` returns, in ascending number order
(so each once); likewise `extensions()`. -/
theorem iter_class {S : Schema} {look : Nat → Option FieldDesc} {fs : FieldSet}
    (hs : SMap.sorted fs = true) (hlook : ∀ n f, look n = some f → f.number = n)
    (hd : ∀ n f, look n = some f → (fieldDefault S f).isSome = true) :
    ∃ l, iterBy S look fs = some l ∧ (l.map (·.1.number)).Pairwise (· < ·) ∧
      ∀ f v, (f, v) ∈ l ↔ look f.number = some f ∧ FieldSet.has S fs f = some true ∧
        FieldSet.get S fs f = some v := by
  obtain ⟨l, hl⟩ := iterBy_total hd fs
  refine ⟨l, hl, (iterBy_sorted hlook hs hl).1, ?_⟩
  intro f v
  rw [mem_iterBy hl]
  constructor
  · rintro ⟨n, h1, h2, h3⟩
    have hn := hlook n f h2
    subst hn
    have hg := (getValue_iff hs).2 h1
    exact ⟨h2, by simp only [FieldSet.has, hg, h3], by simp only [FieldSet.get, hg]⟩
  · rintro ⟨h1, h2, h3⟩
    simp only [FieldSet.has] at h2
    simp only [FieldSet.get] at h3
    cases hg : FieldSet.getValue fs f.number with
    | none => rw [hg] at h2; simp at h2
    | some w =>
      rw [hg] at h2 h3
      cases h3
      exact ⟨f.number, (getValue_iff hs).1 hg, h1, h2⟩

theorem default_look {S : Schema} (hS : S.wf = true) {d : Nat} {md : MsgDesc} (hd : S.msg? d = some md) :
    (∀ n f, md.getField n = some f → (fieldDefault S f).isSome = true) ∧
    (∀ n f, md.getExtension n = some f → (fieldDefault S f).isSome = true) := by
  constructor
  · intro n f h
    obtain ⟨v, hv, _⟩ := fieldDefault_conf hS (fieldWf_of_mem hS hd (.inl (getField_mem h).1))
    rw [hv]; rfl
  · intro n f h
    obtain ⟨v, hv, _⟩ := fieldDefault_conf hS (fieldWf_of_mem hS hd (.inr (getExtension_mem h).1))
    rw [hv]; rfl

/-- **C14.** On every message reached by any history, `fields()`, `extensions()` and
`unknown_fields()` do not panic and enumerate exactly what is present, each once and in order;
what `encode` writes is the enumeration of the declared fields followed by that of extensions
and unknown fields. -/
theorem C14_iteration {S : Schema} (hS : S.wf = true) {m : DynMsg} {md : MsgDesc}
    (hd : S.msg? m.desc = some md) (hI : Inv md m) :
    (∃ l, iterFields S md m.fields = some l ∧ (l.map (·.1.number)).Pairwise (· < ·) ∧
      ∀ f v, (f, v) ∈ l ↔ f ∈ md.fields ∧ m.hasField S f = some true ∧ m.getField S f = some v) ∧
    (∃ l, iterExtensions S md m.fields = some l ∧ (l.map (·.1.number)).Pairwise (· < ·) ∧
      ∀ f v, (f, v) ∈ l ↔ md.getExtension f.number = some f ∧ m.hasField S f = some true ∧
        m.getField S f = some v) ∧
    (∀ u, u ∈ iterUnknown m.fields ↔ ∃ n us, SMap.get? m.fields n = some (.unknown us) ∧ u ∈ us) ∧
    encMsg S m = (iter S md false m.fields).bind (encItems S) := by
  have hn := (Schema.wf_msg hS hd).nodup
  refine ⟨?_, ?_, ?_, ?_⟩
  · obtain ⟨l, h1, h2, h3⟩ := iter_class hI.sorted getField_look (default_look hS hd).1
    refine ⟨l, by rw [iterFields_eq]; exact h1, h2, ?_⟩
    intro f v
    rw [h3]
    constructor
    · rintro ⟨h4, h5⟩; exact ⟨(getField_mem h4).1, h5⟩
    · rintro ⟨h4, h5⟩; exact ⟨getField_of_mem hn h4, h5⟩
  · obtain ⟨l, h1, h2, h3⟩ := iter_class hI.sorted getExtension_look (default_look hS hd).2
    exact ⟨l, by rw [iterExtensions_eq]; exact h1, h2, h3⟩
  · intro u
    rw [mem_iterUnknown]
    constructor
    · rintro ⟨n, us, h1, h2⟩; exact ⟨n, us, SMap.get?_of_mem hI.sorted h1, h2⟩
    · rintro ⟨n, us, h1, h2⟩; exact ⟨n, us, SMap.mem_of_get? h1, h2⟩
  · refine encMsg_eq_iter hd ⟨hn, ?_⟩ hI.sorted
    intro f hf
    exact ((Schema.wf_msg hS hd).fields f hf).num.1

/-- The three classes are exhaustive and disjoint after any history from the empty message:
an entry is a value of a declared field, a value of an extension, unknown at a number the
schema does not know, or a drained entry. -/
theorem C14_classes {S : Schema} (hS : S.wf = true) {m : DynMsg} {md : MsgDesc}
    (hC : Conf S m md) {n : Nat} {s : Slot} (h : SMap.get? m.fields n = some s) :
    (∃ v f, s = .val v ∧ md.getField n = some f ∧ md.getExtension n = none) ∨
    (∃ v f, s = .val v ∧ md.getField n = none ∧ md.getExtension n = some f) ∨
    (∃ us, s = .unknown us ∧ md.getField n = none ∧ md.getExtension n = none) ∨ s = .taken := by
  have hc := hC.get h
  cases s with
  | taken => exact .inr (.inr (.inr rfl))
  | unknown us =>
    simp only [confSlot, field?_eq hC.desc, ext?_eq hC.desc, Bool.and_eq_true,
      Option.isNone_iff_eq_none] at hc
    exact .inr (.inr (.inl ⟨us, rfl, hc.1.1, hc.1.2⟩))
  | val v =>
    simp only [confSlot, field?_eq hC.desc, ext?_eq hC.desc] at hc
    cases hf : md.getField n with
    | some f =>
      refine .inl ⟨v, f, rfl, rfl, ?_⟩
      cases hx : md.getExtension n with
      | none => rfl
      | some x =>
        have := ((Schema.wf_msg hS hC.desc).extNew x (getExtension_mem hx).1).1
        rw [(getExtension_mem hx).2, hf] at this; cases this
    | none =>
      rw [hf] at hc
      cases hx : md.getExtension n with
      | none => rw [hx] at hc; cases hc
      | some x => exact .inr (.inl ⟨v, x, rfl, rfl, rfl⟩)

example : ∃ m md, Ex.schema.msg? m.desc = some md ∧ Inv md m ∧ Conf Ex.schema m md := by
  obtain ⟨md, hC⟩ := confMsg_iff.1 (show confMsg Ex.schema Ex.big = true by decide)
  exact ⟨Ex.big, md, hC.desc, hC.inv (by decide), hC⟩
example : ((iterFields Ex.schema exMd Ex.big.fields).map (·.map (·.1.number))) =
    some [1, 2, 3, 4, 5, 7, 8, 9, 10] := by decide +kernel
example : ((iterExtensions Ex.schema exMd Ex.big.fields).map (·.map (·.1.number))) =
    some [100, 101] := by decide +kernel
example : (iterUnknown Ex.big.fields).map (·.1) = [50, 50, 60] := by decide +kernel

/-! ### C15 -/

/-- **C15, one class.** Draining the declared fields returns what `fields()` would have
yielded; afterwards no field is present and `fields()` is empty, while extensions and unknown
fields are as before. -/
theorem C15_take_fields {S : Schema} (hS : S.wf = true) {m : DynMsg} {md : MsgDesc}
    (hd : S.msg? m.desc = some md) (hI : Inv md m) :
    ∃ l fs', takeFields S md m.fields = some (l, fs') ∧ iterFields S md m.fields = some l ∧
      iterFields S md fs' = some [] ∧ (∀ f ∈ md.fields, FieldSet.has S fs' f = some false) ∧
      iterExtensions S md fs' = iterExtensions S md m.fields ∧
      iterUnknown fs' = iterUnknown m.fields ∧ Inv md ⟨m.desc, fs'⟩ := by
  obtain ⟨⟨l, fs'⟩, h⟩ := takeBy_total (default_look hS hd).1 m.fields
  obtain ⟨h1, h2, h3, _⟩ := takeBy_spec h
  have hI' := drain_inv hI h
  refine ⟨l, fs', by rw [takeFields_eq]; exact h, by rw [iterFields_eq]; exact h1,
    by rw [iterFields_eq]; exact iterBy_drained h, ?_, ?_, h3, hI'⟩
  · intro f hf
    obtain ⟨l', h5, _, h6⟩ := iter_class hI'.sorted getField_look (default_look hS hd).1
    rw [iterBy_drained h] at h5
    cases h5
    obtain ⟨w, hw, _⟩ := fieldDefault_conf hS (fieldWf_of_mem hS hd (.inl hf))
    have hh := has_sim (m := ⟨m.desc, fs'⟩) hw
    have hg := get_sim (m := ⟨m.desc, fs'⟩) hw
    simp only at hh hg
    rw [hh]
    cases hb : AMap.present f w (DynMsg.abs ⟨m.desc, fs'⟩) with
    | false => rfl
    | true =>
      rw [hb] at hh
      have := (h6 f _).2 ⟨getField_of_mem (Schema.wf_msg hS hd).nodup hf, hh, hg⟩
      cases this
  · rw [iterExtensions_eq, iterExtensions_eq]
    refine takeBy_iterBy ?_ h
    intro n f hf
    cases hx : md.getExtension n with
    | none => rfl
    | some x =>
      have := ((Schema.wf_msg hS hd).extNew x (getExtension_mem hx).1).1
      rw [(getExtension_mem hx).2, hf] at this; cases this

/-- **C15, extensions.** -/
theorem C15_take_extensions {S : Schema} (hS : S.wf = true) {m : DynMsg} {md : MsgDesc}
    (hd : S.msg? m.desc = some md) (hI : Inv md m) :
    ∃ l fs', takeExtensions S md m.fields = some (l, fs') ∧ iterExtensions S md m.fields = some l ∧
      iterExtensions S md fs' = some [] ∧ iterFields S md fs' = iterFields S md m.fields ∧
      iterUnknown fs' = iterUnknown m.fields ∧ Inv md ⟨m.desc, fs'⟩ := by
  obtain ⟨⟨l, fs'⟩, h⟩ := takeBy_total (default_look hS hd).2 m.fields
  obtain ⟨h1, h2, h3, _⟩ := takeBy_spec h
  refine ⟨l, fs', by rw [takeExtensions_eq]; exact h, by rw [iterExtensions_eq]; exact h1,
    by rw [iterExtensions_eq]; exact iterBy_drained h, ?_, h3, drain_inv hI h⟩
  rw [iterFields_eq, iterFields_eq]
  refine takeBy_iterBy ?_ h
  intro n x hx
  have := ((Schema.wf_msg hS hd).extNew x (getExtension_mem hx).1).1
  rw [(getExtension_mem hx).2] at this; exact this

/-- **C15, unknown fields.** -/
theorem C15_take_unknown {S : Schema} {m : DynMsg} {md : MsgDesc} (hI : Inv md m) :
    (takeUnknown m.fields).1 = iterUnknown m.fields ∧ iterUnknown (takeUnknown m.fields).2 = [] ∧
      iterFields S md (takeUnknown m.fields).2 = iterFields S md m.fields ∧
      iterExtensions S md (takeUnknown m.fields).2 = iterExtensions S md m.fields ∧
      Inv md ⟨m.desc, (takeUnknown m.fields).2⟩ := by
  obtain ⟨h1, _, h3, _⟩ := takeUnknown_spec m.fields
  refine ⟨h1, h3, ?_, ?_, ?_⟩
  · rw [iterFields_eq, iterFields_eq, takeUnknown_iterBy]
  · rw [iterExtensions_eq, iterExtensions_eq, takeUnknown_iterBy]
  · exact drainUnknown_inv hI

/-- Draining one class leaves, at the number of a member of the class, nothing or a value equal to
the default of a field without presence. -/
theorem drain_residue {S : Schema} {look : Nat → Option FieldDesc} {fs fs' : FieldSet}
    {l : List (FieldDesc × Value)} (h : takeBy S look fs = some (l, fs')) {f : FieldDesc} {w : Value}
    (hl : look f.number = some f) (hw : fieldDefault S f = some w) :
    FieldSet.getValue fs' f.number = none ∨
      (f.presence = false ∧ ∃ v, FieldSet.getValue fs' f.number = some v ∧ v.beq w = true) := by
  obtain ⟨_, _, _, h4⟩ := takeBy_spec h
  rcases h4 f.number with ⟨s, _, _, h5⟩ | ⟨h5, h6⟩
  · left; simp only [FieldSet.getValue, h5]
  · simp only [FieldSet.getValue, h5]
    cases hg : SMap.get? fs f.number with
    | none => exact .inl rfl
    | some s =>
      cases s with
      | taken => exact .inl rfl
      | unknown u => exact .inl rfl
      | val v =>
        right
        have hnd := h6 _ hg
        have : hasVal S f v ≠ some true := fun hh => hnd ⟨v, f, rfl, hl, hh⟩
        simp only [hasVal, isDefault, hw, Option.map_some] at this
        cases hp : f.presence with
        | true => simp [hp] at this
        | false =>
          refine ⟨rfl, v, rfl, ?_⟩
          simpa [hp] using this

/-- A drain keeps values outside its class and may only remove values. -/
theorem drain_other {S : Schema} {look : Nat → Option FieldDesc} {fs fs' : FieldSet}
    {l : List (FieldDesc × Value)} (h : takeBy S look fs = some (l, fs')) (n : Nat) :
    FieldSet.getValue fs' n = FieldSet.getValue fs n ∨ FieldSet.getValue fs' n = none := by
  obtain ⟨_, _, _, h4⟩ := takeBy_spec h
  rcases h4 n with ⟨s, _, _, h5⟩ | ⟨h5, _⟩
  · right; simp only [FieldSet.getValue, h5]
  · left; simp only [FieldSet.getValue, h5]

/-- **C15, later calls.** After draining all three classes, any later history of calls (other
than those that run the caller's code on the stored value) returns what it returns on a freshly
created message; only a read may return a value that compares equal instead of the same one (a
stored `-0.0` for the default `0.0`). -/
theorem C15_like_fresh {S : Schema} (hS : S.wf = true) {m : DynMsg} {md : MsgDesc}
    (hd : S.msg? m.desc = some md) (hI : Inv md m)
    (hx : ∀ x ∈ md.extensions, md.getExtension x.number = some x)
    {l1 l2 : List (FieldDesc × Value)} {fs1 fs2 : FieldSet}
    (h1 : takeFields S md m.fields = some (l1, fs1)) (h2 : takeExtensions S md fs1 = some (l2, fs2))
    (os : List Op) (ho : ∀ o ∈ os, o.ok md ∧ o.noMut = true) :
    ∃ m' xs m'' ys, Op.run S md ⟨m.desc, (takeUnknown fs2).2⟩ os = some (m', xs) ∧
      Op.run S md (DynMsg.empty m.desc) os = some (m'', ys) ∧ xs.length = ys.length ∧
      ∀ (i : Nat) (x y : Out), xs[i]? = some x → ys[i]? = some y → OutEq x y := by
  rw [takeFields_eq] at h1
  rw [takeExtensions_eq] at h2
  obtain ⟨dflt, valid, hP⟩ := C11_params hS hd
  have hI1 := drain_inv hI h1
  have hI2 : Inv md ⟨m.desc, fs2⟩ := drain_inv (m := ⟨m.desc, fs1⟩) hI1 h2
  have hI3 : Inv md ⟨m.desc, (takeUnknown fs2).2⟩ := drainUnknown_inv (m := ⟨m.desc, fs2⟩) hI2
  have hI0 : Inv md (DynMsg.empty m.desc) := ⟨rfl, by intro g _ u hu; cases hu⟩
  have hR : Residue md dflt (DynMsg.abs ⟨m.desc, (takeUnknown fs2).2⟩) (DynMsg.empty m.desc).abs := by
    rw [drainUnknown_abs ⟨m.desc, fs2⟩]
    intro f hf
    have hw := hP.dflt f hf
    have he : (DynMsg.empty m.desc).abs f.number = none := rfl
    rw [he]
    simp only [DynMsg.abs]
    rcases hf with hf | hf
    · have r1 := drain_residue h1 (getField_of_mem (Schema.wf_msg hS hd).nodup hf) hw
      rcases drain_other h2 f.number with h3 | h3
      · rw [h3]
        rcases r1 with r1 | ⟨hp, v, hv, hb⟩
        · exact .inl r1
        · exact .inr ⟨trivial, hp, v, hv, hb⟩
      · exact .inl h3
    · rcases drain_residue h2 (hx f hf) hw with r1 | ⟨hp, v, hv, hb⟩
      · exact .inl r1
      · exact .inr ⟨trivial, hp, v, hv, hb⟩
  obtain ⟨m', h3, _⟩ := Op.run_sim hS hP os (m := ⟨m.desc, (takeUnknown fs2).2⟩) hd hI3 (fun o h => (ho o h).1)
  obtain ⟨m'', h4, _⟩ := Op.run_sim hS hP os (m := DynMsg.empty m.desc) hd hI0 (fun o h => (ho o h).1)
  obtain ⟨h5, h6⟩ := hR.run (valid := valid) os ho
  exact ⟨m', _, m'', _, h3, h4, h5, h6⟩

/-- **The equality part of C15 is false**: a fully drained message differs from a fresh one
although every iterator reports it empty. -/
theorem C15_equality_false : ∃ (S : Schema) (md : MsgDesc) (m : DynMsg)
    (l1 l2 : List (FieldDesc × Value)) (fs1 fs2 : FieldSet),
    S.wf = true ∧ S.msg? m.desc = some md ∧ confMsg S m = true ∧
    takeFields S md m.fields = some (l1, fs1) ∧ takeExtensions S md fs1 = some (l2, fs2) ∧
    (DynMsg.beq ⟨m.desc, (takeUnknown fs2).2⟩ (DynMsg.empty m.desc)) = false :=
  ⟨Ex.schema, exMd, ⟨0, [(6, .val (.str [120]))]⟩, [(Ex.fO1, .str [120])], [], [(6, .taken)],
    [(6, .taken)], by decide, rfl, by decide, rfl, rfl, by decide +kernel⟩

example : ∀ x ∈ exMd.extensions, exMd.getExtension x.number = some x := by
  intro x hx
  simp only [exMd, List.mem_cons, List.not_mem_nil, or_false] at hx
  rcases hx with rfl | rfl <;> rfl
example : (match takeFields Ex.schema exMd Ex.big.fields with
    | some (l, fs) => l.length == 9 && (match takeExtensions Ex.schema exMd fs with
      | some (l2, fs2) => l2.length == 2 && (takeUnknown fs2).1.length == 3
      | none => false)
    | none => false) = true := by decide +kernel

/-! ### C16 -/

/-- The zero value of a kind, stated outright. -/
def ZeroOf (S : Schema) (k : Kind) (v : Value) : Prop :=
  match k with
  | .double => v = .f64 0
  | .float => v = .f32 0
  | .int32 | .sint32 | .sfixed32 => v = .i32 0
  | .int64 | .sint64 | .sfixed64 => v = .i64 0
  | .uint32 | .fixed32 => v = .u32 0
  | .uint64 | .fixed64 => v = .u64 0
  | .bool => v = .bool false
  | .string => v = .str []
  | .bytes => v = .bytes []
  | .message i => v = .msg i []
  | .enum e => ∃ d n x r, S.enums[e]? = some d ∧ d.values = (n, x) :: r ∧ v = .enum x

/-- **C16, defaults.** Reading an absent field gives: the empty list or map for a repeated
field, the declared default if there is one, otherwise the zero of its kind (for an enum the
first declared value); and that value conforms to the field and is accepted by the setter. -/
theorem C16_default {S : Schema} (hS : S.wf = true) {m : DynMsg} {md : MsgDesc}
    (hd : S.msg? m.desc = some md) {f : FieldDesc} (hf : f ∈ md.fields ∨ f ∈ md.extensions)
    (h : m.abs f.number = none) :
    ∃ v, m.getField S f = some v ∧ m.hasField S f = some false ∧ confVal S f v = true ∧
      Acceptable S f v ∧
      ((f.card = .repeated ∧ isMap S f = false ∧ v = .list []) ∨
       (f.card = .repeated ∧ isMap S f = true ∧ v = .map []) ∨
       (f.card ≠ .repeated ∧ f.default = some v) ∨
       (f.card ≠ .repeated ∧ f.default = none ∧ ZeroOf S f.kind v)) := by
  have hw := fieldWf_of_mem hS hd hf
  obtain ⟨v, hv, hc⟩ := fieldDefault_conf hS hw
  refine ⟨v, ?_, ?_, hc, (validFor_iff hS f v).1 (conf_accepted hS v f hc).1, ?_⟩
  · have := get_sim (m := m) hv
    simp only [AMap.read, h] at this
    exact this
  · have := has_sim (m := m) hv
    simp only [AMap.present, h] at this
    exact this
  · unfold fieldDefault at hv
    by_cases hr : f.card = .repeated
    · cases hm : isMap S f with
      | false =>
        rw [if_pos (isList_iff.2 ⟨hr, hm⟩)] at hv
        cases hv; exact .inl ⟨hr, rfl, rfl⟩
      | true =>
        rw [if_neg (by simp [isList, hm]), if_pos hm] at hv
        cases hv; exact .inr (.inl ⟨hr, rfl, rfl⟩)
    · rw [if_neg (by simp [isList_of_ne hr]), if_neg (by simp [isMap_of_ne hr])] at hv
      cases hdf : f.default with
      | some w => rw [hdf] at hv; cases hv; exact .inr (.inr (.inl ⟨hr, rfl⟩))
      | none =>
        rw [hdf] at hv
        refine .inr (.inr (.inr ⟨hr, rfl, ?_⟩))
        simp only at hv
        cases hk : f.kind with
        | enum e =>
          rw [hk] at hv
          simp only [kindDefault, Option.map_eq_some_iff, Schema.enumDefault] at hv
          obtain ⟨x, hx, hxv⟩ := hv
          split at hx
          · rename_i d hde
            cases hvs : d.values with
            | nil => rw [hvs] at hx; cases hx
            | cons p r =>
              obtain ⟨n, y⟩ := p
              rw [hvs] at hx
              simp only [List.head?_cons, Option.map_some, Option.some.injEq] at hx
              exact ⟨d, n, y, r, hde, hvs, by rw [hx]; exact hxv.symm⟩
          · cases hx
        | _ => rw [hk] at hv; simp only [kindDefault, Option.some.injEq] at hv; exact hv.symm

/-- **C16, presence.** With explicit presence a field is present iff it holds a value;
without, iff it holds a value different from its default. -/
theorem C16_presence {S : Schema} (hS : S.wf = true) {m : DynMsg} {md : MsgDesc}
    (hd : S.msg? m.desc = some md) {f : FieldDesc} (hf : f ∈ md.fields ∨ f ∈ md.extensions) :
    ∃ w, fieldDefault S f = some w ∧
      (f.presence = true → m.hasField S f = some (m.abs f.number).isSome) ∧
      (f.presence = false → (m.hasField S f = some true ↔ ∃ v, m.abs f.number = some v ∧ v.beq w = false)) := by
  obtain ⟨w, hw, _⟩ := fieldDefault_conf hS (fieldWf_of_mem hS hd hf)
  have := has_sim (m := m) hw
  refine ⟨w, hw, ?_, ?_⟩
  · intro hp
    unfold DynMsg.hasField
    rw [this]
    simp only [AMap.present, hp]
    cases m.abs f.number <;> rfl
  · intro hp
    unfold DynMsg.hasField
    rw [this]
    simp only [AMap.present, hp, Bool.false_or, Option.some.injEq]
    cases m.abs f.number with
    | none => simp
    | some v => simp

/-- **C16, wire.** Setting a field without presence to a value equal to its default writes the
same bytes as clearing it. -/
theorem C16_default_not_written {S : Schema} (hS : S.wf = true) {m m' : DynMsg} {md : MsgDesc}
    (hd : S.msg? m.desc = some md) (hI : Inv md m) {f : FieldDesc} (hf : f ∈ md.fields)
    (hp : f.presence = false) {v w : Value} (hw : fieldDefault S f = some w) (hv : v.beq w = true)
    (h : m.setField S md f v = some m') : encMsg S m' = encMsg S (m.clearField f) := by
  have hno : f.oneof = none := by
    rcases ((Schema.wf_msg hS hd).fields f hf).oneof with h | h
    · exact h
    · rw [h] at hp; cases hp
  have hsib : siblings md f = [] := by unfold siblings; rw [hno]
  have hm' : m' = ⟨m.desc, SMap.insert f.number (.val v) m.fields⟩ := by
    unfold DynMsg.setField DynMsg.trySetField at h
    split at h
    · rename_i m1 h1
      split at h1
      · cases h1
      · simp only [Option.some.injEq, Prod.mk.injEq] at h1 h
        rw [← h, ← h1.1]
        simp [FieldSet.set, hsib, FieldSet.clearAll]
      · simp at h1
    · cases h
  subst hm'
  have hlook := getField_of_mem (Schema.wf_msg hS hd).nodup hf
  have h1 : ifPresent S (S.field? m.desc f.number) v [] (fun f => encVal S f v) = some [] := by
    rw [field?_eq hd, hlook]
    simp [ifPresent, hasVal, hp, isDefault, hw, hv]
  have h2 : ifPresent S (S.ext? m.desc f.number) v [] (fun f => encVal S f v) = some [] := by
    rw [ext?_eq hd]
    cases hx : md.getExtension f.number with
    | none => rfl
    | some x =>
      have := ((Schema.wf_msg hS hd).extNew x (getExtension_mem hx).1).1
      rw [(getExtension_mem hx).2, hlook] at this; cases this
  unfold encMsg DynMsg.clearField FieldSet.clear
  simp only
  rw [encSlots_insert_default h1 h2 hI.sorted]

example : Ex.fD.presence = false ∧ fieldDefault Ex.schema Ex.fD = some (.f64 0) ∧
    Value.beq (.f64 0x8000000000000000) (.f64 0) = true := ⟨rfl, rfl, by decide +kernel⟩
example : Ex.fE ∈ exMd.fields ∧ fieldDefault Ex.schema Ex.fE = some (.enum 0) ∧
    fieldDefault Ex.schema Ex.fS = some (.str [104, 105]) := ⟨by simp [exMd], rfl, rfl⟩

end Verif.Props
