import Verif.Props.OptionValues
import Verif.Dyn.Reenc
import Verif.Dyn.Observe
/-!
C29: options that are maps, and options that are resolved already.
-/
set_option autoImplicit false
namespace Verif.Props
open Verif.Wire Verif.Dyn Verif.Pool Verif.Text Verif.Opt

variable {env : OEnv} {S : Schema}

/-- What is written is an entry of the map whose entries are messages of type `d`: a key (field 1) and a value
(field 2), each its default when left out. -/
def EntryGiven (env : OEnv) (S : Schema) (u : Uninterp) (d : Nat) (k : MapKey) (v : Value) : Prop :=
  ∃ e kd vd, Stands env S u (.message d) (DynMsg.toValue e) ∧ S.field? d 1 = some kd ∧ S.field? d 2 = some vd ∧
    e.getField S kd = some k.toValue ∧ e.getField S vd = some v

theorem toValue_inj {a b : DynMsg} (h : a.toValue = b.toValue) : a = b := by
  obtain ⟨d, fs⟩ := a
  obtain ⟨d', fs'⟩ := b
  simp only [DynMsg.toValue, Value.msg.injEq] at h
  rw [h.1, h.2]

theorem optMessage_iff {u : Uninterp} {d : Nat} {e : DynMsg} :
    optMessage env S d u = .ok e ↔ Stands env S u (.message d) e.toValue := by
  constructor
  · intro h
    unfold optMessage at h
    split at h
    · rename_i t ht
      split at h
      · rename_i m hm
        cases h
        exact .msg ht hm
      · cases h
    · cases h
  · intro h
    generalize hk : Kind.message d = k at h
    generalize hw : e.toValue = w at h
    cases h with
    | msg ht hm =>
      cases hk
      rw [toValue_inj hw]
      simp only [optMessage, ht, hm]
    | i32 h _ => subst hk; rcases h with h | h | h <;> cases h
    | i64 h _ => subst hk; rcases h with h | h | h <;> cases h
    | u32 h _ => subst hk; rcases h with h | h <;> cases h
    | u64 h _ => subst hk; rcases h with h | h <;> cases h
    | _ => cases hk

theorem optMapEntry_iff {u : Uninterp} {d : Nat} {k : MapKey} {v : Value} :
    optMapEntry env S d u = .ok (k, v) ↔ EntryGiven env S u d k v := by
  constructor
  · intro h
    unfold optMapEntry at h
    split at h
    · cases h
    · rename_i e he
      split at h
      · cases h
      · rename_i md hmd
        split at h
        · rename_i kv w h1 h2
          split at h
          · rename_i k' hk
            cases h
            unfold DynMsg.getByNumber at h1 h2
            split at h1
            · rename_i kd hkd
              split at h2
              · rename_i vd hvd
                refine ⟨e, kd, vd, optMessage_iff.1 he, ?_, ?_, ?_, ?_⟩
                · simp only [Schema.field?, hmd]; exact hkd
                · simp only [Schema.field?, hmd]; exact hvd
                · rw [toValue_toMapKey hk]
                  cases hg : DynMsg.getField S e kd with
                  | none => rw [hg] at h1; cases h1
                  | some x => rw [hg] at h1; cases h1; rfl
                · cases hg : DynMsg.getField S e vd with
                  | none => rw [hg] at h2; cases h2
                  | some x => rw [hg] at h2; cases h2; rfl
              · cases h2
            · cases h1
          · cases h
        · cases h
        · cases h
  · rintro ⟨e, kd, vd, he, h1, h2, h3, h4⟩
    have hm := optMessage_iff.2 he
    cases hmd : S.msg? d with
    | none => simp only [Schema.field?, hmd] at h1; cases h1
    | some md =>
      simp only [Schema.field?, hmd, Option.bind_some] at h1 h2
      simp only [optMapEntry, hm, hmd, DynMsg.getByNumber, h1, h2, h3, h4, Option.map_some, toMapKey_toValue]

/-- **C29, entries.** An option that is a map takes exactly what is written as an entry of it: setting it succeeds
when that is one, and then the key leads to the value and all other keys to what they led to. -/
theorem C29_entry (hS : S.wf = true) (hX : ExtOk env S) {u : Uninterp} {p : Part} {m : DynMsg} {md : MsgDesc}
    (hm : confMsg S m = true) (hmd : S.msg? m.desc = some md) {f : FieldDesc} {sib : List Nat}
    (hl : lookPart env md m.desc p = .ok (f, sib)) {d : Nat} (hk : f.kind = .message d)
    {kvs : List (MapKey × Value)} (hg : m.getField S f = some (.map kvs)) :
    ((∃ m', setOption env S u [p] m = .ok m') ↔ ∃ k v, EntryGiven env S u d k v) ∧
    ∀ m' k v, setOption env S u [p] m = .ok m' → EntryGiven env S u d k v →
      ∃ kvs', SMap.get? m'.fields f.number = some (.val (.map kvs')) ∧ KMap.get? kvs' k = some v ∧
        ∀ k', k' ≠ k → KMap.get? kvs' k' = KMap.get? kvs k' := by
  obtain ⟨md', hC⟩ := confMsg_iff.1 hm
  have : md' = md := by have := hC.desc; rw [hmd] at this; exact (Option.some.inj this).symm
  subst this
  obtain ⟨fs, v0, t⟩ := lookPart_touch hS hX hC hl
  have : v0 = .map kvs := by
    have h1 := t.cur
    have h2 : FieldSet.get S m.fields f = some (.map kvs) := hg
    rw [h2] at h1
    exact (Option.some.inj h1).symm
  subst this
  have hc : f.card = .repeated := by
    have := t.conf
    simp only [confVal, Bool.and_eq_true, isMap] at this
    simpa using this.1.1
  have hset : setOption env S u [p] m = (match optMapEntry env S d u with
      | .ok (mk, v) => .ok ⟨m.desc, FieldSet.write f (.map (KMap.insert mk v kvs)) fs⟩
      | .error e => .error e) := by
    simp only [setOption, hmd, hl, t.gmut, if_true, setValue, hk]
    rw [if_neg (by simp [hc])]
    simp only
    cases optMapEntry env S d u with
    | error e => rfl
    | ok q => obtain ⟨a, b⟩ := q; rfl
  rw [hset]
  cases ho : optMapEntry env S d u with
  | error e =>
    refine ⟨⟨fun ⟨m', h⟩ => (by cases h), fun ⟨k, v, h⟩ => ?_⟩, fun m' k v h _ => by cases h⟩
    rw [optMapEntry_iff.2 h] at ho
    cases ho
  | ok q =>
    obtain ⟨a, b⟩ := q
    refine ⟨⟨fun _ => ⟨a, b, optMapEntry_iff.1 ho⟩, fun _ => ⟨_, rfl⟩⟩, fun m' k v h he => ?_⟩
    rw [optMapEntry_iff.2 he] at ho
    cases ho
    cases h
    refine ⟨KMap.insert a b kvs, ?_, ?_, fun k' hk' => ?_⟩
    · have := t.get (.map (KMap.insert a b kvs)) f.number
      rw [if_pos rfl] at this
      exact this
    · rw [KMap.get?_insert, if_pos rfl]
    · rw [KMap.get?_insert, if_neg hk']

/-- `tags` holds 1 ↦ 5; the entry written is 1 ↦ 6, and one without a value is 7 ↦ 0. -/
example : ∃ f sib, lookPart optEnv (optSchema.msgs[0]'(by decide)) 0 ⟨"tags".toList, false⟩ = .ok (f, sib) ∧
    f.kind = .message 2 ∧
    DynMsg.getField optSchema ⟨0, [(4, .val (.map [(.i32 1, .i32 5)]))]⟩ f = some (.map [(.i32 1, .i32 5)]) ∧
    confMsg optSchema ⟨0, [(4, .val (.map [(.i32 1, .i32 5)]))]⟩ = true :=
  ⟨{ Ex.fld 4 "tags" (.message 2) with card := .repeated }, [], by rfl, by rfl, by rfl, by decide +kernel⟩
example : EntryGiven optEnv optSchema { parts := plain ["tags"], agg := some "key:1 value:6".toList } 2 (.i32 1) (.i32 6) ∧
    EntryGiven optEnv optSchema { parts := plain ["tags"], agg := some "key:7".toList } 2 (.i32 7) (.i32 0) :=
  ⟨⟨⟨2, [(1, .val (.i32 1)), (2, .val (.i32 6))]⟩, Ex.fld 1 "key" .int32, Ex.fld 2 "value" .int32,
    .msg rfl (by rfl), by rfl, by rfl, by rfl, by rfl⟩,
   ⟨⟨2, [(1, .val (.i32 7))]⟩, Ex.fld 1 "key" .int32, Ex.fld 2 "value" .int32,
    .msg rfl (by rfl), by rfl, by rfl, by rfl, by rfl⟩⟩
example (k : MapKey) (v : Value) :
    ¬ EntryGiven optEnv optSchema { parts := plain ["tags"], pos := some 5 } 2 k v := by
  intro h
  have := optMapEntry_iff.2 h
  cases this

/-! ### Options that are resolved already -/

theorem erase_absent {α : Type} {n : Nat} : ∀ {m : SMap α}, SMap.get? m n = none → SMap.erase n m = m
  | [], _ => rfl
  | (k, v) :: r, h => by
    simp only [SMap.get?] at h
    split at h
    · cases h
    · rename_i hk
      simp only [SMap.erase, erase_absent h]
      first
        | rw [if_neg hk]
        | rw [if_neg (Ne.symm hk)]

theorem clear_canon {m : DynMsg} {md : MsgDesc} (h : Conf S m md) (n : Nat) :
    DynMsg.clearByNumber md (canonMsg S (DynMsg.clearByNumber md m n)) n = canonMsg S (DynMsg.clearByNumber md m n) := by
  unfold DynMsg.clearByNumber
  cases hf : md.getField n with
  | none => rfl
  | some f =>
    have hs : SMap.sorted m.fields = true := h.sorted
    have hn : f.number = n := getField_look n f hf
    simp only [DynMsg.clearField, canonMsg, FieldSet.clear]
    rw [erase_absent]
    rw [get?_canonSlots _ 0 (SMap.sorted_erase hs), SMap.get?_erase hs, if_pos rfl]
    rfl

/-- **C29, nothing to resolve.** When no option is uninterpreted, as in what protoc writes, resolving options fails
only if the option bytes cannot be decoded. -/
theorem C29_plain (hS : S.wf = true) {d : Nat} {md : MsgDesc} (hd : S.msg? d = some md) (enc : Bytes) :
    (∃ b m, decode S d enc = .ok m ∧ resolveOptions env S d enc [] = .ok b) ∨
    (∃ e, decode S d enc = .error e ∧ resolveOptions env S d enc [] = .decode e) := by
  unfold resolveOptions
  rw [hd]
  simp only
  rcases C06_decode hS hd enc with ⟨m, hm, hc, hdm⟩ | ⟨e, he, -⟩
  · obtain ⟨md', hC⟩ := confMsg_iff.1 hc
    have : md' = md := by
      have := hC.desc
      rw [hdm, hd] at this
      exact (Option.some.inj this).symm
    subst this
    obtain ⟨hC2, -⟩ := conf_clearByNumber hC 999
    obtain ⟨b, hb⟩ := (encMsg_total hS _ (confMsg_accepted hS (confMsg_iff.2 ⟨_, hC2⟩))).1
    refine .inl ⟨b, m, hm, ?_⟩
    have : encMsg S (DynMsg.clearByNumber md' m uninterpretedNumber) = some b := hb
    simp only [hm, setOptions, this]
  · exact .inr ⟨e, he, by rw [he]⟩

/-- **C29, resolved once and for all.** Options that were resolved are resolved again to the same bytes, as when a
file is taken out of one pool and added to another. -/
theorem C29_settled_partial (hS : S.wf = true) (hA : textSafe S = true)
    (hp : ParsesFloats env.text.parse64) (hX : ExtOk env S) (hX' : ExtSafe env) {d : Nat}
    {md : MsgDesc} (hd : S.msg? d = some md) {enc b : Bytes} {us : List Uninterp}
    (h : resolveOptions env S d enc us = .ok b) (hl : b.length < 2 ^ 64)
    (hdep : ∀ m m', decode S d enc = .ok m → setOptions env S us m = .ok m' →
      depthMsg (DynMsg.clearByNumber md m' 999) ≤ 100) (env' : OEnv) :
    resolveOptions env' S d b [] = .ok b := by
  unfold resolveOptions at h
  rw [hd] at h
  simp only at h
  split at h
  · cases h
  · rename_i m hm
    split at h
    · cases h
    · rename_i m' hm'
      split at h
      · rename_i b' hb
        cases h
        obtain ⟨hc, hdm⟩ := (merge_ok hS (confMsg_iff.2 ⟨md, Conf.empty hd⟩) enc).2 m hm
        obtain ⟨hc', hd', hk⟩ := C29_keeps_partial hS hA hp hX hX' hc hm'
        obtain ⟨md', hC⟩ := confMsg_iff.1 hc'
        have hdesc : m'.desc = d := hd'.trans hdm
        have : md' = md := by
          have := hC.desc
          rw [hdesc, hd] at this
          exact (Option.some.inj this).symm
        subst this
        obtain ⟨hC2, hd2⟩ := conf_clearByNumber hC 999
        have hc2 := confMsg_iff.2 ⟨_, hC2⟩
        have hb2 : encMsg S (DynMsg.clearByNumber md' m' 999) = some b := hb
        obtain ⟨h1, -⟩ := decode_encMsg hS hc2 (hdep m m' hm hm') hb2 hl
        rw [hd2, hdesc] at h1
        have h3 : encMsg S (DynMsg.clearByNumber md' (canonMsg S (DynMsg.clearByNumber md' m' 999))
            uninterpretedNumber) = some b := by
          have := clear_canon hC 999
          simp only [uninterpretedNumber]
          rw [this, encMsg_canon hS hc2, hb2]
        simp only [resolveOptions, hd, h1, setOptions, h3]
      · cases h

/-- Options out of order, with an option to resolve and an uninterpreted one to drop: resolved, then resolved again. -/
example : resolveOptions optEnv optSchema 0 [0x10, 0x05, 0x0a, 0x01, 0x61, 0xba, 0x3e, 0x00]
      [{ parts := plain ["xs"], neg := some (-1) }] =
      .ok [0x0a, 0x01, 0x61, 0x10, 0x05, 0x10, 0xff, 0xff, 0xff, 0xff, 0xff, 0xff, 0xff, 0xff, 0xff, 0x01] ∧
    resolveOptions optEnv optSchema 0
      [0x0a, 0x01, 0x61, 0x10, 0x05, 0x10, 0xff, 0xff, 0xff, 0xff, 0xff, 0xff, 0xff, 0xff, 0xff, 0x01] [] =
      .ok [0x0a, 0x01, 0x61, 0x10, 0x05, 0x10, 0xff, 0xff, 0xff, 0xff, 0xff, 0xff, 0xff, 0xff, 0xff, 0x01] ∧
    resolveOptions optEnv optSchema 0 [0x0a, 0x05] [] = .decode .underflow := by
  decide +kernel

end Verif.Props
