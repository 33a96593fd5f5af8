import Verif.Opt.Options
import Verif.Text.Safe
/-! Helper lemmas about setting interpreted options. -/
set_option autoImplicit false
namespace Verif.Opt
open Verif.Wire Verif.Dyn Verif.Text Verif.Pool

/-- `resolve_name` with the extension filter gives an extension registered with the message it
extends. -/
def ExtOk (env : OEnv) (S : Schema) : Prop :=
  ∀ name i f, env.findExt name = .ok (i, f) → ∃ md, S.msg? i = some md ∧
    md.getExtension f.number = some f

/-- Errors that are not the caller's: panics. -/
def OErr.bad : OErr → Bool
  | .panic => true
  | .message .panic => true
  | .message .fuel => true
  | _ => false

/-- `resolve_name` does not panic. -/
def ExtSafe (env : OEnv) : Prop := ∀ name e, env.findExt name = .error e → e.bad = false

variable {env : OEnv} {S : Schema}

theorem orInvalid_ok {α : Type} {g : α → Value} {o : Option α} {v : Value}
    (h : orInvalid g o = .ok v) : ∃ a, o = some a ∧ v = g a := by
  cases o <;> simp [orInvalid] at h
  exact ⟨_, rfl, h.symm⟩

theorem orInvalid_err {α : Type} {g : α → Value} {o : Option α} {e : OErr}
    (h : orInvalid g o = .error e) : e = .invalidType := by
  cases o <;> simp [orInvalid] at h
  exact h.symm

theorem optString_utf8 {u : Uninterp} {b : Bytes} (h : optString u = some b) : utf8Valid b = true := by
  unfold optString at h
  split at h
  · split at h
    · cases h; assumption
    · cases h
  · cases h

theorem optMessage_spec (hS : S.wf = true) (hA : textSafe S = true)
    (hp : ParsesFloats env.text.parse64) {d : Nat} {md : MsgDesc} (hd : S.msg? d = some md)
    (u : Uninterp) :
    match optMessage env S d u with
    | .ok m => confMsg S m = true ∧ m.desc = d
    | .error e => e.bad = false := by
  unfold optMessage
  cases hu : u.agg with
  | none => rfl
  | some t =>
    have := mergeText_sound hS hA hp false (k := env.stack) (m := DynMsg.empty d)
      (confMsg_iff.2 ⟨md, Conf.empty hd⟩) t nofun
    unfold parseText
    simp only
    cases h : mergeText env.text S env.stack (DynMsg.empty d) t with
    | ok m => rw [h] at this; exact this
    | error e =>
      rw [h] at this
      obtain ⟨h4, h5, -⟩ := this
      cases e <;> first | rfl | exact absurd rfl h4 | exact absurd rfl h5

/-- `set_field_value` on a singular value keeps its type. -/
theorem setSingle_conf (hS : S.wf = true) (hA : textSafe S = true)
    (hp : ParsesFloats env.text.parse64) {f : FieldDesc} (hf : kindOk S f.kind = true)
    (hc : f.card ≠ .repeated) (u : Uninterp) {v : Value} (hv : confVal S f v = true) :
    match setSingle env S f.kind u v with
    | .ok v' => confVal S f v' = true
    | .error e => e.bad = false := by
  cases hk : f.kind with
  | message i =>
    obtain ⟨fs, rfl, hm⟩ := msg_of_confVal hk hc hv
    obtain ⟨md, hC⟩ := confMsg_iff.1 hm
    have := optMessage_spec (env := env) hS hA hp hC.desc u
    simp only [setSingle]
    split <;> rename_i h <;> split at h <;> rename_i h2 <;> rw [h2] at this <;> cases h
    · exact confVal_msg hc (by rw [this.2]; exact hk) this.1
    · exact this
  | enum e =>
    have hs := scalarOk_of_confVal (by rw [hk]; rfl) hc hv
    rw [hk] at hs
    rw [hk] at hf
    cases v <;> simp [scalarOk, Value.isValid] at hs
    simp only [setSingle]
    have he : S.enums[e]? ≠ none := by
      intro h
      simp [kindOk, Schema.enumDefault, h] at hf
    split <;> rename_i h <;> split at h <;> rename_i h2 <;> cases h
    · exact confVal_scalar hc (by rw [hk]; rfl)
    · unfold optEnum at h2
      split at h2
      · contradiction
      · split at h2 <;> (try split at h2) <;> cases h2 <;> rfl
  | _ =>
    have hs := scalarOk_of_confVal (by rw [hk]; rfl) hc hv
    rw [hk] at hs
    cases v <;> simp [scalarOk, Value.isValid] at hs
    all_goals
      simp only [setSingle]
      split
      · rename_i h
        obtain ⟨a, ha, rfl⟩ := orInvalid_ok h
        exact confVal_scalar hc (by
          rw [hk]
          first
            | rfl
            | (simp only [scalarOk, Value.isValid, Bool.true_and]; exact optString_utf8 ha))
      · rename_i h
        rw [orInvalid_err h]
        rfl

theorem optMapEntry_spec (hS : S.wf = true) (hA : textSafe S = true)
    (hp : ParsesFloats env.text.parse64) {d : Nat} {kd vd : FieldDesc} (hE : EntryOk S d kd vd)
    (u : Uninterp) :
    match optMapEntry env S d u with
    | .ok (k, v) => keyOk kd.kind k = true ∧ confVal S vd v = true
    | .error e => e.bad = false := by
  obtain ⟨h1, h2⟩ := mapKV_some hE.kv
  obtain ⟨md, hd⟩ : ∃ md, S.msg? d = some md := by
    cases h : S.msg? d with
    | none => simp [Schema.field?, h] at h1
    | some md => exact ⟨md, rfl⟩
  have := optMessage_spec (env := env) hS hA hp hd u
  unfold optMapEntry
  cases hm : optMessage env S d u with
  | error e => rw [hm] at this; exact this
  | ok m =>
    rw [hm] at this
    obtain ⟨hc, rfl⟩ := this
    obtain ⟨md', hC⟩ := confMsg_iff.1 hc
    have hmd : md' = md := by
      have := hC.desc
      rw [hd] at this
      cases this; rfl
    subst hmd
    have g1 : md'.getField 1 = some kd := by rw [← field?_eq hd]; exact h1
    have g2 : md'.getField 2 = some vd := by rw [← field?_eq hd]; exact h2
    obtain ⟨kv, hkv, hkc⟩ := hC.get_conf hS g1
    obtain ⟨v, hv, hvc⟩ := hC.get_conf hS g2
    obtain ⟨k, hk, hko⟩ := key_of_value hE.key.2.2.2 hE.key.2.2.1 hkc
    simp only [hd, DynMsg.getByNumber, g1, g2, DynMsg.getField, hkv, hv, Option.map_some, hk]
    exact ⟨hko, hvc⟩

/-- `set_field_value` keeps the type of the value. -/
theorem setValue_conf (hS : S.wf = true) (hA : textSafe S = true)
    (hp : ParsesFloats env.text.parse64) {f : FieldDesc} (hf : FieldWf S f) (u : Uninterp)
    {v : Value} (hv : confVal S f v = true) :
    match setValue env S f.kind u v with
    | .ok v' => confVal S f v' = true
    | .error e => e.bad = false := by
  cases v with
  | list vs =>
    obtain ⟨v0, h0, hc0⟩ := kindDefault_conf hf
    have := setSingle_conf (env := env) hS hA hp (f := f.elem) hf.kind elem_card u hc0
    have hek : f.elem.kind = f.kind := rfl
    rw [hek] at this
    simp only [setValue, h0]
    cases h : setSingle env S f.kind u v0 with
    | error e => rw [h] at this; exact this
    | ok v' =>
      rw [h] at this
      simp only [confVal, Bool.and_eq_true] at hv ⊢
      refine ⟨hv.1, (confVals_iff _).2 ?_⟩
      intro x hx
      rcases List.mem_append.1 hx with hx | hx
      · exact (confVals_iff _).1 hv.2 x hx
      · rw [List.mem_singleton.1 hx]; exact this
  | map kvs =>
    simp only [confVal, Bool.and_eq_true] at hv
    obtain ⟨h1, h2⟩ := hv
    obtain ⟨_, i, hi, he⟩ := isMap_iff.1 h1
    obtain ⟨kd, vd, hE⟩ := Schema.wf_entry hS he
    have := optMapEntry_spec (env := env) hS hA hp hE u
    rw [hi] at h2
    simp only [hE.kv, Bool.and_eq_true] at h2
    simp only [setValue, hi]
    cases h : optMapEntry env S i u with
    | error e => rw [h] at this; exact this
    | ok kv =>
      obtain ⟨k, v⟩ := kv
      rw [h] at this
      simp only [confVal, h1, hi, hE.kv, Bool.and_eq_true, Bool.true_and]
      refine ⟨KMap.distinct_insert _ _ _ h2.1, (confMap_iff _).2 ?_⟩
      intro p hp
      rcases KMap.mem_insert hp with rfl | hp
      · exact this
      · exact (confMap_iff _).1 h2.2 p hp
  | msg d fs =>
    have hc : f.card ≠ .repeated := (confMsg_of_confVal hv).1
    exact setSingle_conf hS hA hp hf.kind hc u hv
  | _ =>
    have hc : f.card ≠ .repeated := by
      simp only [confVal, Bool.and_eq_true, bne_iff_ne] at hv
      exact hv.1
    exact setSingle_conf hS hA hp hf.kind hc u hv

/-! ### Nothing present is disturbed -/

/-- A stored value that setting options may not replace: it counts as present and its field is
in no oneof. Lists, maps and messages only grow. -/
def Fixed (S : Schema) (f : FieldDesc) (v : Value) : Prop :=
  f.oneof = none ∧ match v with
    | .list _ | .map _ | .msg _ _ => True
    | v => hasVal S f v = some true

/-- `Keeps S a b`: everything present in `a` is in `b`. A list may get longer, a map may get more
keys, a message more fields; at each level unknown fields and the fields outside oneofs stay. -/
inductive Keeps (S : Schema) : Value → Value → Prop
  | same (v : Value) : Keeps S v v
  | list (vs ws : List Value) : Keeps S (.list vs) (.list (vs ++ ws))
  | map (kvs kvs' : List (MapKey × Value))
      (h : ∀ k, (KMap.get? kvs k).isSome = true → (KMap.get? kvs' k).isSome = true) :
      Keeps S (.map kvs) (.map kvs')
  | msg (d : Nat) (fs fs' : List (Nat × Slot)) (g : Nat → Value)
      (hu : ∀ n us, SMap.get? fs n = some (.unknown us) → SMap.get? fs' n = some (.unknown us))
      (hv : ∀ n v f, SMap.get? fs n = some (.val v) →
        (S.field? d n = some f ∨ S.ext? d n = some f) → Fixed S f v →
        SMap.get? fs' n = some (.val (g n)))
      (hk : ∀ n v f, SMap.get? fs n = some (.val v) →
        (S.field? d n = some f ∨ S.ext? d n = some f) → Fixed S f v → Keeps S v (g n)) :
      Keeps S (.msg d fs) (.msg d fs')

theorem Keeps.fixed {a b : Value} (h : Keeps S a b) {f : FieldDesc} (hf : Fixed S f a) :
    Fixed S f b := by
  cases h with
  | same => exact hf
  | list => exact ⟨hf.1, trivial⟩
  | map => exact ⟨hf.1, trivial⟩
  | msg => exact ⟨hf.1, trivial⟩

theorem Keeps.trans {a b c : Value} (h : Keeps S a b) (h' : Keeps S b c) : Keeps S a c := by
  induction h generalizing c with
  | same => exact h'
  | list vs ws =>
    cases h' with
    | same => exact .list vs ws
    | list _ ws' => rw [List.append_assoc]; exact .list vs _
  | map kvs kvs' h =>
    cases h' with
    | same => exact .map _ _ h
    | map _ kvs'' h'' => exact .map _ _ (fun k hk => h'' k (h k hk))
  | msg d fs fs' g hu hv hk ih =>
    cases h' with
    | same => exact .msg d fs fs' g hu hv hk
    | msg _ _ fs'' g' hu' hv' hk' =>
      refine .msg d fs fs'' g' (fun n us h => hu' n us (hu n us h)) ?_ ?_
      · intro n v f h1 h2 h3
        exact hv' n _ f (hv n v f h1 h2 h3) h2 ((hk n v f h1 h2 h3).fixed h3)
      · intro n v f h1 h2 h3
        exact ih n v f h1 h2 h3 (hk' n _ f (hv n v f h1 h2 h3) h2 ((hk n v f h1 h2 h3).fixed h3))

/-- What a part of an option name stands for, and what `get_field_mut` or `get_extension_mut`
does there. -/
structure Touch (S : Schema) (m : DynMsg) (md : MsgDesc) (f : FieldDesc) (sib : List Nat)
    (fs : FieldSet) (v : Value) : Prop where
  wf : FieldWf S f
  known : S.field? m.desc f.number = some f ∨
    (S.field? m.desc f.number = none ∧ S.ext? m.desc f.number = some f)
  gmut : FieldSet.getMut S sib m.fields f = some (fs, v)
  conf : confVal S f v = true
  write : ∀ v', confVal S f v' = true → Conf S ⟨m.desc, FieldSet.write f v' fs⟩ md
  get : ∀ v' n, SMap.get? (FieldSet.write f v' fs) n =
    if n = f.number then some (.val v') else if n ∈ sib then none else SMap.get? m.fields n
  cur : FieldSet.get S m.fields f = some v
  old : ∀ w, SMap.get? m.fields f.number = some (.val w) → w = v
  sibs : ∀ n ∈ sib, n ≠ f.number ∧ ∃ g, S.field? m.desc n = some g ∧ g.oneof = f.oneof ∧
    f.oneof ≠ none

theorem lookPart_touch (hS : S.wf = true) (hX : ExtOk env S) {m : DynMsg} {md : MsgDesc}
    (h : Conf S m md) {p : Part} {f : FieldDesc} {sib : List Nat}
    (hl : lookPart env md m.desc p = .ok (f, sib)) : ∃ fs v, Touch S m md f sib fs v := by
  have hw := Schema.wf_msg hS h.desc
  unfold lookPart at hl
  split at hl
  · split at hl
    · cases hl
    · rename_i i g hg
      split at hl
      · rename_i hi
        cases hl
        obtain ⟨md', hmd, hx⟩ := hX _ _ _ hg
        rw [hi, h.desc] at hmd
        cases hmd
        obtain ⟨hmem, -⟩ := getExtension_mem hx
        have hnone := (hw.extNew f hmem).1
        obtain ⟨fs, v, h1, h2, h3, h4⟩ := getMut_ext hS h hx
        refine ⟨fs, v, hw.exts f hmem, .inr ⟨?_, ?_⟩, h1, h2, ?_, ?_, ?_, ?_, ?_⟩
        · rw [field?_eq h.desc]; exact hnone
        · rw [ext?_eq h.desc]; exact hx
        · intro v' hv'
          rw [h3]
          exact h.insert_ext hS hx hv'
        · intro v' n
          rw [h3, SMap.get?_insert]
          simp
        · unfold FieldSet.get
          rcases h4 with h4 | h4
          · rw [h4]
          · rw [h4.1]; exact h4.2
        · intro w hw'
          have : FieldSet.getValue m.fields f.number = some w := by
            unfold FieldSet.getValue; rw [hw']
          rcases h4 with h4 | h4
          · rw [this] at h4; cases h4; rfl
          · rw [this] at h4; cases h4.1
        · intro n hn; cases hn
      · cases hl
  · split at hl
    · rename_i g hg
      cases hl
      have hmem : f ∈ md.fields := List.mem_of_find?_eq_some hg
      have hf := getField_of_mem hw.nodup hmem
      obtain ⟨fs, v, h1, h2, h3, h4⟩ := getMut_field hS h hf
      have hns : f.number ∉ siblings md f := not_mem_siblings
      refine ⟨fs, v, hw.fields f hmem, .inl ?_, h1, h2, ?_, ?_, ?_, ?_, ?_⟩
      · rw [field?_eq h.desc]; exact hf
      · intro v' hv'
        rw [h3]
        exact h.insert_field hS hf hv'
      · intro v' n
        rw [h3, SMap.get?_insert, get?_clearAll _ _ h.sorted]
      · have hgv : FieldSet.getValue (FieldSet.clearAll (siblings md f) m.fields) f.number =
            FieldSet.getValue m.fields f.number := by
          unfold FieldSet.getValue
          rw [get?_clearAll _ _ h.sorted, if_neg hns]
        rw [hgv] at h4
        unfold FieldSet.get
        rcases h4 with h4 | h4
        · rw [h4]
        · rw [h4.1]; exact h4.2
      · intro w hw'
        have : FieldSet.getValue (FieldSet.clearAll (siblings md f) m.fields) f.number = some w := by
          unfold FieldSet.getValue
          rw [get?_clearAll _ _ h.sorted, if_neg hns, hw']
        rcases h4 with h4 | h4
        · rw [this] at h4; cases h4; rfl
        · rw [this] at h4; cases h4.1
      · intro n hn
        obtain ⟨o, ho, x, hx, hxo, hne, hxn⟩ := mem_siblings.1 hn
        refine ⟨fun he => hns (he ▸ hn), x, ?_, by rw [hxo, ho], by rw [ho]; nofun⟩
        rw [field?_eq h.desc, ← hxn]
        exact getField_of_mem hw.nodup hx
    · cases hl

theorem Touch.field_unique {m : DynMsg} {md : MsgDesc} {f : FieldDesc} {sib : List Nat}
    {fs : FieldSet} {v : Value} (t : Touch S m md f sib fs v) (hS : S.wf = true) {g : FieldDesc}
    (hg : S.field? m.desc f.number = some g ∨ S.ext? m.desc f.number = some g) : g = f := by
  rcases t.known with h | ⟨h, h'⟩
  · rcases hg with hg | hg
    · rw [h] at hg; cases hg; rfl
    · have := (Schema.wf_ext hS hg).2.2.1
      rw [h] at this; cases this
  · rcases hg with hg | hg
    · rw [h] at hg; cases hg
    · rw [h'] at hg; cases hg; rfl

/-- Writing a value that keeps the one already there keeps the whole message. -/
theorem Touch.keeps {m : DynMsg} {md : MsgDesc} {f : FieldDesc} {sib : List Nat}
    {fs : FieldSet} {v : Value} (t : Touch S m md f sib fs v) (hS : S.wf = true) (hC : Conf S m md)
    {v' : Value}
    (h : SMap.get? m.fields f.number = some (.val v) → Fixed S f v → Keeps S v v') :
    Keeps S m.toValue (.msg m.desc (FieldSet.write f v' fs)) := by
  refine .msg m.desc _ _ (fun n => if n = f.number then v' else
    match SMap.get? m.fields n with | some (.val w) => w | _ => v') ?_ ?_ ?_
  · intro n us hn
    have hc := hC.get hn
    simp only [confSlot, Bool.and_eq_true, Option.isNone_iff_eq_none] at hc
    rw [t.get]
    have h1 : n ≠ f.number := by
      rintro rfl
      rcases t.known with h | ⟨-, h⟩
      · rw [h] at hc; cases hc.1.1
      · rw [h] at hc; cases hc.1.2
    have h2 : n ∉ sib := by
      intro hs
      obtain ⟨-, g, hg, -⟩ := t.sibs n hs
      rw [hg] at hc; cases hc.1.1
    rw [if_neg h1, if_neg h2, hn]
  · intro n w g hn hg hF
    rw [t.get]
    by_cases h1 : n = f.number
    · simp [h1]
    · have h2 : n ∉ sib := by
        intro hs
        obtain ⟨-, g', hg', ho, hne⟩ := t.sibs n hs
        have : g = g' := by
          rcases hg with hg | hg
          · rw [hg'] at hg; cases hg; rfl
          · have := (Schema.wf_ext hS hg).2.2.1
            rw [hg'] at this; cases this
        subst this
        rw [hF.1] at ho
        exact hne ho.symm
      rw [if_neg h1, if_neg h2, hn]
      simp [h1]
  · intro n w g hn hg hF
    by_cases h1 : n = f.number
    · subst h1
      rw [if_pos rfl]
      have := t.field_unique hS hg
      subst this
      have := t.old w hn
      subst this
      exact h hn hF
    · have : SMap.get? m.fields n = some (.val w) := hn
      simp only [if_neg h1, this]
      exact .same w

theorem setValue_keeps {k : Kind} {u : Uninterp} {v v' : Value}
    (h : setValue env S k u v = .ok v') (hv : (∃ vs, v = .list vs) ∨ ∃ kvs, v = .map kvs) :
    Keeps S v v' := by
  rcases hv with ⟨vs, rfl⟩ | ⟨kvs, rfl⟩
  · simp only [setValue] at h
    split at h
    · cases h
    · split at h
      · cases h; exact .list _ _
      · cases h
  · simp only [setValue] at h
    split at h
    · split at h
      · cases h
        refine .map _ _ fun k hk => ?_
        rw [KMap.get?_insert]
        split
        · rfl
        · exact hk
      · cases h
    · cases h

/-- A field for which `has` is false holds nothing fixed, unless it is repeated. -/
theorem not_fixed {f : FieldDesc} (hf : FieldWf S f) (hc : f.card ≠ .repeated) {v : Value}
    (hv : confVal S f v = true) (hh : hasVal S f v = some false) : ¬ Fixed S f v := by
  have h3 : isList S f = false := isList_of_ne hc
  have h5 : isMap S f = false := isMap_of_ne hc
  rintro ⟨-, h⟩
  cases v with
  | list vs => simp [confVal, h3] at hv
  | map kvs => simp [confVal, h5] at hv
  | msg d fs =>
    have := hf.msg hc (by rw [(confMsg_of_confVal hv).2.1]; rfl)
    simp [hasVal, this] at hh
  | _ => simp only at h; rw [hh] at h; cases h

theorem list_or_map {f : FieldDesc} (hc : f.card = .repeated) {v : Value}
    (hv : confVal S f v = true) : (∃ vs, v = .list vs) ∨ ∃ kvs, v = .map kvs := by
  cases v <;> simp [confVal, hc] at hv ⊢

/-- `set_option` on a conforming message: a conforming message of the same type that keeps what
was present, or an error that is no panic. -/
theorem setOption_spec (hS : S.wf = true) (hA : textSafe S = true)
    (hp : ParsesFloats env.text.parse64) (hX : ExtOk env S) (hX' : ExtSafe env) (u : Uninterp) :
    ∀ (ps : List Part) {m : DynMsg} {md : MsgDesc}, Conf S m md →
    match setOption env S u ps m with
    | .ok m' => Conf S m' md ∧ m'.desc = m.desc ∧ Keeps S m.toValue m'.toValue
    | .error e => e.bad = false := by
  intro ps
  induction ps with
  | nil => intro m md hC; exact ⟨hC, rfl, .same _⟩
  | cons p ps ih =>
    intro m md hC
    simp only [setOption, hC.desc]
    cases hl : lookPart env md m.desc p with
    | error e =>
      simp only
      unfold lookPart at hl
      split at hl
      · split at hl
        · cases hl; exact hX' _ _ (by assumption)
        · split at hl
          · cases hl
          · cases hl; rfl
      · split at hl
        · cases hl
        · cases hl; rfl
    | ok fs' =>
      obtain ⟨f, sib⟩ := fs'
      obtain ⟨fs, v, t⟩ := lookPart_touch hS hX hC hl
      simp only [t.gmut]
      by_cases hps : ps = []
      · rw [if_pos hps]
        have hh : (if f.card ≠ .repeated then FieldSet.has S m.fields f else some false) ≠ none := by
          obtain ⟨w, hw⟩ := fieldDefault_some t.wf
          split
          · unfold FieldSet.has hasVal isDefault
            split
            · split <;> simp [hw]
            · nofun
          · nofun
        cases hhas : (if f.card ≠ .repeated then FieldSet.has S m.fields f else some false) with
        | none => exact absurd hhas hh
        | some b =>
          cases b with
          | true => rfl
          | false =>
            have hv := setValue_conf (env := env) hS hA hp t.wf u t.conf
            simp only
            cases hsv : setValue env S f.kind u v with
            | error e => rw [hsv] at hv; exact hv
            | ok v' =>
              rw [hsv] at hv
              refine ⟨t.write v' hv, rfl, t.keeps hS hC fun hg hF => ?_⟩
              by_cases hc : f.card = .repeated
              · exact setValue_keeps hsv (list_or_map hc t.conf)
              · rw [if_pos hc] at hhas
                unfold FieldSet.has FieldSet.getValue at hhas
                rw [hg] at hhas
                exact absurd hF (not_fixed t.wf hc t.conf hhas)
      · rw [if_neg hps]
        have hv := t.conf
        cases v with
        | msg d sub =>
          obtain ⟨hc, hk, hm⟩ := confMsg_of_confVal hv
          obtain ⟨md', hC'⟩ := confMsg_iff.1 hm
          have := ih hC'
          simp only
          cases hso : setOption env S u ps ⟨d, sub⟩ with
          | error e => rw [hso] at this; exact this
          | ok m' =>
            rw [hso] at this
            obtain ⟨h1, h2, h3⟩ := this
            refine ⟨t.write _ (confVal_msg hc (by rw [h2]; exact hk) (confMsg_iff.2 ⟨md', h1⟩)), rfl,
              t.keeps hS hC fun _ _ => h3⟩
        | _ => rfl

theorem setOptions_spec (hS : S.wf = true) (hA : textSafe S = true)
    (hp : ParsesFloats env.text.parse64) (hX : ExtOk env S) (hX' : ExtSafe env) :
    ∀ (us : List Uninterp) {m : DynMsg} {md : MsgDesc}, Conf S m md →
    match setOptions env S us m with
    | .ok m' => Conf S m' md ∧ m'.desc = m.desc ∧ Keeps S m.toValue m'.toValue
    | .error e => e.bad = false := by
  intro us
  induction us with
  | nil => intro m md hC; exact ⟨hC, rfl, .same _⟩
  | cons u us ih =>
    intro m md hC
    have h := setOption_spec (env := env) hS hA hp hX hX' u u.parts hC
    simp only [setOptions]
    cases hso : setOption env S u u.parts m with
    | error e => rw [hso] at h; exact h
    | ok m' =>
      rw [hso] at h
      obtain ⟨h1, h2, h3⟩ := h
      have h' := ih h1
      simp only
      cases hr : setOptions env S us m' with
      | error e => rw [hr] at h'; exact h'
      | ok m'' =>
        rw [hr] at h'
        exact ⟨h'.1, h'.2.1.trans h2, h3.trans h'.2.2⟩

theorem conf_erase {m : DynMsg} {md : MsgDesc} (h : Conf S m md) (n : Nat) :
    Conf S ⟨m.desc, SMap.erase n m.fields⟩ md := by
  refine ⟨SMap.sorted_erase h.sorted, h.desc, ?_, fun p hp => h.slots p (SMap.mem_erase hp)⟩
  intro k g s hk hg j hj
  simp only at hk ⊢
  rw [SMap.get?_erase h.sorted] at hk ⊢
  split at hk
  · cases hk
  · split
    · rfl
    · exact h.oneof k g s hk hg j hj

theorem conf_clearByNumber {m : DynMsg} {md : MsgDesc} (h : Conf S m md) (n : Nat) :
    Conf S (DynMsg.clearByNumber md m n) md ∧ (DynMsg.clearByNumber md m n).desc = m.desc := by
  unfold DynMsg.clearByNumber DynMsg.clearField FieldSet.clear
  split
  · exact ⟨conf_erase h _, rfl⟩
  · exact ⟨h, rfl⟩

end Verif.Opt
