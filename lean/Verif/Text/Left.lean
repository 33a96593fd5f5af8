import Verif.Text.Cut
import Verif.Text.Once
set_option autoImplicit false

/-! What a call of `merge_text_format` leaves in the message, whether it succeeds or not.
The functions below follow `parse_message` (parse/mod.rs:40-45), which works on the caller's
message through `&mut`. A message inside the text is parsed into a fresh `DynamicMessage`
that is dropped on an error, so only the outermost fields need to be followed. A panic leaves
whatever was there before; the theorems do not speak about it. -/

namespace Verif.Text
open Verif Wire Dyn

/-- The entries of a map field after `for value in values { unpack(value)?; insert }`
(parse/mod.rs:206-214). -/
def insertLeft (S : Schema) (i : Nat) : List (MapKey × Value) → List Value → List (MapKey × Value)
  | kvs, [] => kvs
  | kvs, v :: r =>
    match unpack S i v with
    | .error _ => kvs
    | .ok (key, w) => insertLeft S i (KMap.insert key w kvs) r

/-- The message after `parse_field_value` (parse/mod.rs:170-238). -/
def fieldValueLeft (env : TEnv) (S : Schema) (sub : Nat → List LTok → PR FieldSet)
    (sib : List Nat) (mem : List FieldDesc) (f : FieldDesc) (fs : FieldSet) (ts : List LTok) :
    FieldSet :=
  if isList S f then
    match parseRep (parseVal env S sub f.kind) ts with
    | .error _ => fs
    | .ok (vs, _) =>
      match FieldSet.getMut S sib fs f with
      | some (fs', .list ws) => FieldSet.write f (.list (ws ++ vs)) fs'
      | _ => fs
  else if isMap S f then
    match parseRep (parseVal env S sub f.kind) ts with
    | .error _ => fs
    | .ok (vs, _) =>
      match FieldSet.getMut S sib fs f, f.kind with
      | some (fs', .map kvs), .message i => FieldSet.write f (.map (insertLeft S i kvs vs)) fs'
      | _, _ => fs
  else
    match parseVal env S sub f.kind ts with
    | .error _ => fs
    | .ok (v, _) =>
      match FieldSet.has S fs f, anyHas S fs mem with
      | some false, some false => FieldSet.set sib fs f v
      | _, _ => fs

/-- The message after the `Any` case of `parse_field` (parse/mod.rs:104-130): field 1 is set
before field 2 is tried. -/
def anyLeft (S : Schema) (sub : Nat → List LTok → PR FieldSet) (md : MsgDesc) (d : Nat)
    (domain name : List Char) (fs : FieldSet) (ts : List LTok) : FieldSet :=
  match Schema.msgByName S name with
  | none => fs
  | some i =>
    match sub i ts with
    | .error _ => fs
    | .ok (body, _) =>
      match encMsg S ⟨i, body⟩ with
      | none => fs
      | some b =>
        if md.name ≠ anyName then fs
        else
          match DynMsg.trySetByNumber S md ⟨d, fs⟩ 1 (.str (utf8Encode (domain ++ '/' :: name))) with
          | none => fs
          | some (m1, .error _) => m1.fields
          | some (m1, .ok ()) =>
            match DynMsg.trySetByNumber S md m1 2 (.bytes b) with
            | none => m1.fields
            | some (m2, _) => m2.fields

/-- The message after the value of a field was read, or failed to be (parse/mod.rs:80-131). -/
def namedLeft (env : TEnv) (S : Schema) (sub : Nat → List LTok → PR FieldSet) (md : MsgDesc)
    (d : Nat) (name : FName) (fs : FieldSet) (ts : List LTok) : FieldSet :=
  match name with
  | .ident n =>
    match findField S md n with
    | some (some f) => fieldValueLeft env S sub (siblings md f) (oneofMembers md f) f fs ts
    | _ => fs
  | .ext n =>
    match MsgDesc.extByName md n with
    | none => fs
    | some f => fieldValueLeft env S sub [] [] f fs ts
  | .any domain n => anyLeft S sub md d domain n fs ts

/-- The message after `parse_field` (parse/mod.rs:69-138). The separator is looked at when
the field is already set. -/
def textFieldLeft (env : TEnv) (S : Schema) (sub : Nat → List LTok → PR FieldSet) (md : MsgDesc)
    (d : Nat) (fs : FieldSet) (ts : List LTok) : FieldSet :=
  match parseFieldName ts with
  | .error _ => fs
  | .ok (name, r) =>
    match parseColon r with
    | .error _ => fs
    | .ok r' => namedLeft env S sub md d name fs r'

/-- The message after the loop of `parse_message` (parse/mod.rs:40-45). -/
def topLeft (pf : FieldSet → List LTok → PR FieldSet) (lf : FieldSet → List LTok → FieldSet) :
    Nat → FieldSet → List LTok → FieldSet
  | _, fs, [] => fs
  | 0, fs, _ => fs
  | n + 1, fs, ts =>
    match pf fs ts with
    | .error _ => lf fs ts
    | .ok (_, r) => topLeft pf lf n (lf fs ts) r

/-- The message after `merge_text_format` (text_format/mod.rs:66-70). -/
def mergeTextLeft (env : TEnv) (S : Schema) (k : Nat) (m : DynMsg) (text : List Char) : DynMsg :=
  match S.msg? m.desc with
  | none => m
  | some md =>
    ⟨m.desc, topLeft (parseField env S (parseMsg env S k) md m.desc)
      (textFieldLeft env S (parseMsg env S k) md m.desc)
      (lex env.parse64 text).length m.fields (lex env.parse64 text)⟩

section
variable {env : TEnv} {S : Schema} {sub : Nat → List LTok → PR FieldSet}

theorem insertLeft_ok {i : Nat} {kvs kvs' : List (MapKey × Value)} {vs : List Value}
    (h : insertEntries S i kvs vs = .ok kvs') : insertLeft S i kvs vs = kvs' := by
  induction vs generalizing kvs with
  | nil => cases h; rfl
  | cons v r ih =>
    unfold insertEntries at h
    unfold insertLeft
    split at h
    · cases h
    · rename_i hu
      simp only [hu]
      exact ih h

theorem fieldValueLeft_ok {sib : List Nat} {mem : List FieldDesc} {f : FieldDesc} {fs fs' : FieldSet}
    {ts r : List LTok} (h : parseFieldValue env S sub sib mem f fs ts = .ok (fs', r)) :
    fieldValueLeft env S sub sib mem f fs ts = fs' := by
  unfold parseFieldValue at h
  unfold fieldValueLeft
  split at h
  · rename_i hl
    rw [if_pos hl]
    split at h
    · cases h
    · rename_i hv
      split at h
      · rename_i hm
        cases h
        simp only [hv, hm]
      · cases h
  · rename_i hl
    rw [if_neg hl]
    split at h
    · rename_i hm
      rw [if_pos hm]
      split at h
      · cases h
      · rename_i hv
        split at h
        · rename_i hgm hk
          split at h
          · cases h
          · rename_i hi
            cases h
            rw [hv]
            simp only
            rw [hgm, hk]
            simp only [insertLeft_ok hi]
        · cases h
    · rename_i hm
      rw [if_neg hm]
      split at h
      · cases h
      · rename_i hv
        split at h
        · cases h
        · cases h
        · rename_i hh
          split at h
          · cases h
          · cases h
          · rename_i ha
            cases h
            simp only [hv, hh, ha]

theorem anyLeft_ok {md : MsgDesc} {d : Nat} {dom name : List Char} {fs fs' : FieldSet}
    {ts r : List LTok} (h : parseAny S sub md d dom name fs ts = .ok (fs', r)) :
    anyLeft S sub md d dom name fs ts = fs' := by
  unfold parseAny at h
  unfold anyLeft
  split at h
  · cases h
  · rename_i hi
    split at h
    · cases h
    · rename_i hb
      split at h
      · cases h
      · rename_i he
        split at h
        · cases h
        · rename_i hn
          split at h
          · cases h
          · cases h
          · rename_i h1
            split at h
            · cases h
            · cases h
            · rename_i h2
              cases h
              simp only [hi, hb, he]
              rw [if_neg hn]
              simp only [h1, h2]

theorem namedLeft_ok {md : MsgDesc} {d : Nat} {name : FName} {fs fs' : FieldSet}
    {ts r : List LTok} (h : parseNamed env S sub md d name fs ts = .ok (fs', r)) :
    namedLeft env S sub md d name fs ts = fs' := by
  unfold parseNamed at h
  unfold namedLeft
  split at h
  · split at h
    · cases h
    · cases h
    · rename_i hf
      simp only [hf]
      exact fieldValueLeft_ok h
  · split at h
    · cases h
    · rename_i hf
      simp only [hf]
      exact fieldValueLeft_ok h
  · exact anyLeft_ok h

theorem parseSep_same {fs fs' : FieldSet} {ts r : List LTok} (h : parseSep fs ts = .ok (fs', r)) :
    fs' = fs := by
  unfold parseSep at h
  split at h <;> cases h <;> rfl

theorem textFieldLeft_ok {md : MsgDesc} {d : Nat} {fs fs' : FieldSet} {ts r : List LTok}
    (h : parseField env S sub md d fs ts = .ok (fs', r)) : textFieldLeft env S sub md d fs ts = fs' := by
  unfold parseField at h
  unfold textFieldLeft
  split at h
  · cases h
  · rename_i h1
    split at h
    · cases h
    · rename_i h2
      split at h
      · cases h
      · rename_i hp
        rw [parseSep_same h]
        simp only [h1, h2]
        exact namedLeft_ok hp

/-! ## On an error -/

/-- A message named `google.protobuf.Any` can hold the value: field 2 is a `bytes` field, as
in the real one. Nothing checks it when a pool is built. -/
def AnyBoth (S : Schema) : Prop :=
  ∀ md ∈ S.msgs, md.name = anyName → ∃ f, md.getField 2 = some f ∧ f.kind = .bytes

variable {st : Bool} {L : Nat}

/-- Entries that were parsed can always be inserted. -/
theorem entries_go_in (hS : S.wf = true) (hg : ∀ i ts, Good ts (sub i ts))
    (hs : SubOk S env.parse64 st L sub) {md : MsgDesc} {d : Nat} {fs : FieldSet} {sib : List Nat}
    {mem : List FieldDesc} {f : FieldDesc} (ht : Target S md d fs sib mem f) {ts r : List LTok}
    (h : ToksOk env.parse64 st L ts) (hnl : ¬ isList S f = true) (hmap : isMap S f = true)
    {vs : List Value} (he : parseRep (parseVal env S sub f.kind) ts = .ok (vs, r)) {fs' : FieldSet}
    {kvs : List (MapKey × Value)} (hm' : FieldSet.getMut S sib fs f = some (fs', .map kvs)) {i : Nat}
    (hk' : f.kind = .message i) : ∃ kvs', insertEntries S i kvs vs = .ok kvs' := by
  have hgv := parseVal_good (env := env) (S := S) hg f.kind
  have hv : ∀ ts, ToksOk env.parse64 st L ts →
      Sound st (fun v => confVal S f.elem v = true) (parseVal env S sub f.kind ts) :=
    fun ts h => parseVal_sound hs ht.wf.kind h
  obtain ⟨fs1, v, hm, hc, hw⟩ := ht.upd
  rw [hm'] at hm
  cases hm
  have h2 := (parseRep_sound hgv hv h).ok he
  obtain ⟨hr, i', hk, hi⟩ := isMap_iff.1 hmap
  rw [hk'] at hk
  cases hk
  obtain ⟨kd, vd, hE⟩ := Schema.wf_entry hS hi
  simp only [confVal, hmap, hk', hE.kv, Bool.true_and, Bool.and_eq_true] at hc
  obtain ⟨kvs', e, _⟩ := insertEntries_sound hS hE (vs := vs) (kvs := kvs) (fun v hv => by
    obtain ⟨fs, rfl, hfs⟩ := msg_of_confVal (f := f.elem) hk' elem_card (h2 v hv)
    obtain ⟨md', hmd'⟩ := confMsg_iff.1 hfs
    exact ⟨fs, md', rfl, hmd'⟩) hc
  exact ⟨kvs', e⟩

theorem fieldValueLeft_error (hS : S.wf = true) (hg : ∀ i ts, Good ts (sub i ts))
    (hs : SubOk S env.parse64 st L sub) {md : MsgDesc} {d : Nat} {fs : FieldSet} {sib : List Nat}
    {mem : List FieldDesc} {f : FieldDesc} (ht : Target S md d fs sib mem f) {ts : List LTok}
    (h : ToksOk env.parse64 st L ts) {e : TErr}
    (he : parseFieldValue env S sub sib mem f fs ts = .error e) :
    fieldValueLeft env S sub sib mem f fs ts = fs := by
  unfold parseFieldValue at he
  unfold fieldValueLeft
  split at he
  · rename_i hl
    rw [if_pos hl]
    split at he
    · rename_i hv
      simp only [hv]
    · rename_i hv
      simp only [hv]
      split at he
      · cases he
      · split
        · rename_i hne _ _ _ heq
          exact absurd heq (hne _ _)
        · rfl
  · rename_i hl
    rw [if_neg hl]
    split at he
    · rename_i hm
      rw [if_pos hm]
      split at he
      · rename_i hv
        simp only [hv]
      · rename_i hv
        simp only [hv]
        split at he
        · rename_i hgm hk
          split at he
          · rename_i hi
            obtain ⟨kvs', e'⟩ := entries_go_in hS hg hs ht h hl hm hv hgm hk
            rw [e'] at hi
            cases hi
          · cases he
        · split
          · rename_i hne _ _ _ _ _ h1 h2
            exact absurd h2 (hne _ _ _ h1)
          · rfl
    · rename_i hm
      rw [if_neg hm]
      split at he
      · rename_i hv
        simp only [hv]
      · rename_i hv
        simp only [hv]
        split
        · rename_i h1 h2
          simp only [h1, h2] at he
          cases he
        · rfl

theorem trySet_fail {md : MsgDesc} {m m' : DynMsg} {n : Nat} {v : Value} {e : SetErr}
    (h : DynMsg.trySetByNumber S md m n v = some (m', .error e)) : m' = m := by
  unfold DynMsg.trySetByNumber at h
  split at h
  · unfold DynMsg.trySetField at h
    split at h <;> cases h
    rfl
  · cases h; rfl

theorem anyLeft_error (hA : textSafe S = true) (hB : AnyBoth S) {md : MsgDesc} {d : Nat}
    (hd : S.msg? d = some md) {fs : FieldSet} {dom name : List Char} {ts : List LTok} {e : TErr}
    (hp : e ≠ .panic) (h : parseAny S sub md d dom name fs ts = .error e) :
    anyLeft S sub md d dom name fs ts = fs := by
  unfold parseAny at h
  unfold anyLeft
  split at h
  · rename_i hi
    simp only [hi]
  · rename_i hi
    simp only [hi]
    split at h
    · rename_i hb
      simp only [hb]
    · rename_i b hb
      simp only [hb]
      split at h
      · rename_i he
        simp only [he]
      · rename_i he
        simp only [he]
        split at h
        · rename_i hn
          rw [if_pos hn]
        · rename_i hn
          rw [if_neg hn]
          split at h
          · rename_i h1
            simp only [h1]
          · rename_i h1
            simp only [h1]
            rw [trySet_fail h1]
          · rename_i h1
            split at h
            · cases h
              exact absurd rfl hp
            · rename_i h2
              exfalso
              obtain ⟨f, hf, hk⟩ := hB md (List.mem_of_getElem? hd) (Decidable.not_not.1 hn)
              have hc := List.all_eq_true.1 hA md (List.mem_of_getElem? hd)
              simp only [anyShape, Bool.and_eq_true, Bool.or_eq_true, bne_iff_ne, ne_eq,
                Decidable.not_not.1 hn, not_true, false_or, List.all_eq_true, decide_eq_true_eq] at hc
              have hcard : f.card ≠ .repeated := by
                have := hc.2 f (getField_mem hf).1
                rw [(getField_mem hf).2] at this
                rcases this with h3 | h3
                · omega
                · exact h3
              simp only [DynMsg.trySetByNumber, hf, DynMsg.trySetField, validFor, Value.isValid, hk] at h2
              cases h2
            · cases h

theorem namedLeft_error (hS : S.wf = true) (hA : textSafe S = true) (hB : AnyBoth S)
    (hg : ∀ i ts, Good ts (sub i ts)) (hs : SubOk S env.parse64 st L sub) {md : MsgDesc} {d : Nat}
    {fs : FieldSet} (hC : Conf S ⟨d, fs⟩ md) {name : FName} {ts : List LTok}
    (h : ToksOk env.parse64 st L ts) {e : TErr} (he : parseNamed env S sub md d name fs ts = .error e) :
    namedLeft env S sub md d name fs ts = fs := by
  have hp : e ≠ .panic := ((parseNamed_sound hS hA hg hs hC h).err he).1
  unfold parseNamed at he
  unfold namedLeft
  split at he
  · rename_i n
    have h1 := findField_safe hS hC.desc n
    split at he
    · rename_i hf
      simp only [hf]
    · rename_i hf
      simp only [hf]
    · rename_i f hf
      simp only [hf]
      exact fieldValueLeft_error hS hg hs (target_field hS hC (h1.2 f hf)) h he
  · split at he
    · rename_i hf
      simp only [hf]
    · rename_i f hf
      simp only [hf]
      exact fieldValueLeft_error hS hg hs
        (target_ext hS hC (textSafe_ext hA hC.desc (List.mem_of_find?_eq_some hf))) h he
  · exact anyLeft_error hA hB hC.desc hp he

theorem anyLeft_conf (hS : S.wf = true) (hA : textSafe S = true) (hs : SubOk S env.parse64 st L sub)
    {md : MsgDesc} {d : Nat} {fs : FieldSet} (hC : Conf S ⟨d, fs⟩ md) {dom name : List Char}
    {ts : List LTok} (h : ToksOk env.parse64 st L ts) :
    Conf S ⟨d, anyLeft S sub md d dom name fs ts⟩ md := by
  have hsd := parseAny_sound hS hA hs hC (dom := dom) (name := name) h
  cases hx : parseAny S sub md d dom name fs ts with
  | ok p =>
    rw [anyLeft_ok hx]
    exact hsd.ok hx
  | error e =>
    have hp := (hsd.err hx).1
    unfold parseAny at hx
    unfold anyLeft
    split at hx
    · rename_i hi
      simp only [hi]
      exact hC
    · rename_i hi
      simp only [hi]
      split at hx
      · rename_i hb
        simp only [hb]
        exact hC
      · rename_i b hb
        simp only [hb]
        split at hx
        · rename_i he
          simp only [he]
          exact hC
        · rename_i he
          simp only [he]
          split at hx
          · rename_i hn
            rw [if_pos hn]
            exact hC
          · rename_i hn
            rw [if_neg hn]
            split at hx
            · rename_i h1
              simp only [h1]
              exact hC
            · rename_i h1
              simp only [h1]
              rw [trySet_fail h1]
              exact hC
            · rename_i m1 h1
              split at hx
              · cases hx
                exact absurd rfl hp
              · rename_i h2
                simp only [h1, h2]
                rw [trySet_fail h2]
                obtain ⟨m, r, e1, d1, c1⟩ := trySet_sound hS hC (n := 1)
                  (v := .str (utf8Encode (dom ++ '/' :: name))) (fun f hf => by
                    have hc : f.card ≠ .repeated := by
                      have h1 := List.all_eq_true.1 hA md (List.mem_of_getElem? hC.desc)
                      simp only [anyShape, Bool.and_eq_true, Bool.or_eq_true, bne_iff_ne, ne_eq,
                        Decidable.not_not.1 hn, not_true, false_or, List.all_eq_true,
                        decide_eq_true_eq] at h1
                      have := h1.2 f (getField_mem hf).1
                      rw [(getField_mem hf).2] at this
                      rcases this with h3 | h3
                      · omega
                      · exact h3
                    refine ⟨⟨_, rfl⟩, fun hv => confVal_scalar hc ?_⟩
                    simp only [validFor, Option.some.injEq] at hv
                    revert hv
                    cases f.kind <;> simp [Value.isValid, scalarOk, utf8Valid_encode])
                rw [h1] at e1
                cases e1
                obtain ⟨d', f1⟩ := m1
                cases d1
                exact c1
              · cases hx

theorem fieldValueLeft_conf (hS : S.wf = true) (hg : ∀ i ts, Good ts (sub i ts))
    (hs : SubOk S env.parse64 st L sub) {md : MsgDesc} {d : Nat} {fs : FieldSet}
    (hC : Conf S ⟨d, fs⟩ md) {sib : List Nat} {mem : List FieldDesc} {f : FieldDesc}
    (ht : Target S md d fs sib mem f) {ts : List LTok} (h : ToksOk env.parse64 st L ts) :
    Conf S ⟨d, fieldValueLeft env S sub sib mem f fs ts⟩ md := by
  have hsd := parseFieldValue_sound hS hg hs ht h
  cases hx : parseFieldValue env S sub sib mem f fs ts with
  | ok p =>
    rw [fieldValueLeft_ok hx]
    exact hsd.ok hx
  | error e =>
    rw [fieldValueLeft_error hS hg hs ht h hx]
    exact hC

theorem textFieldLeft_conf (hS : S.wf = true) (hA : textSafe S = true)
    (hg : ∀ i ts, Good ts (sub i ts)) (hs : SubOk S env.parse64 st L sub) {md : MsgDesc} {d : Nat}
    {fs : FieldSet} (hC : Conf S ⟨d, fs⟩ md) {ts : List LTok} (h : ToksOk env.parse64 st L ts) :
    Conf S ⟨d, textFieldLeft env S sub md d fs ts⟩ md := by
  unfold textFieldLeft
  split
  · exact hC
  · rename_i name r h1
    split
    · exact hC
    · rename_i r' h2
      have hr := h.suffix (((parseFieldName_good ts).ok h1).1)
      have hr' := hr.suffix (parseColon_ok h2)
      unfold namedLeft
      split
      · rename_i n
        have h3 := findField_safe hS hC.desc n
        split
        · rename_i f hf
          exact fieldValueLeft_conf hS hg hs hC (target_field hS hC (h3.2 f hf)) hr'
        · exact hC
      · split
        · exact hC
        · rename_i f hf
          exact fieldValueLeft_conf hS hg hs hC
            (target_ext hS hC (textSafe_ext hA hC.desc (List.mem_of_find?_eq_some hf))) hr'
      · exact anyLeft_conf hS hA hs hC hr'

/-- A field that fails is not there, unless only what comes after it is wrong. -/
theorem textFieldLeft_error (hS : S.wf = true) (hA : textSafe S = true) (hB : AnyBoth S)
    (hg : ∀ i ts, Good ts (sub i ts)) (hc : ∀ i, Cut (sub i)) (hs : SubOk S env.parse64 st L sub)
    {md : MsgDesc} {d : Nat} {fs : FieldSet} (hC : Conf S ⟨d, fs⟩ md) {ts : List LTok}
    (h : ToksOk env.parse64 st L ts) {e : TErr} (he : parseField env S sub md d fs ts = .error e) :
    textFieldLeft env S sub md d fs ts = fs ∨
      ∃ u t, ts = u ++ t ∧
        parseField env S sub md d fs u = .ok (textFieldLeft env S sub md d fs ts, []) := by
  unfold parseField at he
  unfold textFieldLeft
  split at he
  · rename_i h1
    simp only [h1]
    exact .inl trivial
  · rename_i name r h1
    simp only [h1]
    split at he
    · rename_i h2
      simp only [h2]
      exact .inl trivial
    · rename_i r' h2
      simp only [h2]
      have hr := h.suffix (((parseFieldName_good ts).ok h1).1)
      have hr' := hr.suffix (parseColon_ok h2)
      split at he
      · rename_i h3
        exact .inl (namedLeft_error hS hA hB hg hs hC hr' h3)
      · rename_i fs' r'' h3
        right
        rw [namedLeft_ok h3]
        obtain ⟨u, rfl⟩ := (((parseNamed_good (env := env) (S := S) hg md d name fs r').ok h3).1.trans
          (parseColon_ok h2)).trans ((parseFieldName_good ts).ok h1).1
        refine ⟨u, r'', rfl, ?_⟩
        obtain ⟨w1, w2, g1, g2, g3⟩ := named_cut (r := []) (t := r'') hg hc h1 h2 h3
        unfold parseField
        simp only [g1, g2, g3]
        rfl

theorem topLoop_more {pf : FieldSet → List LTok → PR FieldSet} (hg : ∀ fs ts, Good ts (pf fs ts))
    {n : Nat} {fs fs' : FieldSet} {ts : List LTok} (h : topLoop pf n fs ts = .ok fs') {m : Nat}
    (hm : ts.length ≤ m) : topLoop pf m fs ts = .ok fs' := by
  induction n generalizing fs ts m with
  | zero =>
    cases ts with
    | nil => cases h; cases m <;> rfl
    | cons t r => cases h
  | succ n ih =>
    cases ts with
    | nil => cases h; cases m <;> rfl
    | cons t r =>
      cases m with
      | zero => simp at hm
      | succ m =>
        simp only [topLoop] at h ⊢
        split at h
        · cases h
        · rename_i fs1 r1 hv
          have := ((hg _ _).ok hv).2
          simp only [List.length_cons] at hm this
          exact ih h (by omega)

/-- The loop on the caller's message, when it fails: some of the first tokens are read in
full, and what is left is what they give. -/
theorem topLeft_cut {P : FieldSet → Prop} {Q : List LTok → Prop}
    {pf : FieldSet → List LTok → PR FieldSet} {lf : FieldSet → List LTok → FieldSet}
    (hg : ∀ fs ts, Good ts (pf fs ts)) (hc : ∀ fs, Cut (pf fs))
    (hQ : ∀ ts r, Q ts → r <:+ ts → Q r) (hP : ∀ fs ts fs' r, P fs → Q ts → pf fs ts = .ok (fs', r) → P fs')
    (hok : ∀ fs ts fs' r, pf fs ts = .ok (fs', r) → lf fs ts = fs')
    (herr : ∀ fs ts e, P fs → Q ts → pf fs ts = .error e →
      lf fs ts = fs ∨ ∃ u t, ts = u ++ t ∧ pf fs u = .ok (lf fs ts, []))
    {n : Nat} {fs : FieldSet} {ts : List LTok} (h0 : P fs) (hq : Q ts) {e : TErr}
    (h : topLoop pf n fs ts = .error e) :
    ∃ c r, ts = c ++ r ∧ topLoop pf c.length fs c = .ok (topLeft pf lf n fs ts) := by
  induction n generalizing fs ts with
  | zero =>
    refine ⟨[], ts, rfl, ?_⟩
    cases ts <;> rfl
  | succ n ih =>
    cases ts with
    | nil => cases h
    | cons t r =>
      simp only [topLoop] at h
      unfold topLeft
      split at h
      · rename_i e' hv
        simp only [hv]
        rcases herr _ _ _ h0 hq hv with h1 | ⟨u, t', hu, h1⟩
        · rw [h1]
          exact ⟨[], t :: r, rfl, rfl⟩
        · refine ⟨u, t', hu, ?_⟩
          have := ((hg _ _).ok h1).2
          cases u with
          | nil => simp at this
          | cons x u =>
            simp only [List.length_cons, topLoop, h1]
      · rename_i fs' r' hv
        simp only [hv]
        rw [hok _ _ _ _ hv]
        obtain ⟨c, r2, rfl, h2⟩ := ih (hP _ _ _ _ h0 hq hv) (hQ _ _ hq ((hg _ _).ok hv).1) h
        obtain ⟨u, hu⟩ := ((hg _ _).ok hv).1
        rw [← hu] at hv
        have hv' : pf fs (u ++ c) = .ok (fs', c) := hc fs (u ++ c) r2 fs' c (by simpa using hv)
        refine ⟨u ++ c, r2, by simpa using hu.symm, ?_⟩
        have := ((hg _ _).ok hv').2
        cases hx : u ++ c with
        | nil => rw [hx] at this; simp at this
        | cons x y =>
          rw [hx] at hv' this
          simp only [List.length_cons, topLoop, hv']
          exact topLoop_more hg h2 (by simp only [List.length_cons] at this; omega)

theorem topLeft_ok {pf : FieldSet → List LTok → PR FieldSet} {lf : FieldSet → List LTok → FieldSet}
    (hok : ∀ fs ts fs' r, pf fs ts = .ok (fs', r) → lf fs ts = fs') {n : Nat} {fs fs' : FieldSet}
    {ts : List LTok} (h : topLoop pf n fs ts = .ok fs') : topLeft pf lf n fs ts = fs' := by
  induction n generalizing fs ts with
  | zero => cases ts <;> cases h; rfl
  | succ n ih =>
    cases ts with
    | nil => cases h; rfl
    | cons t r =>
      simp only [topLoop] at h
      unfold topLeft
      split at h
      · cases h
      · rename_i hv
        simp only [hv]
        rw [hok _ _ _ _ hv]
        exact ih h

theorem topLeft_inv {P : FieldSet → Prop} {Q : List LTok → Prop}
    {pf : FieldSet → List LTok → PR FieldSet} {lf : FieldSet → List LTok → FieldSet}
    (hg : ∀ fs ts, Good ts (pf fs ts)) (hQ : ∀ ts r, Q ts → r <:+ ts → Q r)
    (hP : ∀ fs ts, P fs → Q ts → P (lf fs ts)) {n : Nat} {fs : FieldSet} {ts : List LTok}
    (h0 : P fs) (hq : Q ts) : P (topLeft pf lf n fs ts) := by
  induction n generalizing fs ts with
  | zero => cases ts <;> exact h0
  | succ n ih =>
    cases ts with
    | nil => exact h0
    | cons t r =>
      unfold topLeft
      split
      · exact hP _ _ h0 hq
      · rename_i hv
        exact ih (hP _ _ h0 hq) (hQ _ _ hq ((hg _ _).ok hv).1)

/-! ## The whole call -/

theorem mergeTextLeft_ok {k : Nat} {m m' : DynMsg} {text : List Char}
    (h : mergeText env S k m text = .ok m') : mergeTextLeft env S k m text = m' := by
  unfold mergeText mergeToks at h
  unfold mergeTextLeft
  split at h
  · cases h
  · rename_i md hmd
    simp only [hmd]
    split at h
    · cases h
    · rename_i fs hv
      cases h
      rw [topLeft_ok (fun _ _ _ _ => textFieldLeft_ok) hv]

theorem mergeTextLeft_conf (hS : S.wf = true) (hA : textSafe S = true) (hp : ParsesFloats env.parse64)
    {k : Nat} {m : DynMsg} (hm : confMsg S m = true) (text : List Char) :
    confMsg S (mergeTextLeft env S k m text) = true ∧ (mergeTextLeft env S k m text).desc = m.desc := by
  obtain ⟨md, hC⟩ := confMsg_iff.1 hm
  have hg := parseField_good (env := env) (S := S) (parseMsg_good env S k) md m.desc
  unfold mergeTextLeft
  simp only [hC.desc]
  refine ⟨confMsg_iff.2 ⟨md, ?_⟩, trivial⟩
  exact topLeft_inv (P := fun fs => Conf S ⟨m.desc, fs⟩ md) (Q := ToksOk env.parse64 false k) hg
    (fun _ _ h hs => h.suffix hs)
    (fun fs ts hC h => textFieldLeft_conf hS hA (parseMsg_good env S k) (parseMsg_sound hS hA k) hC h)
    hC ⟨fun t ht => lex_ok hp text t ht, nofun⟩

theorem mergeTextLeft_error (hS : S.wf = true) (hA : textSafe S = true) (hB : AnyBoth S)
    (hp : ParsesFloats env.parse64) {k : Nat} {m : DynMsg} (hm : confMsg S m = true) (text : List Char)
    {e : TErr} (h : mergeText env S k m text = .error e) :
    ∃ c r, lex env.parse64 text = c ++ r ∧
      mergeToks env S k m c = .ok (mergeTextLeft env S k m text) := by
  obtain ⟨md, hC⟩ := confMsg_iff.1 hm
  have hg := parseField_good (env := env) (S := S) (parseMsg_good env S k) md m.desc
  unfold mergeText mergeToks at h
  unfold mergeTextLeft mergeToks
  simp only [hC.desc] at h ⊢
  split at h
  · rename_i e' he
    obtain ⟨c, r, h1, h2⟩ := topLeft_cut (P := fun fs => Conf S ⟨m.desc, fs⟩ md)
      (Q := ToksOk env.parse64 false k) hg (parseField_cut (parseMsg_good env S k) (parseMsg_cut env S k) md m.desc)
      (fun _ _ h hs => h.suffix hs)
      (fun fs ts fs' r hC h hv =>
        (parseField_sound hS hA (parseMsg_good env S k) (parseMsg_sound hS hA k) hC h).ok hv)
      (fun _ _ _ _ => textFieldLeft_ok)
      (fun fs ts e hC h he => textFieldLeft_error hS hA hB (parseMsg_good env S k) (parseMsg_cut env S k)
        (parseMsg_sound hS hA k) hC h he)
      hC ⟨fun t ht => lex_ok hp text t ht, nofun⟩ he
    refine ⟨c, r, h1, ?_⟩
    rw [h2]
  · cases h

/-- The state of the loop after the fields of `ns` is its state when started after them. -/
theorem Run.left {md : MsgDesc} {d : Nat} {fs fs1 : FieldSet} {ts r : List LTok} {ns : List FName}
    (hg : ∀ i ts, Good ts (sub i ts)) (h : Run env S sub md d fs ts ns fs1 r) {n : Nat} (hn : ts.length ≤ n) :
    ∃ n', r.length ≤ n' ∧
      topLeft (parseField env S sub md d) (textFieldLeft env S sub md d) n fs ts =
        topLeft (parseField env S sub md d) (textFieldLeft env S sub md d) n' fs1 r ∧
      topLoop (parseField env S sub md d) n fs ts = topLoop (parseField env S sub md d) n' fs1 r := by
  induction h generalizing n with
  | nil => exact ⟨n, hn, rfl, rfl⟩
  | @cons fs fs1 fs2 ts r ts1 ts2 nm ns h1 h2 _ ih =>
    have hl := ((parseField_good (env := env) (S := S) hg md d fs ts).ok h2).2
    cases ts with
    | nil => simp at hl
    | cons t ts =>
      cases n with
      | zero => simp at hn
      | succ n =>
        obtain ⟨n', g1, g2, g3⟩ := ih (n := n) (by simp only [List.length_cons] at hn hl; omega)
        refine ⟨n', g1, ?_, ?_⟩
        · rw [← g2, topLeft, h2]
          simp only [textFieldLeft_ok h2]
          nofun
        · rw [← g3, topLoop, h2]
          nofun

theorem mergeTextLeft_read (hS : S.wf = true) (hA : textSafe S = true) (hB : AnyBoth S)
    (hp : ParsesFloats env.parse64) {k : Nat} {m : DynMsg} (hm : confMsg S m = true) {text : List Char}
    {md : MsgDesc} (hd : S.msg? m.desc = some md) (ha : md.name ≠ anyName) {ns : List FName}
    {fs : FieldSet} {r : List LTok}
    (hr : Run env S (parseMsg env S k) md m.desc m.fields (lex env.parse64 text) ns fs r)
    {f : FieldDesc} (hf : Known S m.desc f) (hc : f.card ≠ .repeated)
    (hh : FieldSet.has S fs f = some true) :
    SMap.get? (mergeTextLeft env S k m text).fields f.number = SMap.get? fs f.number := by
  obtain ⟨md', hC⟩ := confMsg_iff.1 hm
  have := hC.desc
  rw [hd] at this
  cases this
  have hsub : SubOk S env.parse64 false 0 (parseMsg env S k) := fun i md ts hi ht =>
    parseMsg_sound hS hA k i md ts hi ⟨ht.1, nofun⟩
  have hst : StepConf env S (parseMsg env S k) md m.desc (ToksOk env.parse64 false 0) := by
    intro fs ts fs1 ts1 hC hT he
    refine ⟨(parseField_sound hS hA (parseMsg_good env S k) hsub hC hT).ok he, ?_⟩
    exact hT.suffix ((parseField_good (env := env) (S := S) (parseMsg_good env S k) md m.desc fs ts).ok he).1
  have hT : ToksOk env.parse64 false 0 (lex env.parse64 text) := ⟨fun t ht => lex_ok hp text t ht, nofun⟩
  obtain ⟨n', g0, g2, g3⟩ := hr.left (parseMsg_good env S k) (Nat.le_refl _)
  have hC1 : Conf S ⟨m.desc, fs⟩ md ∧ ToksOk env.parse64 false 0 r := by
    clear g0 g2 g3 hh
    have hCm : Conf S ⟨m.desc, m.fields⟩ md := hC
    revert hCm hT
    generalize m.fields = fs0 at hr ⊢
    generalize lex env.parse64 text = ts0 at hr ⊢
    induction hr with
    | nil => exact fun hT hC => ⟨hC, hT⟩
    | cons h1 h2 _ ih =>
      intro hT hC
      obtain ⟨h3, h4⟩ := hst _ _ _ _ hC hT h2
      exact ih h4 h3
  have hg := parseField_good (env := env) (S := S) (parseMsg_good env S k) md m.desc
  have key : ∃ c t, r = c ++ t ∧ topLoop (parseField env S (parseMsg env S k) md m.desc) c.length fs c =
      .ok (topLeft (parseField env S (parseMsg env S k) md m.desc)
        (textFieldLeft env S (parseMsg env S k) md m.desc) n' fs r) := by
    cases hx : topLoop (parseField env S (parseMsg env S k) md m.desc) n' fs r with
    | ok fs' =>
      refine ⟨r, [], by simp, ?_⟩
      rw [topLeft_ok (fun _ _ _ _ => textFieldLeft_ok) hx]
      exact topLoop_more hg hx (Nat.le_refl _)
    | error e =>
      exact topLeft_cut (P := fun fs => Conf S ⟨m.desc, fs⟩ md) (Q := ToksOk env.parse64 false 0) hg
        (parseField_cut (parseMsg_good env S k) (parseMsg_cut env S k) md m.desc)
        (fun _ _ h hs => h.suffix hs) (fun fs ts fs' r hC h hv => (hst _ _ _ _ hC h hv).1)
        (fun _ _ _ _ => textFieldLeft_ok)
        (fun fs ts e hC h he => textFieldLeft_error hS hA hB (parseMsg_good env S k) (parseMsg_cut env S k)
          hsub hC h he) hC1.1 hC1.2 hx
  obtain ⟨c, t, rfl, hc1⟩ := key
  obtain ⟨ns', hrun⟩ := topLoop_run hc1
  have hk := (hrun.keep hS hA ha hst hC1.1 ⟨fun t ht => hC1.2.1 t (by simp [ht]), nofun⟩ hf hc hh).1
  unfold mergeTextLeft
  simp only [hd]
  rw [g2]
  exact hk

end
end Verif.Text
