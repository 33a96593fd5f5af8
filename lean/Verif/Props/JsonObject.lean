import Verif.Json.Object
import Verif.Props.JsonSafe
/-!
Properties of JSON objects read as messages: C60 (unknown keys), C61 (null), C62 (the names
of fields), C63 (oneofs), C64 (every entry counts).

They speak about message types without a JSON form of their own.
-/
set_option autoImplicit false
namespace Verif.Props
open Verif.Wire Verif.Dyn Verif.Pool Verif.Json

section
variable {env : JEnv} {S : Schema} {o : DOpts} {k d : Nat} {md : MsgDesc}

theorem fromJson_obj (hd : S.msg? d = some md) (hp : wkt? md.name = none) (es : List (Name × Json)) :
    fromJson env S o k d (.obj es) = deEntries S o (deVal env S o k) md (DynMsg.empty d) es := by
  unfold fromJson deMsg
  simp only [hd, hp]

/-! ### C60 -/

/-- The key is no name of a field and no extension. -/
def UnknownKey (md : MsgDesc) (key : Name) : Prop :=
  (∀ f ∈ md.fields, f.jsonName ≠ key ∧ f.name ≠ key) ∧ ∀ f ∈ md.extensions, f.jsonName ≠ key

theorem unknownKey_none {key : Name} (h : UnknownKey md key) : keyField md key = none ∧ keyExt md key = none := by
  have h1 : md.fields.find? (fun f => f.jsonName == key) = none := by
    rw [List.find?_eq_none]
    intro f hf
    simpa using (h.1 f hf).1
  refine ⟨?_, ?_⟩
  · unfold keyField
    rw [h1]
    unfold MsgDesc.getFieldByName
    rw [List.find?_eq_none]
    intro f hf
    simpa using (h.1 f hf).2
  · unfold keyExt
    rw [List.find?_eq_none]
    intro f hf
    simpa using h.2 f hf

/-- **C60.** With `deny_unknown_fields(false)`, an entry with an unknown key has no effect,
whatever its value. -/
theorem C60_ignored (hd : S.msg? d = some md) (hp : wkt? md.name = none) (ho : o.deny = false)
    {key : Name} (hk : UnknownKey md key) (a b : List (Name × Json)) (j : Json) :
    fromJson env S o k d (.obj (a ++ (key, j) :: b)) = fromJson env S o k d (.obj (a ++ b)) := by
  rw [fromJson_obj hd hp, fromJson_obj hd hp, deEntries_append, deEntries_append]
  cases deEntries S o (deVal env S o k) md (DynMsg.empty d) a with
  | error e => rfl
  | ok m =>
    have : deEntry S o (deVal env S o k) md m key j = .ok m := by
      unfold deEntry
      rw [(unknownKey_none hk).1, (unknownKey_none hk).2]
      simp [ho]
    simp only [deEntries, this]

/-- **C60.** By default, an object with an unknown key is not accepted. -/
theorem C60_denied (hd : S.msg? d = some md) (hp : wkt? md.name = none) (ho : o.deny = true)
    {key : Name} (hk : UnknownKey md key) {es : List (Name × Json)} {j : Json} (hj : (key, j) ∈ es)
    (m : DynMsg) : fromJson env S o k d (.obj es) ≠ .ok m := by
  obtain ⟨a, b, rfl⟩ := List.append_of_mem hj
  rw [fromJson_obj hd hp]
  intro h
  obtain ⟨m1, m2, _, h2, _⟩ := deEntries_split h
  unfold deEntry at h2
  rw [(unknownKey_none hk).1, (unknownKey_none hk).2] at h2
  simp [ho] at h2

example : UnknownKey exM "zz".toList := by
  unfold UnknownKey
  decide +kernel
example : fromJson jEnv Ex.schema ⟨false⟩ 5 0 (.obj [("zz".toList, .arr []), ("a".toList, .uint 1)]) =
    .ok ⟨0, [(1, .val (.i32 1))]⟩ := by decide +kernel
example : fromJson jEnv Ex.schema .default 5 0 (.obj [("zz".toList, .arr []), ("a".toList, .uint 1)]) =
    .error .err := by decide +kernel

/-! ### C62 -/

/-- **C62.** The two names of a field are interchangeable, whatever else the object holds.  Partial: the
name must not be the JSON name of another field, see `C62_false`. -/
theorem C62_names_partial (hd : S.msg? d = some md) (hp : wkt? md.name = none) (hu : UniqueNames md)
    {f : FieldDesc} (hf : f ∈ md.fields) (hx : ∀ g ∈ md.fields, g.jsonName = f.name → g = f) (a b : List (Name × Json)) (j : Json) :
    fromJson env S o k d (.obj (a ++ (f.name, j) :: b)) =
      fromJson env S o k d (.obj (a ++ (f.jsonName, j) :: b)) := by
  have h1 : keyField md f.name = some f := by
    refine (keyField_iff hu).2 ⟨hf, ?_⟩
    by_cases h : f.jsonName = f.name
    · exact .inl h
    · exact .inr ⟨rfl, fun g hg e => h (by rw [hx g hg e] at e; exact e)⟩
  have h2 := (keyField_iff hu (key := f.jsonName)).2 ⟨hf, .inl rfl⟩
  rw [fromJson_obj hd hp, fromJson_obj hd hp, deEntries_append, deEntries_append]
  cases deEntries S o (deVal env S o k) md (DynMsg.empty d) a with
  | error e => rfl
  | ok m => simp only [deEntries, deEntry, h1, h2]

/-- Two fields, one with a JSON name of its own. -/
def namesSchema : Schema where
  msgs := [
    { name := "t.J".toList, fields := [{ Ex.fld 1 "foo_bar" .int32 with jsonName := "fooBar".toList },
        Ex.fld 2 "x" .string], mapEntry := false, extensions := [] }]
  enums := []

example : ∀ md ∈ namesSchema.msgs, UniqueNames md := by
  unfold UniqueNames
  decide +kernel
example : fromJson jEnv namesSchema .default 5 0 (.obj [("foo_bar".toList, .uint 1)]) =
    .ok ⟨0, [(1, .val (.i32 1))]⟩ ∧
    fromJson jEnv namesSchema .default 5 0 (.obj [("fooBar".toList, .uint 1)]) =
    .ok ⟨0, [(1, .val (.i32 1))]⟩ := by decide +kernel

/-! ### C61 -/

/-- **C61.** `null` for a field leaves it as it is, except for fields of type
`google.protobuf.Value` and `google.protobuf.NullValue`. -/
theorem C61_null (hS : S.wf = true) (hd : S.msg? d = some md) (hp : wkt? md.name = none)
    (hu : UniqueNames md) {key : Name} {f : FieldDesc} (hk : Names md key f)
    (hv : ∀ i e, f.kind = .message i → S.msg? i = some e → e.name ≠ "google.protobuf.Value".toList)
    (he : ∀ i e, f.kind = .enum i → S.enums[i]? = some e → e.name ≠ "google.protobuf.NullValue".toList)
    (a b : List (Name × Json)) :
    fromJson env S o k d (.obj (a ++ (key, .null) :: b)) = fromJson env S o k d (.obj (a ++ b)) := by
  rw [fromJson_obj hd hp, fromJson_obj hd hp, deEntries_append, deEntries_append]
  cases deEntries S o (deVal env S o k) md (DynMsg.empty d) a with
  | error e => rfl
  | ok m =>
    have hfw := (Schema.wf_msg hS hd).fields f hk.1
    have h1 : deNull S f = .ok none := by
      unfold deNull
      have hkind := hfw.kind
      split
      · rename_i i hi
        rw [hi] at hkind
        split
        · rename_i hn
          simp [kindOk, Schema.msg?] at hkind hn
          omega
        · rename_i md' hmd
          exact if_neg (hv i md' hi hmd)
      · rename_i i hi
        rw [hi] at hkind
        split
        · rename_i hn
          obtain ⟨ed, hed⟩ := enum_some hkind
          rw [hed] at hn
          cases hn
        · rename_i ed hed
          exact if_neg (he i ed hi hed)
      · rfl
    have : deEntry S o (deVal env S o k) md m key .null = .ok m := by
      unfold deEntry
      rw [(keyField_iff hu).2 hk]
      simp only [deOpt, h1]
    simp only [deEntries, this]

example : fromJson jEnv Ex.schema .default 5 0 (.obj [("child".toList, .null), ("xs".toList, .null),
    ("a".toList, .uint 1), ("a".toList, .null)]) = .ok ⟨0, [(1, .val (.i32 1))]⟩ := by decide +kernel

/-! ### C63 -/

/-- **C63.** An object with values for two members of a oneof, or twice for the same one, is
not accepted. -/
theorem C63_oneof (hS : S.wf = true) (hd : S.msg? d = some md) (hp : wkt? md.name = none)
    (hu : UniqueNames md) (ho : o.deny = true) {i : Nat} {f g : FieldDesc} {kf kg : Name} {jf jg : Json}
    (hf : Names md kf f) (hg : Names md kg g) (hof : f.oneof = some i) (hog : g.oneof = some i)
    (hjf : jf ≠ .null) (hjg : jg ≠ .null) (a b c : List (Name × Json)) (m : DynMsg) :
    fromJson env S o k d (.obj (a ++ (kf, jf) :: (b ++ (kg, jg) :: c))) ≠ .ok m := by
  intro h
  rw [fromJson_obj hd hp] at h
  have hw := Schema.wf_msg hS hd
  obtain ⟨m1, m2, h1, h2, h3⟩ := deEntries_split h
  obtain ⟨m3, m4, h4, h5, _⟩ := deEntries_split h3
  have s1 := deEntries_sorted hw h1 rfl
  have s2 := deEntry_sorted hw h2 s1
  have hset : ∃ v, SMap.get? m2.fields f.number = some (.val v) := by
    rcases deEntry_cases h2 with ⟨_, hn⟩ | ⟨f', v, hf', _, _, rfl⟩ | ⟨_, _, hn, _⟩
    · have := hn f ((keyField_iff hu).2 hf)
      rw [deOpt_of_ne hjf] at this
      exact absurd this (deVal_deny ho)
    · rw [(keyField_iff hu).2 hf] at hf'
      cases hf'
      exact ⟨v, by show SMap.get? (SMap.insert _ _ _) _ = _; rw [SMap.get?_insert, if_pos rfl]⟩
    · rw [(keyField_iff hu).2 hf] at hn
      cases hn
  obtain ⟨v, hv⟩ := hset
  have hv3 := deEntries_keep hw h4 s2 hf.1 hv (fun h => by rw [hof] at h; cases h)
  rcases deEntry_cases h5 with ⟨_, hn⟩ | ⟨g', w, hg', _, hany, rfl⟩ | ⟨_, _, hn, _⟩
  · have := hn g ((keyField_iff hu).2 hg)
    rw [deOpt_of_ne hjg] at this
    exact absurd this (deVal_deny ho)
  · rw [(keyField_iff hu).2 hg] at hg'
    cases hg'
    have hpf : f.presence = true := by
      rcases (hw.fields f hf.1).oneof with h | h
      · rw [hof] at h; cases h
      · exact h
    have := Text.anyHas_false hany f (by
      unfold Text.oneofMembers
      rw [hog]
      exact List.mem_filter.2 ⟨hf.1, by simp [hof]⟩)
    simp [FieldSet.has, FieldSet.getValue, hv3, hasVal, hpf] at this
  · rw [(keyField_iff hu).2 hg] at hn
    cases hn

example : fromJson jEnv Ex.schema .default 5 0 (.obj [("o1".toList, .str []), ("o2".toList, .obj [])]) =
    .error .err := by decide +kernel
example : fromJson jEnv Ex.schema .default 5 0 (.obj [("o1".toList, .null), ("o2".toList, .obj [])]) =
    .ok ⟨0, [(7, .val (.msg 0 []))]⟩ := by decide +kernel

/-! ### C64 -/

/-- **C64.** Every entry counts: when an object is accepted, the value of an entry is one that
the field accepts, and the field holds it if no later entry names the same field. -/
theorem C64_entry (hS : S.wf = true) (hd : S.msg? d = some md) (hp : wkt? md.name = none)
    (hu : UniqueNames md) {key : Name} {f : FieldDesc} (hk : Names md key f) {j : Json} (hj : j ≠ .null)
    {a b : List (Name × Json)} {m : DynMsg} (h : fromJson env S o k d (.obj (a ++ (key, j) :: b)) = .ok m) :
    ∃ r, deVal env S o k f j = .ok r ∧ ((∀ p ∈ b, ¬ Names md p.1 f) →
      ∀ v, r = some v → FieldSet.getValue m.fields f.number = some v) := by
  rw [fromJson_obj hd hp] at h
  have hw := Schema.wf_msg hS hd
  obtain ⟨m1, m2, h1, h2, h3⟩ := deEntries_split h
  have s1 := deEntries_sorted hw h1 rfl
  have s2 := deEntry_sorted hw h2 s1
  rcases deEntry_cases h2 with ⟨_, hn⟩ | ⟨f', v, hf', hv, _, rfl⟩ | ⟨_, _, hn, _⟩
  · have := hn f ((keyField_iff hu).2 hk)
    rw [deOpt_of_ne hj] at this
    exact ⟨none, this, fun _ _ h => by cases h⟩
  · rw [(keyField_iff hu).2 hk] at hf'
    cases hf'
    rw [deOpt_of_ne hj] at hv
    refine ⟨some v, hv, fun hb w hw' => ?_⟩
    cases hw'
    have := deEntries_keep hw h3 s2 hk.1 (v := v)
      (by show SMap.get? (SMap.insert _ _ _) _ = _; rw [SMap.get?_insert, if_pos rfl])
      (fun _ p hp hpf => hb p hp ((keyField_iff hu).1 hpf))
    simp [FieldSet.getValue, this]
  · rw [(keyField_iff hu).2 hk] at hn
    cases hn

/-- A repeated key: the last one counts. -/
example : fromJson jEnv Ex.schema .default 5 0 (.obj [("a".toList, .uint 1), ("a".toList, .uint 2)]) =
    .ok ⟨0, [(1, .val (.i32 2))]⟩ := by decide +kernel

/-- **C64.** And nothing else is set: a field that no entry names is not set. -/
theorem C64_only (hS : S.wf = true) (hd : S.msg? d = some md) (hp : wkt? md.name = none)
    (hu : UniqueNames md) {es : List (Name × Json)} {m : DynMsg}
    (h : fromJson env S o k d (.obj es) = .ok m) {f : FieldDesc} (hf : f ∈ md.fields)
    (hn : ∀ p ∈ es, ¬ Names md p.1 f) : FieldSet.getValue m.fields f.number = none := by
  rw [fromJson_obj hd hp] at h
  have hw := Schema.wf_msg hS hd
  have key : ∀ es (m : DynMsg), SMap.sorted m.fields = true → SMap.get? m.fields f.number = none →
      (∀ p ∈ es, ¬ Names md p.1 f) → ∀ m', deEntries S o (deVal env S o k) md m es = .ok m' →
      SMap.get? m'.fields f.number = none := by
    intro es
    induction es with
    | nil => intro m _ h0 _ m' h; cases h; exact h0
    | cons p r ih =>
      obtain ⟨key, j⟩ := p
      intro m hs h0 hn m' h
      obtain ⟨m1, m2, h1, h2, h3⟩ := deEntries_split (a := []) h
      cases h1
      refine ih m2 (deEntry_sorted hw h2 hs) ?_ (fun p hp => hn p (.tail _ hp)) _ h3
      rcases deEntry_cases h2 with ⟨rfl, _⟩ | ⟨g, v, hg, _, _, rfl⟩ | ⟨g, v, _, hg, _, rfl⟩
      · exact h0
      · have hne : f.number ≠ g.number := by
          intro e
          have h1 := getField_of_mem hw.nodup hf
          have h2 := getField_of_mem hw.nodup (keyField_mem hg)
          rw [e, h2] at h1
          cases h1
          exact hn (key, j) (.head _) ((keyField_iff hu).1 hg)
        show SMap.get? (SMap.insert _ _ _) _ = _
        rw [SMap.get?_insert, if_neg hne, get?_clearAll _ _ hs, h0]
        split <;> rfl
      · have hne : f.number ≠ g.number := by
          intro e
          have h1 := getField_of_mem hw.nodup hf
          rw [e, (hw.extNew g (keyExt_mem hg)).1] at h1
          cases h1
        show SMap.get? (SMap.insert _ _ _) _ = _
        rw [SMap.get?_insert, if_neg hne]
        exact h0
  have := key es _ rfl rfl hn m h
  simp [FieldSet.getValue, this]

end

end Verif.Props
