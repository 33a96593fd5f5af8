import Verif.Dyn.Accept
import Verif.Dyn.Len
/-!
Decoding what the encoder wrote is the abstract merge.
-/
set_option autoImplicit false
namespace Verif.Dyn
open Verif.Wire

/-- Repeated application of `Value::merge_field` to the occurrences of one field. -/
inductive VSteps (S : Schema) (d : Nat) (f : FieldDesc) : Value → Bytes → Value → Prop
  | nil (v : Value) : VSteps S d f v [] v
  | cons {v v1 v2 : Value} {w : WireType} {p c : Bytes} (hw : w ≠ .endGroup)
      (h : ∀ t, valueMerge S d (nestedAt S d) f v w (p ++ t) = .ok (v1, t))
      (hs : VSteps S d f v1 c v2) : VSteps S d f v (encodeKey f.number w ++ p ++ c) v2

theorem VSteps.single {S : Schema} {d : Nat} {f : FieldDesc} {v v1 : Value} {w : WireType} {p : Bytes}
    (hw : w ≠ .endGroup) (h : ∀ t, valueMerge S d (nestedAt S d) f v w (p ++ t) = .ok (v1, t)) :
    VSteps S d f v (encodeKey f.number w ++ p) v1 := by
  have := VSteps.cons hw h (VSteps.nil v1)
  simpa using this

/-- Value steps inside a message. -/
theorem VSteps.place {S : Schema} {d : Nat} {f : FieldDesc} (hn : ValidNumber f.number)
    {X : Value → DynMsg}
    (hX : ∀ c w b, msgMerge S d (X c) f.number w b =
      mapV X (valueMerge S d (nestedAt S d) f c w b))
    {v v' : Value} {b : Bytes} (h : VSteps S d f v b v') : FSteps (msgMerge S d) (X v) b (X v') := by
  induction h with
  | nil v => exact FSteps.nil _
  | cons hw h hs ih =>
    refine FSteps.cons hn.1 hn.2 hw ?_ ih
    intro t
    rw [hX, h t]; rfl

theorem VSteps.placeFrom {S : Schema} {d : Nat} {f : FieldDesc} (hn : ValidNumber f.number)
    {X : Value → DynMsg} {st : DynMsg} {v : Value}
    (h0 : ∀ w b, msgMerge S d st f.number w b = mapV X (valueMerge S d (nestedAt S d) f v w b))
    (hX : ∀ c w b, msgMerge S d (X c) f.number w b =
      mapV X (valueMerge S d (nestedAt S d) f c w b))
    {v' : Value} {b : Bytes} (h : VSteps S d f v b v') (hb : b ≠ []) :
    FSteps (msgMerge S d) st b (X v') := by
  cases h with
  | nil => exact absurd rfl hb
  | cons hw h hs =>
    refine FSteps.cons hn.1 hn.2 hw ?_ (hs.place hn hX)
    intro t
    rw [h0, h t]; rfl

/-- Where a declared field lives in a conforming message. -/
theorem field_place {S : Schema} (hS : S.wf = true) {st : DynMsg} {md : MsgDesc} (h : Conf S st md)
    {n : Nat} {f : FieldDesc} (hf : md.getField n = some f) (d : Nat) :
    ∃ v, confVal S f v = true ∧
      ((FieldSet.getValue (FieldSet.clearAll (siblings md f) st.fields) n = some v) ∨
        (FieldSet.getValue (FieldSet.clearAll (siblings md f) st.fields) n = none ∧
          fieldDefault S f = some v)) ∧
      (∀ w b, msgMerge S d st f.number w b =
        mapV (fun c => ⟨st.desc, SMap.insert n (.val c) (FieldSet.clearAll (siblings md f) st.fields)⟩)
          (valueMerge S d (nestedAt S d) f v w b)) ∧
      (∀ c w b, msgMerge S d
          ⟨st.desc, SMap.insert n (.val c) (FieldSet.clearAll (siblings md f) st.fields)⟩ f.number w b =
        mapV (fun c => ⟨st.desc, SMap.insert n (.val c) (FieldSet.clearAll (siblings md f) st.fields)⟩)
          (valueMerge S d (nestedAt S d) f c w b)) := by
  have hw := Schema.wf_msg hS h.desc
  obtain ⟨hmem, hn⟩ := getField_mem hf
  have hpos : 0 < n := hn ▸ (hw.fields f hmem).num.1
  obtain ⟨fs, v, hg, hc, hwr, hdef⟩ := getMut_field hS h hf
  refine ⟨v, hc, hdef, ?_, ?_⟩
  · intro w b
    rw [msgMerge_eq]
    unfold mergeField mergeInto
    simp only [h.desc, hn, hf, hg, hwr]
  · intro c w b
    rw [msgMerge_eq]
    unfold mergeField mergeInto
    simp only [h.desc, hn, hf]
    have hs1 := sorted_clearAll (siblings md f) st.fields h.sorted
    have hs2 := SMap.sorted_insert (a := Slot.val c) hpos hs1
    have hnot : n ∉ siblings md f := by rw [← hn]; exact not_mem_siblings
    have hget : SMap.get? (FieldSet.clearAll (siblings md f)
        (SMap.insert n (.val c) (FieldSet.clearAll (siblings md f) st.fields))) f.number =
        some (.val c) := by
      rw [hn, get?_clearAll _ _ hs2, if_neg hnot, SMap.get?_insert, if_pos rfl]
    unfold FieldSet.getMut
    simp only [hget]
    congr 1
    funext c'
    unfold FieldSet.write
    rw [hn]
    congr 1
    apply SMap.sorted_ext
    · exact SMap.sorted_insert hpos (sorted_clearAll _ _ hs2)
    · exact SMap.sorted_insert hpos hs1
    · intro k
      rw [SMap.get?_insert, SMap.get?_insert, get?_clearAll _ _ hs2, SMap.get?_insert]
      by_cases hk : k = n
      · simp [hk]
      · simp only [if_neg hk]
        rw [get?_clearAll _ _ h.sorted]
        split <;> rfl

/-- Where an extension lives in a conforming message. -/
theorem ext_place {S : Schema} (hS : S.wf = true) {st : DynMsg} {md : MsgDesc} (h : Conf S st md)
    {n : Nat} {f : FieldDesc} (hf : md.getExtension n = some f) (d : Nat) :
    ∃ v, confVal S f v = true ∧
      ((FieldSet.getValue st.fields n = some v) ∨
        (FieldSet.getValue st.fields n = none ∧ fieldDefault S f = some v)) ∧
      (∀ w b, msgMerge S d st f.number w b =
        mapV (fun c => ⟨st.desc, SMap.insert n (.val c) st.fields⟩)
          (valueMerge S d (nestedAt S d) f v w b)) ∧
      (∀ c w b, msgMerge S d ⟨st.desc, SMap.insert n (.val c) st.fields⟩ f.number w b =
        mapV (fun c => ⟨st.desc, SMap.insert n (.val c) st.fields⟩)
          (valueMerge S d (nestedAt S d) f c w b)) := by
  have hw := Schema.wf_msg hS h.desc
  obtain ⟨hmem, hn⟩ := getExtension_mem hf
  have hpos : 0 < n := hn ▸ (hw.exts f hmem).num.1
  have hnone : md.getField n = none := hn ▸ (hw.extNew f hmem).1
  obtain ⟨fs, v, hg, hc, hwr, hdef⟩ := getMut_ext hS h hf
  refine ⟨v, hc, hdef, ?_, ?_⟩
  · intro w b
    rw [msgMerge_eq]
    unfold mergeField mergeInto
    simp only [h.desc, hn, hf, hnone, hg, hwr]
  · intro c w b
    rw [msgMerge_eq]
    unfold mergeField mergeInto
    simp only [h.desc, hn, hf, hnone]
    unfold FieldSet.getMut FieldSet.clearAll
    simp only [List.foldl_nil, hn, SMap.get?_insert, if_true]
    congr 1
    funext c'
    unfold FieldSet.write
    rw [hn, SMap.insert_insert]

/-- Unknown fields are appended to what is stored under their number. -/
theorem unknown_steps {S : Schema} (hS : S.wf = true) {md : MsgDesc} {n : Nat}
    (hf : md.getField n = none) (he : md.getExtension n = none) (d : Nat) :
    ∀ (u : USet), u ≠ [] → (∀ p ∈ u, p.1 = n) → Wire.USet.Wf u → USet.depth u ≤ d →
    ∀ st : DynMsg, Conf S st md →
    FSteps (msgMerge S d) st (encUSet u) ⟨st.desc, addUnknowns st.fields n u⟩ := by
  intro u
  induction u with
  | nil => intro h; exact absurd rfl h
  | cons p r ih =>
    obtain ⟨k, x⟩ := p
    intro _ hall hw hd st hC
    have hk : k = n := hall (k, x) List.mem_cons_self
    subst hk
    simp only [USet.depth] at hd
    simp only [Wire.USet.Wf] at hw
    simp only [encUSet, encUVal_eq]
    have step : ∀ t, msgMerge S d st k x.wireType (uPayload k x ++ t) =
        .ok (⟨st.desc, addUnknowns st.fields k [(k, x)]⟩, t) := by
      intro t
      rw [msgMerge_eq]
      unfold mergeField
      simp only [hC.desc, hf, he, decUVal_payload x d k t (by omega) hw.2.1 hw.1]
      unfold FieldSet.addUnknown addUnknowns
      rcases hC.unknown_or hf he with h | h | ⟨us, h, hus⟩ <;> simp only [h]
    refine FSteps.cons hw.1.1 hw.1.2 x.wireType_ne_end step ?_
    by_cases hr : r = []
    · subst hr; exact FSteps.nil _
    · have hC' : Conf S ⟨st.desc, addUnknowns st.fields k [(k, x)]⟩ md := by
        have hone := unknownOk_single hw.1 hw.2.1
        unfold addUnknowns
        rcases hC.unknown_or hf he with h | h | ⟨us, h, hus⟩ <;> simp only [h]
        · exact hC.insert_unknown hS hw.1.1 hf he hone
        · exact hC.insert_unknown hS hw.1.1 hf he hone
        · exact hC.insert_unknown hS hw.1.1 hf he (unknownOk_append hus hone)
      have := ih hr (fun p hp => hall p (List.mem_cons_of_mem _ hp)) hw.2.2 (by omega) _ hC'
      have heq : addUnknowns (addUnknowns st.fields k [(k, x)]) k r =
          addUnknowns st.fields k ((k, x) :: r) := by
        unfold addUnknowns
        rcases hC.unknown_or hf he with h | h | ⟨us, h, hus⟩ <;>
          simp [h, SMap.get?_insert, SMap.insert_insert]
      rw [← heq]
      exact this

theorem FSteps_conf {S : Schema} (hS : S.wf = true) {d : Nat} {st st' : DynMsg} {b : Bytes}
    (h : FSteps (msgMerge S d) st b st') (hc : confMsg S st = true) :
    confMsg S st' = true ∧ st'.desc = st.desc := by
  induction h with
  | nil => exact ⟨hc, rfl⟩
  | cons hn hn' hw h hs ih =>
    have h1 := (msgMerge_ok hS d _ _ _ _ hn hn' hc).2 _ _ (h [])
    have h2 := ih h1.1
    exact ⟨h2.1, h2.2.trans h1.2⟩

/-- The default of a field acts as the empty value of its shape. -/
theorem mergeVal_default {S : Schema} {f : FieldDesc} (hf : FieldWf S f) {v v0 : Value}
    (hv : confVal S f v = true) (h0 : fieldDefault S f = some v0) :
    mergeVal S f v0 v = mergeVal S f (emptyLike v) v := by
  cases v with
  | msg i fs =>
    obtain ⟨hc, hk, _⟩ := confMsg_of_confVal hv
    have hd : f.default = none := by
      cases hd : f.default with
      | none => rfl
      | some x => have := hf.dflt x hd; rw [hk] at this; cases this
    unfold fieldDefault at h0
    rw [isList_of_ne hc, isMap_of_ne hc, hd, hk] at h0
    simp [kindDefault] at h0
    subst h0; rfl
  | list vs =>
    simp only [confVal, Bool.and_eq_true] at hv
    unfold fieldDefault at h0
    rw [if_pos hv.1] at h0
    cases h0; rfl
  | map kvs =>
    simp only [confVal, Bool.and_eq_true] at hv
    have hl : isList S f = false := by simp [isList, hv.1]
    unfold fieldDefault at h0
    rw [hl, if_neg (by simp), if_pos hv.1] at h0
    cases h0; rfl
  | _ => rfl

/-- What `encode_field` writes for one singular value, and that it is read back. -/
def Espec (S : Schema) (d : Nat) (f : FieldDesc) (v : Value) (b : Bytes) : Prop :=
  ∃ w p, b = encodeKey f.number w ++ p ∧ w ≠ .endGroup ∧
    (w = .lengthDelimited → f.kind.packable = false) ∧
    ∀ cur, confVal S f.elem cur = true → ∀ t,
      singularMerge (nestedAt S d) f cur w (p ++ t) = .ok (mergeVal S f cur v, t)

def Vspec (S : Schema) (d : Nat) (f : FieldDesc) (v : Value) (b : Bytes) : Prop :=
  b ≠ [] ∧ ∀ cur, confVal S f cur = true → VSteps S d f cur b (mergeVal S f cur v)

theorem Vspec_of_Espec {S : Schema} {d : Nat} {f : FieldDesc} {v : Value} {b : Bytes}
    (hc : f.card ≠ .repeated) (h : Espec S d f v b) : Vspec S d f v b := by
  obtain ⟨w, p, rfl, hw, _, h⟩ := h
  refine ⟨by simp [encodeKey_ne_nil], ?_⟩
  intro cur hcur
  refine VSteps.single hw ?_
  intro t
  have h3 : isList S f = false := isList_of_ne hc
  have h5 : isMap S f = false := isMap_of_ne hc
  have heq : ∀ b, valueMerge S d (nestedAt S d) f cur w b = singularMerge (nestedAt S d) f cur w b := by
    intro b
    cases cur with
    | list vs => simp only [confVal, h3, Bool.false_and] at hcur; cases hcur
    | map kvs => simp only [confVal, h5, Bool.false_and] at hcur; cases hcur
    | _ => rfl
  rw [heq]
  exact h cur (by rw [confVal_elem hc]; exact hcur) t

/-- `mergeVal` of a scalar is the scalar. -/
theorem singular_scalar {S : Schema} {nested : Option (FieldFn DynMsg)} {f : FieldDesc} {cur : Value}
    (hk : f.kind.isMessage = false) (hv : confVal S f.elem cur = true) (w : WireType) (b : Bytes) :
    singularMerge nested f cur w b = scalarDec f.kind w b := by
  have hs := scalarOk_of_confVal (f := f.elem) hk elem_card hv
  have hval : cur.isValid f.kind = true := scalarOk_isValid hs
  unfold singularMerge
  cases cur with
  | msg d fs =>
    exfalso; cases hkk : f.kind <;> rw [hkk] at hval hk <;> simp [Value.isValid] at hval
    cases hk
  | _ => simp only [hval, if_true]

theorem scalar_notMessage {k : Kind} {v : Value} (h : scalarOk k v = true) : k.isMessage = false := by
  cases k <;> first | rfl | (cases v <;> cases h)

theorem Espec_scalar {S : Schema} {d : Nat} {f : FieldDesc} {v : Value} {b : Bytes}
    (hs : scalarOk f.kind v = true) (hm : ∀ cur, mergeVal S f cur v = v)
    (h : (scalarEnc f.kind v).map (encodeKey f.number f.kind.wireType ++ ·) = some b)
    (hl : b.length < 2 ^ 64) : Espec S d f v b := by
  obtain ⟨p, hp, rfl⟩ := Option.map_eq_some_iff.1 h
  have hk := scalar_notMessage hs
  refine ⟨f.kind.wireType, p, rfl, f.kind.wireType_ne_end, ?_, ?_⟩
  · intro hw
    cases hkk : f.kind <;> rw [hkk] at hw <;> first | rfl | cases hw
  · intro cur hcur t
    rw [singular_scalar hk hcur, hm, scalarDec_enc hp (fun b hb => by
      subst hb; exact scalarOk_utf8 hs) (by rw [List.length_append] at hl; omega)]

/-- Packed elements. -/
theorem packed_steps {S : Schema} {nested : Option (FieldFn DynMsg)} {f : FieldDesc}
    (hp : f.kind.packable = true) {v0 : Value} (h0 : confVal S f.elem v0 = true) :
    ∀ (vs : List Value) (b : Bytes), packedEncAll f.kind vs = some b → b.length < 2 ^ 64 →
      confVals S f.elem vs = true → ∀ ws : List Value,
      Steps (fun vs b => mapV (fun v => vs ++ [v]) (singularMerge nested f v0 f.kind.wireType b))
        ws b (ws ++ vs) := by
  intro vs
  have hk : f.kind.isMessage = false := by cases hkk : f.kind <;> rw [hkk] at hp <;> first | rfl | cases hp
  induction vs with
  | nil => intro b h _ _ ws; simp [packedEncAll] at h; subst h; simpa using Steps.nil _
  | cons v r ih =>
    intro b h hl hc ws
    simp only [confVals, Bool.and_eq_true] at hc
    have hs := scalarOk_of_confVal (f := f.elem) hk elem_card hc.1
    unfold packedEncAll at h
    split at h
    · rename_i x y h1 h2
      cases h
      rw [List.length_append] at hl
      rw [packedEnc_eq hp] at h1
      have := ih y h2 (by omega) hc.2 (ws ++ [v])
      rw [List.append_assoc] at this
      refine Steps.cons (scalarEnc_ne_nil h1) ?_ this
      intro t
      rw [singular_scalar hk h0, scalarDec_enc h1 (fun b hb => by
        subst hb; exact scalarOk_utf8 hs) (by omega)]
      rfl
    · cases h

theorem normVals_scalar {S : Schema} {f g : FieldDesc} (hk : f.kind.isMessage = false)
    (hc : f.card ≠ .repeated) :
    ∀ vs : List Value, confVals S f vs = true → normVals S g vs = vs := by
  intro vs
  induction vs with
  | nil => intro _; simp [normVals]
  | cons v r ih =>
    intro h
    simp only [confVals, Bool.and_eq_true] at h
    have hs := scalarOk_of_confVal hk hc h.1
    simp only [normVals, ih h.2]
    cases v <;> first
      | rfl
      | (exfalso; cases hkk : f.kind <;> rw [hkk] at hs hk <;> simp [scalarOk, Value.isValid] at hs hk; done)

end Verif.Dyn
