import Verif.Dyn.FieldLemmas
/-!
The decoder preserves conformance and never panics on a conforming message.
-/
set_option autoImplicit false
namespace Verif.Dyn
open Verif.Wire

/-- The result is an ordinary decode error, or a value satisfying `P`. -/
def OkP {α : Type} (P : α → Prop) (r : R (α × Bytes)) : Prop :=
  Safe r ∧ ∀ v b, r = .ok (v, b) → P v

theorem OkP.map {α β : Type} {P : α → Prop} {Q : β → Prop} {g : α → β} {r : R (α × Bytes)}
    (h : OkP P r) (hg : ∀ v, P v → Q (g v)) : OkP Q (mapV g r) := by
  constructor
  · intro e he; exact h.1 e (mapV_error he)
  · intro v b hv
    obtain ⟨w, hw, rfl⟩ := mapV_ok hv
    exact hg w (h.2 w b hw)

theorem OkP.error {α : Type} {P : α → Prop} {e : Err} (he : e.bad = false) :
    OkP P (.error e : R (α × Bytes)) := by
  refine ⟨?_, fun v b h => by cases h⟩
  intro e' h; cases h; exact he

/-- All field functions of the nested level preserve conformance safely. -/
def NestedOk (S : Schema) (nested : Option (FieldFn DynMsg)) : Prop :=
  ∀ g, nested = some g → ∀ m n w b, 0 < n → n < 2 ^ 29 → confMsg S m = true →
    OkP (fun m' => confMsg S m' = true ∧ m'.desc = m.desc) (g m n w b)

section
variable {S : Schema} {nested : Option (FieldFn DynMsg)}

theorem singular_ok (hn : NestedOk S nested) (f : FieldDesc) {v : Value}
    (hv : confVal S f.elem v = true) (w : WireType) (b : Bytes) :
    OkP (fun v' => confVal S f.elem v' = true) (singularMerge nested f v w b) := by
  by_cases hk : f.kind.isMessage = true
  · cases hk' : f.kind with
    | message i =>
      obtain ⟨fs, rfl, hc⟩ := msg_of_confVal (f := f.elem) hk' elem_card hv
      unfold singularMerge
      simp only [hk']
      have inner : OkP (fun m' => confMsg S m' = true ∧ m'.desc = i)
          (if f.group then groupMerge nested f.number w ⟨i, fs⟩ b
            else messageMerge nested w ⟨i, fs⟩ b) := by
        have hI : ∀ g, nested = some g → ∀ (st : DynMsg) n w b st' b', 0 < n → n < 2 ^ 29 →
            (confMsg S st = true ∧ st.desc = i) → g st n w b = .ok (st', b') →
            (confMsg S st' = true ∧ st'.desc = i) := by
          intro g hg st n w b st' b' h0 h1 hi h
          have := (hn g hg st n w b h0 h1 hi.1).2 st' b' h
          exact ⟨this.1, this.2.trans hi.2⟩
        have hE : ∀ g, nested = some g → ∀ (st : DynMsg) n w b, 0 < n → n < 2 ^ 29 →
            (confMsg S st = true ∧ st.desc = i) → Safe (g st n w b) := by
          intro g hg st n w b h0 h1 hi
          exact (hn g hg st n w b h0 h1 hi.1).1
        split
        · exact ⟨groupMerge_safe hI hE ⟨hc, rfl⟩, fun v b h => groupMerge_inv hI ⟨hc, rfl⟩ h⟩
        · exact ⟨messageMerge_safe hI hE ⟨hc, rfl⟩, fun v b h => messageMerge_inv hI ⟨hc, rfl⟩ h⟩
      refine inner.map ?_
      rintro m ⟨hm, hd⟩
      exact confVal_msg (f := f.elem) elem_card (by rw [hd]; exact hk') hm
    | _ => rw [hk'] at hk; cases hk
  · have hk' : f.kind.isMessage = false := by simpa using hk
    have hs := scalarOk_of_confVal (f := f.elem) hk' elem_card hv
    have hval : v.isValid f.kind = true := scalarOk_isValid hs
    have heq : singularMerge nested f v w b = scalarDec f.kind w b := by
      unfold singularMerge
      cases v with
      | msg d fs => 
        exfalso; cases hkk : f.kind <;> rw [hkk] at hval hk' <;> simp [Value.isValid] at hval
        cases hk'
      | _ => simp only [hval, if_true]
    rw [heq]
    exact ⟨scalarDec_safe hk' w b, fun v' r h =>
      confVal_scalar (f := f.elem) elem_card (scalarDec_ok h)⟩

theorem list_ok (hn : NestedOk S nested) {f : FieldDesc} (hf : FieldWf S f) {vs : List Value}
    (hv : confVals S f.elem vs = true) (w : WireType) (b : Bytes) :
    OkP (fun vs' => confVals S f.elem vs' = true) (listMerge S nested f vs w b) := by
  obtain ⟨v0, h0, hc0⟩ := kindDefault_conf hf
  unfold listMerge
  simp only [h0]
  have hpush : ∀ vs : List Value, confVals S f.elem vs = true → ∀ v, confVal S f.elem v = true →
      confVals S f.elem (vs ++ [v]) = true := by
    intro vs hvs v hv
    rw [confVals_iff] at *
    intro x hx
    rcases List.mem_append.1 hx with hx | hx
    · exact hvs x hx
    · rw [List.mem_singleton.1 hx]; exact hv
  split
  · have body : ∀ vs b, confVals S f.elem vs = true → OkP (fun vs' => confVals S f.elem vs' = true)
        (mapV (fun v => vs ++ [v]) (singularMerge nested f v0 f.kind.wireType b)) :=
      fun vs b hvs => (singular_ok hn f hc0 _ b).map (hpush vs hvs)
    refine ⟨mergeLoop_safe (I := fun vs' => confVals S f.elem vs' = true)
      (fun st b st' b' hi h => (body st b hi).2 st' b' h) (fun st b hi => (body st b hi).1) hv b, ?_⟩
    intro vs' r h
    exact mergeLoop_inv (I := fun vs' => confVals S f.elem vs' = true)
      (fun st b st' b' hi h => (body st b hi).2 st' b' h) hv h
  · exact (singular_ok hn f hc0 w b).map (hpush vs hv)

theorem entryValue_ok (hn : NestedOk S nested) {f : FieldDesc} (hc : f.card ≠ .repeated) {v : Value}
    (hv : confVal S f v = true) (w : WireType) (b : Bytes) :
    OkP (fun v' => confVal S f v' = true) (entryValueMerge S nested f v w b) := by
  have h3 : isList S f = false := isList_of_ne hc
  have h5 : isMap S f = false := isMap_of_ne hc
  have heq : entryValueMerge S nested f v w b = singularMerge nested f v w b := by
    cases v with
    | list vs => simp only [confVal, h3, Bool.false_and] at hv; cases hv
    | map kvs => simp only [confVal, h5, Bool.false_and] at hv; cases hv
    | _ => rfl
  rw [heq]
  rw [← confVal_elem hc] at hv
  exact ⟨(singular_ok hn f hv w b).1, fun v' r h =>
    (confVal_elem hc v').symm.trans ((singular_ok hn f hv w b).2 v' r h)⟩

theorem key_ok {f : FieldDesc} (hk : f.kind.isMessage = false) {k : MapKey}
    (hkd : ∃ k0, MapKey.default f.kind = some k0) (hv : keyOk f.kind k = true) (w : WireType)
    (b : Bytes) : OkP (fun k' => keyOk f.kind k' = true) (keyMerge f k w b) := by
  unfold keyMerge
  have hval : k.isValid f.kind = true := by
    rw [keyOk_eq _ hk] at hv
    rw [mapKey_isValid]; exact scalarOk_isValid hv
  rw [if_pos hval]
  obtain ⟨k0, hk0⟩ := hkd
  cases h : scalarDec f.kind w b with
  | error e => exact OkP.error (scalarDec_safe hk w b e h)
  | ok p =>
    obtain ⟨v, r⟩ := p
    have hs := scalarDec_ok h
    have : ∃ k', v.toMapKey = some k' ∧ k'.toValue = v := by
      cases hkind : f.kind <;> rw [hkind] at hk0 hs <;> first
        | (cases hk0; done)
        | (cases v <;> simp [scalarOk, Value.isValid, Value.toMapKey] at hs ⊢ <;> rfl)
    obtain ⟨k', hk', hv'⟩ := this
    simp only [hk']
    refine ⟨fun e he => (by cases he), fun k2 r2 h2 => ?_⟩
    cases h2
    rw [keyOk_eq _ hk, hv']; exact hs

theorem entryField_ok (hn : NestedOk S nested) (d : Nat) {kd vd : FieldDesc} {i : Nat}
    (hE : EntryOk S i kd vd) (kv : MapKey × Value) (n : Nat) (w : WireType) (b : Bytes)
    (h : keyOk kd.kind kv.1 = true ∧ confVal S vd kv.2 = true) :
    OkP (fun kv' : MapKey × Value => keyOk kd.kind kv'.1 = true ∧ confVal S vd kv'.2 = true)
      (entryField S d nested kd vd kv n w b) := by
  unfold entryField
  split
  · refine (key_ok ?_ hE.key.2.2.2 h.1 w b).map (fun k hk => ⟨hk, h.2⟩)
    obtain ⟨k0, hk0⟩ := hE.key.2.2.2
    cases hkk : kd.kind <;> rw [hkk] at hk0 <;> first | rfl | cases hk0
  · split
    · exact (entryValue_ok hn hE.val.2.2 h.2 w b).map (fun v hv => ⟨h.1, hv⟩)
    · split
      · rename_i e he; exact OkP.error (skipField_safe d w n b e he)
      · exact ⟨fun e he => (by cases he), fun kv' r h2 => by cases h2; exact h⟩

theorem mapDefault_keyOk {k : Kind} {k0 : MapKey} (h : MapKey.default k = some k0) :
    keyOk k k0 = true := by
  cases k <;> simp only [MapKey.default] at h <;> first | cases h; done | (cases h; rfl)

theorem map_ok (hS : S.wf = true) (hn : NestedOk S nested) (d : Nat) {kd vd : FieldDesc} {i : Nat}
    (hE : EntryOk S i kd vd) {kvs : List (MapKey × Value)}
    (hv : KMap.distinct kvs = true ∧ confMap S kd vd kvs = true) (b : Bytes) :
    OkP (fun kvs' => KMap.distinct kvs' = true ∧ confMap S kd vd kvs' = true)
      (mapMerge S d nested i kvs b) := by
  unfold mapMerge
  obtain ⟨k0, hk0⟩ := hE.key.2.2.2
  obtain ⟨v0, hv0, hc0⟩ := fieldDefault_conf hS hE.val.1
  simp only [hE.kv, hk0, hv0]
  let I : MapKey × Value → Prop := fun kv => keyOk kd.kind kv.1 = true ∧ confVal S vd kv.2 = true
  have h0 : I (k0, v0) := ⟨mapDefault_keyOk hk0, hc0⟩
  have hI : ∀ st b st' b', I st → keyThen (entryField S d nested kd vd) st b = .ok (st', b') → I st' :=
    fun st b st' b' hi h => keyThen_inv (I := I)
      (fun st n w b st' b' _ _ hi h => (entryField_ok hn d hE st n w b hi).2 st' b' h) hi h
  have hSf : ∀ st b, I st → Safe (keyThen (entryField S d nested kd vd) st b) :=
    fun st b hi => keyThen_safe (I := I)
      (fun st n w b _ _ hi => (entryField_ok hn d hE st n w b hi).1) b hi
  have : OkP I (mergeLoop (keyThen (entryField S d nested kd vd)) (k0, v0) b) :=
    ⟨mergeLoop_safe hI hSf h0 b, fun v r h => mergeLoop_inv hI h0 h⟩
  refine this.map ?_
  rintro ⟨k, v⟩ ⟨hk, hvv⟩
  refine ⟨KMap.distinct_insert _ _ _ hv.1, ?_⟩
  have hv2 := (confMap_iff kvs).1 hv.2
  rw [confMap_iff]
  intro p hp
  rcases KMap.mem_insert hp with rfl | hp
  · exact ⟨hk, hvv⟩
  · exact hv2 p hp

theorem value_ok (hS : S.wf = true) (hn : NestedOk S nested) (d : Nat) {f : FieldDesc}
    (hf : FieldWf S f) {v : Value} (hv : confVal S f v = true) (w : WireType) (b : Bytes) :
    OkP (fun v' => confVal S f v' = true) (valueMerge S d nested f v w b) := by
  by_cases hc : f.card = .repeated
  · cases v with
    | list vs =>
      simp only [confVal, Bool.and_eq_true] at hv
      simp only [valueMerge, hv.1, if_true]
      refine (list_ok hn hf hv.2 w b).map ?_
      intro vs' h
      simp only [confVal, Bool.and_eq_true]
      exact ⟨hv.1, h⟩
    | map kvs =>
      simp only [confVal, Bool.and_eq_true] at hv
      obtain ⟨hm, hv⟩ := hv
      obtain ⟨_, i, hi, he⟩ := isMap_iff.1 hm
      obtain ⟨kd, vd, hE⟩ := Schema.wf_entry hS he
      simp only [hi, hE.kv, Bool.and_eq_true] at hv
      simp only [valueMerge, hi, hm, if_true]
      refine (map_ok hS hn d hE hv b).map ?_
      intro kvs' h
      simp only [confVal, hm, hi, hE.kv, Bool.true_and, Bool.and_eq_true]
      exact h
    | _ => simp [confVal, hc] at hv
  · have h3 : isList S f = false := isList_of_ne hc
    have h5 : isMap S f = false := isMap_of_ne hc
    have heq : valueMerge S d nested f v w b = singularMerge nested f v w b := by
      cases v with
      | list vs => simp only [confVal, h3, Bool.false_and] at hv; cases hv
      | map kvs => simp only [confVal, h5, Bool.false_and] at hv; cases hv
      | _ => rfl
    rw [heq]
    rw [← confVal_elem hc] at hv
    exact ⟨(singular_ok hn f hv w b).1, fun v' r h =>
      (confVal_elem hc v').symm.trans ((singular_ok hn f hv w b).2 v' r h)⟩

theorem mergeField_ok (hS : S.wf = true) (hn : NestedOk S nested) (d : Nat) (m : DynMsg) (n : Nat)
    (w : WireType) (b : Bytes) (hn0 : 0 < n) (hn1 : n < 2 ^ 29) (hm : confMsg S m = true) :
    OkP (fun m' => confMsg S m' = true ∧ m'.desc = m.desc) (mergeField S d nested m n w b) := by
  obtain ⟨md, hC⟩ := confMsg_iff.1 hm
  have hw := Schema.wf_msg hS hC.desc
  unfold mergeField
  simp only [hC.desc]
  cases hf : md.getField n with
  | some f =>
    simp only
    obtain ⟨fs, v, hg, hcv, hwr, _⟩ := getMut_field hS hC hf
    unfold mergeInto
    simp only [hg]
    refine (value_ok hS hn d (hw.fields f (getField_mem hf).1) hcv w b).map ?_
    intro v' hv'
    refine ⟨?_, rfl⟩
    rw [hwr]
    exact confMsg_iff.2 ⟨md, hC.insert_field hS hf hv'⟩
  | none =>
    simp only
    cases he : md.getExtension n with
    | some f =>
      simp only
      obtain ⟨fs, v, hg, hcv, hwr, _⟩ := getMut_ext hS hC he
      unfold mergeInto
      simp only [hg]
      refine (value_ok hS hn d (hw.exts f (getExtension_mem he).1) hcv w b).map ?_
      intro v' hv'
      refine ⟨?_, rfl⟩
      rw [hwr]
      exact confMsg_iff.2 ⟨md, hC.insert_ext hS he hv'⟩
    | none =>
      simp only
      cases hu : decUVal d n w b with
      | error e => exact OkP.error (decUVal_safe d n w b e hu)
      | ok p =>
        obtain ⟨u, r⟩ := p
        obtain ⟨hwf, _, _⟩ := decUVal_ok d n w b u r hu
        have hone := unknownOk_single ⟨hn0, hn1⟩ hwf
        simp only
        unfold FieldSet.addUnknown
        rcases hC.unknown_or hf he with h | h | ⟨us, h, hus⟩
        · simp only [h]
          refine ⟨fun e he => (by cases he), fun m' r' h' => ?_⟩
          cases h'
          exact ⟨confMsg_iff.2 ⟨md, hC.insert_unknown hS hn0 hf he hone⟩, rfl⟩
        · simp only [h]
          refine ⟨fun e he => (by cases he), fun m' r' h' => ?_⟩
          cases h'
          exact ⟨confMsg_iff.2 ⟨md, hC.insert_unknown hS hn0 hf he hone⟩, rfl⟩
        · simp only [h]
          refine ⟨fun e he => (by cases he), fun m' r' h' => ?_⟩
          cases h'
          exact ⟨confMsg_iff.2 ⟨md, hC.insert_unknown hS hn0 hf he
            (unknownOk_append hus hone)⟩, rfl⟩

end

/-- One field: conformance is preserved, no panic. -/
theorem msgMerge_ok {S : Schema} (hS : S.wf = true) (d : Nat) : ∀ m n w b, 0 < n → n < 2 ^ 29 →
    confMsg S m = true →
    OkP (fun m' => confMsg S m' = true ∧ m'.desc = m.desc) (msgMerge S d m n w b) := by
  induction d with
  | zero =>
    intro m n w b h0 h1 hm
    exact mergeField_ok hS (by intro g hg; cases hg) 0 m n w b h0 h1 hm
  | succ d ih =>
    intro m n w b h0 h1 hm
    exact mergeField_ok hS (by intro g hg; cases hg; exact ih) (d + 1) m n w b h0 h1 hm

theorem nestedAt_ok {S : Schema} (hS : S.wf = true) (d : Nat) : NestedOk S (nestedAt S d) := by
  intro g hg
  cases d with
  | zero => cases hg
  | succ d => cases hg; exact msgMerge_ok hS d

/-- A whole buffer. -/
theorem mergeAll_ok {S : Schema} (hS : S.wf = true) (d : Nat) {m : DynMsg}
    (hm : confMsg S m = true) (b : Bytes) :
    OkP (fun m' => confMsg S m' = true ∧ m'.desc = m.desc) (mergeAll (msgMerge S d) m b) := by
  let I : DynMsg → Prop := fun m' => confMsg S m' = true ∧ m'.desc = m.desc
  have hI : ∀ st b st' b', I st → keyThen (msgMerge S d) st b = .ok (st', b') → I st' :=
    fun st b st' b' hi h => keyThen_inv (I := I)
      (fun st n w b st' b' h0 h1 hi h => by
        have := (msgMerge_ok hS d st n w b h0 h1 hi.1).2 st' b' h
        exact ⟨this.1, this.2.trans hi.2⟩) hi h
  have hSf : ∀ st b, I st → Safe (keyThen (msgMerge S d) st b) :=
    fun st b hi => keyThen_safe (I := I)
      (fun st n w b h0 h1 hi => (msgMerge_ok hS d st n w b h0 h1 hi.1).1) b hi
  exact ⟨loopTo_safe hI hSf 0 _ _ _ ⟨hm, rfl⟩, fun v r h => loopTo_inv hI 0 _ _ _ _ _ ⟨hm, rfl⟩ h⟩

/-- Decoding a well-formed or malformed buffer into a conforming message: an ordinary
error or a conforming message of the same type. -/
theorem merge_ok {S : Schema} (hS : S.wf = true) {m : DynMsg} (hm : confMsg S m = true) (b : Bytes) :
    Safe (merge S m b) ∧ ∀ m', merge S m b = .ok m' → confMsg S m' = true ∧ m'.desc = m.desc := by
  have h := mergeAll_ok hS recursionLimit hm b
  unfold merge
  cases hr : mergeAll (msgMerge S recursionLimit) m b with
  | error e => exact ⟨fun e' he => (by cases he; exact h.1 e hr), fun m' hm' => by cases hm'⟩
  | ok p =>
    obtain ⟨m1, r⟩ := p
    exact ⟨fun e' he => (by cases he), fun m' hm' => by cases hm'; exact h.2 _ _ hr⟩

/-- The decoder never runs out of fuel. -/
theorem merge_ne_fuel (S : Schema) (m : DynMsg) (b : Bytes) : merge S m b ≠ .error .fuel := by
  unfold merge
  intro h
  cases hr : mergeAll (msgMerge S recursionLimit) m b with
  | error e =>
    rw [hr] at h; cases h
    exact loopTo_noFuel (keyThen_noFuel (noFuel_msgMerge S _)) (keyThen_strict (good_msgMerge S _))
      _ _ _ _ (by omega) hr
  | ok p => rw [hr] at h; cases h

end Verif.Dyn
