import Verif.Json.Safe
import Verif.Dyn.IterTotal
/-!
Writing a conforming message as JSON yields JSON or an error, never a panic.
-/
set_option autoImplicit false
namespace Verif.Json
open Verif.Wire Verif.Dyn Verif.Pool

section
variable {S : Schema} {o : SOpts} {env : JEnv}

theorem iter_total (hS : S.wf = true) {d : Nat} {md : MsgDesc} (hd : S.msg? d = some md) (incl : Bool)
    (fs : FieldSet) : ∃ its, iter S md incl fs = some its := by
  have hw := Schema.wf_msg hS hd
  have hO := order_num hw.nodup (fun f hf => (hw.fields f hf).num.1)
  obtain ⟨a, ha⟩ := iterFieldPart_total hS incl fs md.fieldsByNumber
    (fun p hp => hw.fields p.2 ((hO.mem p.2).2 ⟨p.1, hp⟩))
  obtain ⟨b, hb⟩ := iterExtPart_total hw.exts fs
  exact ⟨a ++ b, by simp [iter, ha, hb]⟩

theorem iter_listing (hS : S.wf = true) {d : Nat} {md : MsgDesc} {fs : FieldSet} (hC : Conf S ⟨d, fs⟩ md)
    {incl : Bool} {its : List Item} (h : iter S md incl fs = some its) :
    Listing S d md fs (its.filterMap Item.ent) := by
  have hw := Schema.wf_msg hS hC.desc
  have hO := order_num hw.nodup (fun f hf => (hw.fields f hf).num.1)
  unfold iter at h
  split at h
  · rename_i a b ha hb
    cases h
    exact listing hS hC hO ha hb
  · cases h

theorem strOf_sound {b : Bytes} (h : utf8Valid b = true) : Sound false (fun _ => True) (strOf b) := by
  obtain ⟨s, rfl⟩ := (utf8Valid_iff b).1 h
  unfold strOf
  rw [utf8Decode_encode]
  trivial

theorem str_conf {f : FieldDesc} {b : Bytes} (h : confVal S f (.str b) = true) : utf8Valid b = true := by
  simp only [confVal, Bool.and_eq_true] at h
  have := h.2
  cases hk : f.kind <;> rw [hk] at this <;> simp [scalarOk, Value.isValid] at this
  exact this

theorem serScalar_sound {f : FieldDesc} (hf : kindOk S f.kind = true) (hm : f.kind.isMessage = false)
    (hc : f.card ≠ .repeated) {v : Value} (hv : confVal S f v = true) :
    Sound false (fun _ => True) (serScalar env S o f.kind v) := by
  have hs := scalarOk_of_confVal hm hc hv
  cases v with
  | str b =>
    exact (strOf_sound (str_conf hv)).map (fun _ h => h)
  | enum n =>
    cases hk : f.kind with
    | enum e =>
      rw [hk] at hf
      obtain ⟨ed, hed⟩ := enum_some hf
      simp only [serScalar, serEnum, hed]
      repeat' split
      all_goals trivial
    | _ => rw [hk] at hs; simp [scalarOk, Value.isValid] at hs
  | msg | list | map =>
    cases hk : f.kind <;> rw [hk] at hs <;> simp [scalarOk, Value.isValid] at hs
  | _ => trivial

theorem serKey_sound {kd : FieldDesc} {k : MapKey} (h : keyOk kd.kind k = true) :
    Sound false (fun _ => True) (serKey k) := by
  cases k with
  | str b =>
    simp only [keyOk, Bool.and_eq_true] at h
    exact strOf_sound h.2
  | _ => trivial

theorem mapKind_eq {i : Nat} {kd vd : FieldDesc} (hE : EntryOk S i kd vd) (hm : S.isMapEntry i = true) :
    mapKind S (.message i) = .ok vd.kind := by
  have h2 := (mapKV_some hE.kv).2
  simp only [mapKind, hm, if_true, h2]

/-- Writing the values inside does not panic. -/
def SerOk (S : Schema) (val : Kind → Value → Except JErr Json) : Prop :=
  ∀ f v, kindOk S f.kind = true → confVal S f v = true → Sound false (fun _ => True) (val f.kind v)

theorem serFields_sound (hS : S.wf = true) {val : Kind → Value → Except JErr Json} (hv : SerOk S val)
    {d : Nat} {md : MsgDesc} {fs : FieldSet} (hC : Conf S ⟨d, fs⟩ md) :
    Sound false (fun _ => True) (serFields S o val md fs) := by
  obtain ⟨its, hits⟩ := iter_total hS hC.desc (!o.skipDefault) fs
  have hL := iter_listing hS hC hits
  have hw := Schema.wf_msg hS hC.desc
  unfold serFields
  rw [hits]
  simp only
  refine (mapE_sound (P := fun _ => True) (fun it hit => ?_)).map (fun _ _ => trivial)
  have one : ∀ e, it.ent = some e → kindOk S e.f.kind = true ∧ confVal S e.f e.v = true := by
    intro e he
    have hm : e ∈ its.filterMap Item.ent := List.mem_filterMap.2 ⟨it, hit, he⟩
    have hl := hL.look e hm
    refine ⟨?_, hL.conf e hm⟩
    split at hl
    · exact (hw.exts e.f (getExtension_mem hl).1).kind
    · exact (hw.fields e.f (getField_mem hl).1).kind
  cases it with
  | field f v =>
    have := one _ rfl
    exact (hv f v this.1 this.2).map (fun _ _ => trivial)
  | ext f v =>
    have := one _ rfl
    exact (hv f v this.1 this.2).map (fun _ _ => trivial)
  | unknown u => trivial

/-! ### Standard messages -/

theorem std_value {d n : Nat} {fs : FieldSet} {md : MsgDesc} (hC : Conf stdSchema ⟨d, fs⟩ md) {f : FieldDesc}
    (hf : md.getField n = some f) {v : Value} (hv : FieldSet.getValue fs n = some v) :
    confVal stdSchema f v = true := hC.getValue_conf hf hv

theorem isValue_of {f : FieldDesc} (hk : f.kind = .message Wkt.value.std) (hc : f.card ≠ .repeated) {v : Value}
    (h : confVal stdSchema f v = true) : IsValue v := msg_of_confVal hk hc h

theorem serStruct_sound {val : Value → Except JErr Json} (hv : ∀ v, IsValue v → Sound false (fun _ => True) (val v))
    {fs : FieldSet} (h : confMsg stdSchema ⟨Wkt.struct.std, fs⟩ = true) :
    Sound false (fun _ => True) (serStruct val fs) := by
  obtain ⟨md, hC⟩ := confMsg_iff.1 h
  have hd := hC.desc
  cases hd
  unfold serStruct
  split
  · rename_i kvs hg
    have hc := std_value hC (f := stdField 1 "fields" (.message 4) .repeated false none) rfl hg
    have hkv : stdSchema.mapKV 4 = some (stdField 1 "key" .string .optional false none,
      stdField 2 "value" (.message 5) .optional true none) := rfl
    simp only [confVal, Bool.and_eq_true] at hc
    have hc2 := hc.2
    simp only [stdField] at hc2 hkv
    rw [hkv] at hc2
    simp only [Bool.and_eq_true, confMap_iff] at hc2
    refine (mapE_sound (P := fun _ => True) (fun p hp => ?_)).map (fun _ _ => trivial)
    obtain ⟨h1, h2⟩ := hc2.2 p hp
    obtain ⟨key, v⟩ := p
    have hval := hv v (isValue_of rfl (by intro h; cases h) h2)
    unfold stdEntry
    cases key with
    | str b =>
      simp only [keyOk, Bool.and_eq_true] at h1
      have hs := strOf_sound h1.2
      simp only
      split
      · rename_i e he; exact hs.error he
      · split
        · rename_i e he; exact hval.error he
        · trivial
    | bool | i32 | i64 | u32 | u64 => cases h1
  · trivial

theorem serList_sound {val : Value → Except JErr Json} (hv : ∀ v, IsValue v → Sound false (fun _ => True) (val v))
    {fs : FieldSet} (h : confMsg stdSchema ⟨Wkt.list.std, fs⟩ = true) :
    Sound false (fun _ => True) (serList val fs) := by
  obtain ⟨md, hC⟩ := confMsg_iff.1 h
  have hd := hC.desc
  cases hd
  unfold serList
  split
  · rename_i vs hg
    have hc := std_value hC (f := stdField 1 "values" (.message 5) .repeated false none) rfl hg
    simp only [confVal, Bool.and_eq_true, confVals_iff] at hc
    refine (mapE_sound (P := fun _ => True) (fun v hm => ?_)).map (fun _ _ => trivial)
    exact hv v (isValue_of rfl elem_card (hc.2 v hm))
  · trivial

theorem serValue_sound : (k : Nat) → (v : Value) → IsValue v → Sound false (fun _ => True) (serValue k v)
  | 0, _, _ => ⟨nofun, nofun⟩
  | k + 1, v, hv => by
    obtain ⟨fs, rfl, h⟩ := hv
    obtain ⟨md, hC⟩ := confMsg_iff.1 h
    have hd := hC.desc
    cases hd
    unfold serValue
    split
    · split
      · trivial
      · exact sound_err
    · exact (strOf_sound (str_conf (std_value hC (n := 3) rfl (by assumption)))).map (fun _ h => h)
    · trivial
    · have := std_value hC (n := 5) (f := stdField 5 "struct_value" (.message 3) .optional true (some 0)) rfl (by assumption)
      obtain ⟨-, hk, hc⟩ := confMsg_of_confVal this
      cases hk
      exact serStruct_sound (serValue_sound k) hc
    · have := std_value hC (n := 6) (f := stdField 6 "list_value" (.message 6) .optional true (some 0)) rfl (by assumption)
      obtain ⟨-, hk, hc⟩ := confMsg_of_confVal this
      cases hk
      exact serList_sound (serValue_sound k) hc
    · trivial

theorem stdStr_sound {d n : Nat} {fs : FieldSet} {md : MsgDesc} (hC : Conf stdSchema ⟨d, fs⟩ md) {f : FieldDesc}
    (hf : md.getField n = some f) : Sound false (fun _ => True) (strOf (stdStr fs n)) := by
  unfold stdStr
  split
  · rename_i b hb
    exact strOf_sound (str_conf (std_value hC hf hb))
  · exact strOf_sound rfl

theorem serStd_sound (k : Nat) {w : Wkt} (hw : w ≠ .any) {fs : FieldSet}
    (h : confMsg stdSchema ⟨w.std, fs⟩ = true) : Sound false (fun _ => True) (serStd env o k fs w) := by
  cases w with
  | any => exact absurd rfl hw
  | timestamp | duration =>
    simp only [serStd]
    split
    · trivial
    · exact sound_err
  | string =>
    obtain ⟨md, hC⟩ := confMsg_iff.1 h
    have hd := hC.desc
    cases hd
    exact (stdStr_sound hC rfl).map (fun _ h => h)
  | fieldMask =>
    obtain ⟨md, hC⟩ := confMsg_iff.1 h
    have hd := hC.desc
    cases hd
    have h1 : Sound false (fun _ => True) (mapE strVal (stdList fs 1)) := by
      refine (mapE_sound (P := fun _ => True) (fun v hm => ?_)).imp (fun _ _ => trivial)
      unfold stdList at hm
      split at hm
      · rename_i vs hg
        have hc := std_value hC (f := stdField 1 "paths" .string .repeated false none) rfl hg
        simp only [confVal, Bool.and_eq_true, confVals_iff] at hc
        have := hc.2 v hm
        have hs := scalarOk_of_confVal (f := (stdField 1 "paths" .string .repeated false none).elem) rfl elem_card this
        cases v <;> first
          | exact strOf_sound (str_conf this)
          | (exfalso; simp [scalarOk, Value.isValid, FieldDesc.elem, stdField] at hs; done)
      · cases hm
    simp only [serStd]
    split
    · rename_i e he; exact h1.error he
    · split
      · trivial
      · exact sound_err
  | struct => exact serStruct_sound (serValue_sound k) h
  | list => exact serList_sound (serValue_sound k) h
  | value => exact serValue_sound (k + 1) _ ⟨fs, rfl, h⟩
  | _ => trivial

theorem transcodeTo_sound (hS : S.wf = true) {m : DynMsg} (hm : confMsg S m = true) {w : Wkt} {md : MsgDesc}
    (hw : stdSchema.msg? w.std = some md) :
    Sound false (fun fs => confMsg stdSchema ⟨w.std, fs⟩ = true) (transcodeTo S w m) := by
  unfold transcodeTo
  obtain ⟨b, hb⟩ := (encMsg_total hS _ (confMsg_accepted hS hm)).1
  rw [hb]
  have hmg := merge_ok stdSchema_wf (confMsg_iff.2 ⟨md, Conf.empty hw⟩) b
  have h := ofDecode_sound (st := false) hmg.1 hmg.2
  show Sound _ _ (match ofDecode (decode stdSchema w.std b) with
    | .error e => .error e
    | .ok m' => if levelsSlots m'.fields ≤ recursionLimit then .ok m'.fields else .error .err)
  split
  · rename_i e he; exact h.error he
  · rename_i m' hm'
    have hm' := h.ok hm'
    split
    · obtain ⟨d, fs⟩ := m'
      have := hm'.2
      simp only at this
      subst this
      exact hm'.1
    · exact sound_err

theorem serAny_sound (hS : S.wf = true) {val : Kind → Value → Except JErr Json} (hv : SerOk S val)
    {m : DynMsg} (hm : confMsg S m = true) : Sound false (fun _ => True) (serAny S o val m) := by
  have h1 := transcodeTo_sound hS hm (w := .any) rfl
  unfold serAny
  split
  · rename_i e he; exact h1.error he
  · rename_i raw hraw
    obtain ⟨md, hC⟩ := confMsg_iff.1 (h1.ok hraw)
    have hd := hC.desc
    cases hd
    have h2 := stdStr_sound hC (n := 1) rfl
    split
    · rename_i e he; exact h2.error he
    · split
      · exact sound_err
      · rename_i n hn
        split
        · exact sound_err
        · rename_i d hd
          obtain ⟨md, hmd⟩ : ∃ md, S.msg? d = some md := by
            have := (List.findIdx?_eq_some_iff_getElem.1 hd).1
            exact ⟨S.msgs[d], by simp [Schema.msg?, this]⟩
          have hdec := merge_ok hS (confMsg_iff.2 ⟨md, Conf.empty hmd⟩) (stdBytes raw 2)
          have h3 := ofDecode_sound (st := false) hdec.1 hdec.2
          split
          · rename_i e he; exact h3.error he
          · rename_i p hp
            have hpc := h3.ok hp
            simp only at hpc
            split
            · have hk : kindOk S (.message d) = true := by simp [kindOk, hmd]
              exact (hv (plainField (.message d)) p.toValue hk
                (confVal_msg nofun (by rw [hpc.2]; rfl) hpc.1)).map (fun _ _ => trivial)
            · rw [hmd]
              obtain ⟨d', fs⟩ := p
              have := hpc.2
              subst this
              obtain ⟨md', hC'⟩ := confMsg_iff.1 hpc.1
              have := hC'.desc
              simp only at this
              rw [hmd] at this
              cases this
              exact (serFields_sound hS hv hC').map (fun _ _ => trivial)

theorem wkt_std (w : Wkt) : ∃ md, stdSchema.msg? w.std = some md := by
  cases w <;> exact ⟨_, rfl⟩

theorem serMsg_sound (hS : S.wf = true) {k : Nat} {val : Kind → Value → Except JErr Json} (hv : SerOk S val)
    {m : DynMsg} (hm : confMsg S m = true) : Sound false (fun _ => True) (serMsg env S o k val m) := by
  obtain ⟨md, hC⟩ := confMsg_iff.1 hm
  unfold serMsg
  rw [hC.desc]
  simp only
  split
  · exact serAny_sound hS hv hm
  · trivial
  · rename_i w hne _ hw
    obtain ⟨wd, hwd⟩ := wkt_std w
    have h1 := transcodeTo_sound hS hm hwd
    split
    · rename_i e he; exact h1.error he
    · rename_i fs hfs
      exact serStd_sound k (fun e => hne (by rw [e])) (h1.ok hfs)
  · exact (serFields_sound hS hv hC).map (fun _ _ => trivial)

theorem serVal_sound (hS : S.wf = true) (k : Nat) : SerOk S (serVal env S o k) := by
  induction k with
  | zero => intro f v _ _; exact ⟨nofun, nofun⟩
  | succ k ih =>
    intro f v hf hv
    have scalar : (∀ d fs, v ≠ .msg d fs) → (∀ vs, v ≠ .list vs) → (∀ kvs, v ≠ .map kvs) →
        Sound false (fun _ => True) (serScalar env S o f.kind v) := by
      intro h1 h2 h3
      have hc : f.card ≠ .repeated := by
        cases v <;> first
          | exact absurd rfl (h1 _ _)
          | exact absurd rfl (h2 _)
          | exact absurd rfl (h3 _)
          | (simp only [confVal, Bool.and_eq_true, bne_iff_ne] at hv; exact hv.1)
      have hm : f.kind.isMessage = false := by
        cases hk : f.kind with
        | message i =>
          obtain ⟨fs, e, _⟩ := msg_of_confVal hk hc hv
          exact absurd e (h1 _ _)
        | _ => rfl
      exact serScalar_sound hf hm hc hv
    cases v with
    | msg d fs => exact serMsg_sound hS ih (confMsg_of_confVal hv).2.2
    | list vs =>
      simp only [confVal, Bool.and_eq_true, confVals_iff] at hv
      refine (mapE_sound (P := fun _ => True) (fun x hx => ?_)).map (fun _ _ => trivial)
      exact ih f.elem x hf (hv.2 x hx)
    | map kvs =>
      simp only [confVal, Bool.and_eq_true] at hv
      obtain ⟨hc, i, hi, he⟩ := isMap_iff.1 hv.1
      obtain ⟨kd, vd, hE⟩ := Schema.wf_entry hS he
      have hv2 := hv.2
      rw [hi] at hv2
      simp only [hE.kv, Bool.and_eq_true, confMap_iff] at hv2
      unfold serVal
      rw [hi, mapKind_eq hE he]
      simp only
      refine (mapE_sound (P := fun _ => True) (fun p hp => ?_)).map (fun _ _ => trivial)
      obtain ⟨h1, h2⟩ := hv2.2 p hp
      have hk := serKey_sound (kd := kd) h1
      have hval := ih vd p.2 hE.val.1.kind h2
      unfold serEntry
      split
      · rename_i e he; exact hk.error he
      · split
        · rename_i e he; exact hval.error he
        · trivial
    | _ => exact scalar nofun nofun nofun

theorem toJson_sound (hS : S.wf = true) (k : Nat) {m : DynMsg} (hm : confMsg S m = true) :
    Sound false (fun _ => True) (toJson env S o k m) :=
  serMsg_sound hS (serVal_sound hS k) hm

end

end Verif.Json
