import Verif.Json.Sound
/-!
Reading JSON yields a message that the setters accept or an error, never a panic.
-/
set_option autoImplicit false
namespace Verif.Json
open Verif.Wire Verif.Dyn Verif.Pool

/-! ### What the setters accept -/

/-- What one slot must hold. -/
def acceptedSlot (S : Schema) (d : Nat) : Nat × Slot → Bool
  | (_, .taken) => true
  | (_, .unknown u) => USet.wf u
  | (n, .val v) =>
    (match S.field? d n with
      | some f => validFor S f v == some true
      | none => true) &&
    (match S.ext? d n with
      | some f => validFor S f v == some true
      | none => true) && acceptedIn S v

theorem acceptedSlots_iff {S : Schema} {d : Nat} : ∀ {fs : FieldSet}, acceptedSlots S d fs = true ↔
    ∀ p ∈ fs, acceptedSlot S d p = true
  | [] => by simp [acceptedSlots]
  | (n, s) :: r => by
    have := acceptedSlots_iff (S := S) (d := d) (fs := r)
    have e : acceptedSlots S d ((n, s) :: r) = (acceptedSlot S d (n, s) && acceptedSlots S d r) := by
      cases s with
      | taken => simp only [acceptedSlots, acceptedSlot, Bool.true_and]
      | unknown u => simp only [acceptedSlots, acceptedSlot]
      | val v =>
        simp only [acceptedSlots, acceptedSlot]
        cases S.field? d n <;> cases S.ext? d n <;> rfl
    rw [e, Bool.and_eq_true, List.forall_mem_cons, this]

theorem acceptedVals_iff {S : Schema} : ∀ {vs : List Value}, acceptedVals S vs = true ↔
    ∀ v ∈ vs, acceptedIn S v = true
  | [] => by simp [acceptedVals]
  | v :: r => by simp only [acceptedVals, Bool.and_eq_true, List.forall_mem_cons, acceptedVals_iff (vs := r)]

theorem acceptedMap_iff {S : Schema} : ∀ {vs : List (MapKey × Value)}, acceptedMap S vs = true ↔
    ∀ p ∈ vs, acceptedIn S p.2 = true
  | [] => by simp [acceptedMap]
  | (k, v) :: r => by
    simp only [acceptedMap, Bool.and_eq_true, List.forall_mem_cons, acceptedMap_iff (vs := r)]

theorem validMap_iff {S : Schema} {kd vd : FieldDesc} : ∀ {vs : List (MapKey × Value)},
    validMap S kd vd vs = some true ↔
      ∀ p ∈ vs, p.1.isValid kd.kind = true ∧ validFor S vd p.2 = some true
  | [] => by simp [validMap]
  | (k, v) :: r => by
    simp only [validMap, List.forall_mem_cons, ← validMap_iff (vs := r)]
    cases hk : k.isValid kd.kind with
    | false => simp
    | true =>
      simp only [if_true, true_and]
      cases hv : validFor S vd v with
      | none => simp
      | some b => cases b <;> simp

/-- The value is valid for the field and accepted inside. -/
def AccOk (S : Schema) (f : FieldDesc) (v : Value) : Prop := validFor S f v = some true ∧ acceptedIn S v = true

/-- A message accepted by the setters, of the type `d`. -/
def AccMsg (S : Schema) (d : Nat) (m : DynMsg) : Prop := accepted S m = true ∧ m.desc = d

section
variable {S : Schema} {st : Bool} {o : DOpts} {env : JEnv}

theorem AccMsg.empty (d : Nat) : AccMsg S d (DynMsg.empty d) := ⟨rfl, rfl⟩

theorem AccMsg.msg {d : Nat} {m : DynMsg} (h : AccMsg S d m) {md : MsgDesc} (hd : S.msg? d = some md)
    {f : FieldDesc} (hf : f.kind = .message d) : AccOk S f (.msg m.desc m.fields) := by
  obtain ⟨h1, h2⟩ := h
  refine ⟨validFor_of_isValid (by rw [h2, hf]; simp [Value.isValid]), ?_⟩
  simp only [acceptedIn, Bool.and_eq_true]
  exact ⟨by rw [h2, hd]; rfl, h1⟩

theorem scalarOk_acc {k : Kind} {v : Value} (h : scalarOk k v = true) {f : FieldDesc} (hf : f.kind = k) :
    AccOk S f v := by
  refine ⟨validFor_of_isValid (hf ▸ scalarOk_isValid h), ?_⟩
  cases v with
  | msg => cases k <;> simp [scalarOk, Value.isValid] at h
  | list => cases k <;> simp [scalarOk, Value.isValid] at h
  | map => cases k <;> simp [scalarOk, Value.isValid] at h
  | _ => rfl

theorem AccOk.elem {f : FieldDesc} {v : Value} (h : AccOk S f.elem v) : v.isValid f.kind = true := by
  obtain ⟨h1, _⟩ := h
  have h3 : isList S f.elem = false := isList_of_ne elem_card
  have h5 : isMap S f.elem = false := isMap_of_ne elem_card
  cases v with
  | list vs => simp [validFor, h3] at h1
  | map vs =>
    simp only [validFor, h5] at h1
    split at h1 <;> simp at h1
  | _ =>
    simp only [validFor, Option.some.injEq] at h1
    exact h1

theorem AccMsg.insert_field (hS : S.wf = true) {d : Nat} {md : MsgDesc} (hd : S.msg? d = some md) {m : DynMsg}
    (h : AccMsg S d m) {f : FieldDesc} (hf : f ∈ md.fields) {v : Value} (hv : AccOk S f v) (ns : List Nat) :
    AccMsg S d ⟨m.desc, SMap.insert f.number (.val v) (FieldSet.clearAll ns m.fields)⟩ := by
  obtain ⟨h1, h2⟩ := h
  have hw := Schema.wf_msg hS hd
  have hg := getField_of_mem hw.nodup hf
  refine ⟨?_, h2⟩
  simp only [accepted] at h1 ⊢
  rw [acceptedSlots_iff] at h1 ⊢
  intro p hp
  rcases SMap.mem_insert hp with rfl | hp
  · have he : S.ext? d f.number = none := by
      cases he : S.ext? d f.number with
      | none => rfl
      | some g =>
        have := (Schema.wf_ext hS he).2.2.1
        rw [field?_eq hd, hg] at this; cases this
    simp only [acceptedSlot, h2, field?_eq hd, hg, he, hv.1, hv.2, beq_self_eq_true, Bool.and_self]
  · exact h1 p (mem_clearAll hp)

theorem AccMsg.insert_ext (hS : S.wf = true) {d : Nat} {md : MsgDesc} (hd : S.msg? d = some md) {m : DynMsg}
    (h : AccMsg S d m) {n : Nat} {f : FieldDesc} (hf : md.getExtension n = some f) {v : Value} (hv : AccOk S f v) :
    AccMsg S d ⟨m.desc, SMap.insert n (.val v) m.fields⟩ := by
  obtain ⟨h1, h2⟩ := h
  have hw := Schema.wf_msg hS hd
  obtain ⟨hmem, hn⟩ := getExtension_mem hf
  have hnone : md.getField n = none := hn ▸ (hw.extNew f hmem).1
  refine ⟨?_, h2⟩
  simp only [accepted] at h1 ⊢
  rw [acceptedSlots_iff] at h1 ⊢
  intro p hp
  rcases SMap.mem_insert hp with rfl | hp
  · simp only [acceptedSlot, h2, field?_eq hd, ext?_eq hd, hf, hnone, hv.1, hv.2, beq_self_eq_true, Bool.and_self]
  · exact h1 p hp

/-! ### Reading -/

/-- A value read for a field: it is accepted, and a message field always gets one. -/
def ReadA (S : Schema) (f : FieldDesc) (r : Option Value) : Prop :=
  (∀ v, r = some v → AccOk S f v) ∧
  (f.card ≠ .repeated → ∀ d, f.kind = .message d → ∃ fs, r = some (.msg d fs))

/-- Reading the values inside is sound for values no deeper than `L`. -/
def SubOkA (S : Schema) (st : Bool) (L : Nat) (val : FieldDesc → Json → Except JErr (Option Value)) : Prop :=
  ∀ f j, FieldWf S f → (st = true → j.depth ≤ L) → Sound st (ReadA S f) (val f j)

theorem deNull_acc (hS : S.wf = true) {f : FieldDesc} (hf : FieldWf S f) :
    Sound st (fun r => ∀ v, r = some v → AccOk S f v) (deNull S f) := by
  unfold deNull
  split
  · rename_i d hk
    have := hf.kind
    rw [hk] at this
    obtain ⟨md, hmd⟩ := Option.isSome_iff_exists.1 this
    rw [hmd]
    simp only
    split
    · refine (makeMsg_sound hS hmd (wrap_conf (w := .value) (v := .enum 0) rfl rfl rfl)).map
        (fun m hm v hv => ?_)
      cases hv
      exact AccMsg.msg ⟨confMsg_accepted hS hm.1, hm.2⟩ hmd hk
    · intro v hv; cases hv
  · rename_i e hk
    have := hf.kind
    rw [hk] at this
    obtain ⟨ed, hed⟩ := enum_some this
    rw [hed]
    simp only
    split
    · intro v hv
      cases hv
      exact scalarOk_acc (k := .enum e) rfl hk
    · intro v hv; cases hv
  · intro v hv; cases hv

theorem deOpt_acc (hS : S.wf = true) {L : Nat} {val : FieldDesc → Json → Except JErr (Option Value)}
    (hv : SubOkA S st L val) {f : FieldDesc} (hf : FieldWf S f) {j : Json} (hj : st = true → j.depth ≤ L) :
    Sound st (fun r => ∀ v, r = some v → AccOk S f v) (deOpt S val f j) := by
  unfold deOpt
  split
  · exact deNull_acc hS hf
  · exact (hv f j hf hj).imp (fun r hr => hr.1)

theorem deEntry_acc (hS : S.wf = true) (hJ : extsApart S = true) {L : Nat}
    {val : FieldDesc → Json → Except JErr (Option Value)} (hv : SubOkA S st L val) {d : Nat} {md : MsgDesc}
    (hd : S.msg? d = some md) {m : DynMsg} (hC : AccMsg S d m) (key : Name) {j : Json}
    (hj : st = true → j.depth ≤ L) : Sound st (AccMsg S d) (deEntry S o val md m key j) := by
  have hw := Schema.wf_msg hS hd
  unfold deEntry
  split
  · rename_i f hf
    have hm := keyField_mem hf
    have hs := deOpt_acc hS hv (hw.fields f hm) hj
    split
    · rename_i e he; exact hs.error he
    · exact hC
    · rename_i v hvv
      have hcv := hs.ok hvv v rfl
      obtain ⟨b, hb⟩ := Text.anyHas_total (S := S) (mem := Text.oneofMembers md f) (fun g hg => by
        unfold Text.oneofMembers at hg
        split at hg
        · cases hg
        · exact hw.fields g (List.mem_filter.1 hg).1) m.fields
      rw [hb]
      cases b with
      | true => exact sound_err
      | false =>
        simp only
        have hset : DynMsg.setField S md m f v =
            some ⟨m.desc, FieldSet.set (siblings md f) m.fields f v⟩ := by
          simp only [DynMsg.setField, DynMsg.trySetField, hcv.1]
        rw [hset]
        exact AccMsg.insert_field hS hd hC hm hcv _
  · split
    · rename_i f hf
      have hm : f ∈ md.extensions := List.mem_of_find?_eq_some hf
      have hs := deOpt_acc hS hv (hw.exts f hm) hj
      split
      · rename_i e he; exact hs.error he
      · exact hC
      · rename_i v hvv
        exact AccMsg.insert_ext hS hd hC (extsApart_ext hJ hd hm) (hs.ok hvv v rfl)
    · split
      · exact sound_err
      · exact hC

theorem deEntries_acc (hS : S.wf = true) (hJ : extsApart S = true) {L : Nat}
    {val : FieldDesc → Json → Except JErr (Option Value)} (hv : SubOkA S st L val) {d : Nat} {md : MsgDesc}
    (hd : S.msg? d = some md) : {es : List (Name × Json)} →
    (∀ p ∈ es, st = true → p.2.depth ≤ L) → {m : DynMsg} → AccMsg S d m →
    Sound st (AccMsg S d) (deEntries S o val md m es)
  | [], _, m, hC => hC
  | (key, j) :: r, h, m, hC => by
    have h1 := deEntry_acc (o := o) hS hJ hv hd hC key (h (key, j) (by simp))
    unfold deEntries
    split
    · rename_i e he; exact h1.error he
    · rename_i m' hm'
      exact deEntries_acc hS hJ hv hd (es := r) (fun p hp => h p (by simp [hp])) (h1.ok hm')

theorem anyPayload_acc (hS : S.wf = true) (hJ : extsApart S = true) (hO : OrderOk env) {L : Nat}
    {val : FieldDesc → Json → Except JErr (Option Value)} (hv : SubOkA S st L val) {n : Name} {d : Nat}
    {md : MsgDesc} (hd : S.msg? d = some md) {buf rest : List (List Char × Json)}
    (hb : st = true → ∀ p ∈ buf, p.2.depth ≤ L) (hr : st = true → ∀ p ∈ rest, p.2.depth ≤ L) :
    Sound st (AccMsg S d) (anyPayload env S o val n d buf rest) := by
  unfold anyPayload
  split
  · split
    · exact sound_err
    · rename_i buf' j rest' hx
      have hj : st = true → j.depth ≤ L := by
        intro hs
        split at hx
        · rename_i j' hl
          cases hx
          exact hb hs _ (lookup_mem hl)
        · exact (findKey_depth hx (hr hs) (hb hs)).2.1
      have hk : kindOk S (.message d) = true := by simp [kindOk, hd]
      have h1 := hv (plainField (.message d)) j (plainField_wf hk) hj
      split
      · rename_i e he; exact h1.error he
      · rename_i v hvv
        have h2 := h1.ok hvv
        split
        · exact sound_err
        · obtain ⟨fs, hw⟩ := h2.2 nofun d rfl
          have h3 := h2.1 _ hw
          rw [hw]
          have h4 := h3.2
          simp only [acceptedIn, Bool.and_eq_true] at h4
          exact ⟨h4.2, rfl⟩
  · rw [hd]
    simp only
    have h1 := deEntries_acc (o := o) hS hJ hv hd (es := env.order buf)
      (fun p hp hs => hb hs p ((hO buf).mem_iff.1 hp)) (AccMsg.empty d)
    split
    · rename_i e he; exact h1.error he
    · rename_i m hm
      exact deEntries_acc hS hJ hv hd (fun p hp hs => hr hs p hp) (h1.ok hm)

theorem deAny_acc (hS : S.wf = true) (hJ : extsApart S = true) (hO : OrderOk env) {L : Nat}
    {val : FieldDesc → Json → Except JErr (Option Value)} (hv : SubOkA S st L val) {j : Json}
    (hj : st = true → j.depth ≤ L + 1) :
    Sound st (fun fs => confMsg stdSchema ⟨Wkt.any.std, fs⟩ = true) (deAny env S o val j) := by
  unfold deAny
  split
  · rename_i es
    split
    · rename_i buf url rest hx
      have hes : st = true → ∀ p ∈ es, p.2.depth ≤ L := by
        intro hs
        have := hj hs
        simp only [Json.depth] at this
        exact depthObj_le.1 (by omega)
      have hdep := fun hs => findKey_depth hx (hes hs) (buf := []) nofun
      split
      · exact sound_err
      · split
        · exact sound_err
        · rename_i n hn _ d hd
          obtain ⟨md, hmd⟩ : ∃ md, S.msg? d = some md := by
            have := (List.findIdx?_eq_some_iff_getElem.1 hd).1
            exact ⟨S.msgs[d], by simp [Schema.msg?, this]⟩
          have h1 := anyPayload_acc (o := o) (n := n) hS hJ hO hv hmd (fun hs => (hdep hs).1)
            (fun hs => (hdep hs).2.2)
          split
          · rename_i e he; exact h1.error he
          · rename_i p hp
            obtain ⟨b, hb⟩ := (encMsg_total hS p (h1.ok hp).1).1
            rw [hb]
            exact std_any (utf8Valid_encode url) b
    · exact sound_err
  · exact sound_err

theorem deMsg_acc (hS : S.wf = true) (hJ : extsApart S = true) (hO : OrderOk env) {k : Nat}
    {val : FieldDesc → Json → Except JErr (Option Value)} (hv : SubOkA S st k val) {d : Nat} {md : MsgDesc}
    (hd : S.msg? d = some md) {j : Json} (hj : st = true → j.depth ≤ k + 1) :
    Sound st (AccMsg S d) (deMsg env S o k val d j) := by
  unfold deMsg
  rw [hd]
  simp only
  split
  · have h1 := deAny_acc (o := o) hS hJ hO hv hj
    split
    · rename_i e he; exact h1.error he
    · rename_i fs hfs
      exact (makeMsg_sound hS hd (h1.ok hfs)).imp fun m hm => ⟨confMsg_accepted hS hm.1, hm.2⟩
  · rename_i w hne hw
    have h1 := deStd_sound env k j hj w (fun e => hne (by rw [e]))
    split
    · rename_i e he; exact h1.error he
    · rename_i fs hfs
      exact (makeMsg_sound hS hd (h1.ok hfs)).imp fun m hm => ⟨confMsg_accepted hS hm.1, hm.2⟩
  · split
    · rename_i es
      refine deEntries_acc hS hJ hv hd (fun p hp hs => ?_) (AccMsg.empty d)
      have := hj hs
      simp only [Json.depth] at this
      exact depthObj_le.1 (by omega) p hp
    · exact sound_err

theorem deKind_acc (hS : S.wf = true) (hJ : extsApart S = true) (hO : OrderOk env) {k : Nat}
    {val : FieldDesc → Json → Except JErr (Option Value)} (hv : SubOkA S st k val) {f : FieldDesc}
    (hf : kindOk S f.kind = true) {j : Json} (hj : st = true → j.depth ≤ k + 1) :
    Sound st (ReadA S f) (deKind env S o k val f.kind j) := by
  unfold deKind
  split
  · rename_i d hk
    rw [hk] at hf
    obtain ⟨md, hmd⟩ := Option.isSome_iff_exists.1 hf
    refine (deMsg_acc hS hJ hO hv hmd hj).map (fun m hm => ⟨fun v e => ?_, fun _ d' hd' => ?_⟩)
    · cases e
      exact hm.msg hmd hk
    · rw [hk] at hd'; cases hd'
      exact ⟨m.fields, by rw [← hm.2]; rfl⟩
  · rename_i e hk
    refine (deEnum_sound (hk ▸ hf) j).imp (fun r hr => ⟨fun v e => ?_, fun _ d h => ?_⟩)
    · exact scalarOk_acc (hr v e) hk
    · rw [hk] at h; cases h
  · rename_i h1 h2
    have hm : f.kind.isMessage = false := by
      cases h : f.kind <;> first | rfl | exact absurd h (h1 _)
    refine (deScalar_sound hm (fun e h => h2 e h) j).map (fun v hv => ⟨fun w e => ?_, fun _ d h => ?_⟩)
    · cases e; exact scalarOk_acc hv rfl
    · rw [h] at hm; cases hm

theorem keyOk_isValid {k : Kind} {key : MapKey} (h : keyOk k key = true) : key.isValid k = true := by
  cases key <;> simp only [keyOk, Bool.and_eq_true] at h <;> first
    | exact h
    | exact h.1

theorem deMap_acc {kd vd : FieldDesc} {key : List Char → Except JErr MapKey}
    {val : Json → Except JErr (Option Value)} (hk : ∀ s, Sound st (fun k => keyOk kd.kind k = true) (key s)) :
    {es : List (List Char × Json)} → (∀ p ∈ es, Sound st (ReadA S vd) (val p.2)) →
    {acc : List (MapKey × Value)} → (∀ p ∈ acc, p.1.isValid kd.kind = true ∧ AccOk S vd p.2) →
    Sound st (fun kvs => ∀ p ∈ kvs, p.1.isValid kd.kind = true ∧ AccOk S vd p.2) (deMap key val acc es)
  | [], _, _, h1 => h1
  | (s, j) :: r, h, acc, h1 => by
    have hj := h (s, j) (by simp)
    unfold deMap
    split
    · rename_i e he; exact (hk s).error he
    · rename_i k hkk
      split
      · rename_i e he; exact hj.error he
      · exact deMap_acc hk (fun p hp => h p (by simp [hp])) h1
      · rename_i v hv
        refine deMap_acc hk (fun p hp => h p (by simp [hp])) ?_
        intro p hp
        rcases KMap.mem_insert hp with rfl | hp
        · exact ⟨keyOk_isValid ((hk s).ok hkk), (hj.ok hv).1 v rfl⟩
        · exact h1 p hp

theorem deVal_acc (hS : S.wf = true) (hJ : extsApart S = true) (hO : OrderOk env) (k : Nat) :
    SubOkA S st k (deVal env S o k) := by
  induction k with
  | zero =>
    intro f j _ hj
    exact ⟨nofun, fun hs => by have := hj hs; have := j.depth_pos; omega⟩
  | succ k ih =>
    intro f j hf hj
    unfold deVal
    split
    · rename_i hl
      have hc := (isList_iff.1 hl).1
      split
      · rename_i xs
        refine (mapE_sound (P := ReadA S f.elem) (fun x hx => ?_)).map (fun vs hvs => ⟨fun v e => ?_, fun h => absurd hc h⟩)
        · refine deKind_acc (f := f.elem) hS hJ hO ih hf.kind (fun hs => ?_)
          have := hj hs
          simp only [Json.depth] at this
          have := depthList_le.1 (Nat.le_of_succ_le_succ this) x hx
          omega
        · cases e
          have hall : ∀ v ∈ vs.filterMap id, AccOk S f.elem v := by
            intro v hv
            obtain ⟨r, hr, e⟩ := List.mem_filterMap.1 hv
            exact (hvs r hr).1 v e
          refine ⟨?_, ?_⟩
          · simp only [validFor, hl, if_true, Option.some.injEq, List.all_eq_true]
            exact fun v hv => (hall v hv).elem
          · simp only [acceptedIn]
            exact acceptedVals_iff.2 fun v hv => (hall v hv).2
      · exact sound_err
    · split
      · rename_i hm
        obtain ⟨hc, i, hi, he⟩ := isMap_iff.1 hm
        obtain ⟨kd, vd, hE⟩ := Schema.wf_entry hS he
        split
        · rename_i es
          rw [hi]
          simp only [hE.kv]
          refine (deMap_acc (S := S) (kd := kd) (vd := vd) (deKey_sound hE.key.2.2.2) (fun p hp => ih vd p.2 hE.val.1 (fun hs => ?_))
            (by simp)).map (fun kvs hk => ⟨fun v e => ?_, fun h => absurd hc h⟩)
          · have := hj hs
            simp only [Json.depth] at this
            exact depthObj_le.1 (by omega) p hp
          · cases e
            refine ⟨?_, ?_⟩
            · simp only [validFor, hi, hm, if_true, hE.kv]
              exact validMap_iff.2 fun p hp => ⟨(hk p hp).1, (hk p hp).2.1⟩
            · simp only [acceptedIn]
              exact acceptedMap_iff.2 fun p hp => (hk p hp).2.2
        · exact sound_err
      · exact deKind_acc hS hJ hO ih hf.kind hj

theorem fromJson_acc (hS : S.wf = true) (hJ : extsApart S = true) (hO : OrderOk env) {k d : Nat} {md : MsgDesc}
    (hd : S.msg? d = some md) {j : Json} (hj : st = true → j.depth ≤ k + 1) :
    Sound st (AccMsg S d) (fromJson env S o k d j) :=
  deMsg_acc hS hJ hO (deVal_acc hS hJ hO k) hd hj

end

end Verif.Json
