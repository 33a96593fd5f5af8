import Verif.Json.Accept
/-!
Reading JSON yields well-typed messages.
-/
set_option autoImplicit false
namespace Verif.Json
open Verif.Wire Verif.Dyn Verif.Pool

section
variable {S : Schema} {st : Bool} {o : DOpts} {env : JEnv}

theorem deEntry_sound (hS : S.wf = true) (hJ : jsonSafe S = true) {L : Nat}
    {val : FieldDesc → Json → Except JErr (Option Value)}
    (hv : SubOk S st L val) {md : MsgDesc} (hk : wkt? md.name = none) {m : DynMsg} (hC : Conf S m md) (key : Name)
    {j : Json}
    (hj : st = true → j.depth ≤ L) :
    Sound st (fun m' => Conf S m' md ∧ m'.desc = m.desc) (deEntry S o val md m key j) := by
  have hw := Schema.wf_msg hS hC.desc
  unfold deEntry
  split
  · rename_i f hf
    have hm := keyField_mem hf
    have hs := deOpt_sound hS hv (hw.fields f hm)
      (jsonSafe_null hJ hC.desc hk (List.mem_append_left _ hm)) hj
    split
    · rename_i e he; exact hs.error he
    · exact ⟨hC, rfl⟩
    · rename_i v hvv
      have hcv := hs.ok hvv v rfl
      obtain ⟨b, hb⟩ := Text.anyHas_total (S := S) (mem := Text.oneofMembers md f) (fun g hg => by
        unfold Text.oneofMembers at hg
        split at hg
        · cases hg
        · exact hw.fields g (List.mem_filter.1 hg).1) m.fields
      rw [hb]
      cases b with
      | true => exact sound_err
      | false =>
        simp only
        have hset : DynMsg.setField S md m f v =
            some ⟨m.desc, FieldSet.set (siblings md f) m.fields f v⟩ := by
          simp only [DynMsg.setField, DynMsg.trySetField, (conf_accepted hS v f hcv).1]
        rw [hset]
        exact ⟨Conf.insert_field hS hC (getField_of_mem hw.nodup hm) hcv, rfl⟩
  · split
    · rename_i f hf
      have hm : f ∈ md.extensions := List.mem_of_find?_eq_some hf
      have hs := deOpt_sound hS hv (hw.exts f hm)
        (jsonSafe_null hJ hC.desc hk (List.mem_append_right _ hm)) hj
      split
      · rename_i e he; exact hs.error he
      · exact ⟨hC, rfl⟩
      · rename_i v hvv
        exact ⟨Conf.insert_ext hS hC (extsApart_ext (jsonSafe_exts hJ) hC.desc hm) (hs.ok hvv v rfl), rfl⟩
    · split
      · exact sound_err
      · exact ⟨hC, rfl⟩

theorem deEntries_sound (hS : S.wf = true) (hJ : jsonSafe S = true) {L : Nat}
    {val : FieldDesc → Json → Except JErr (Option Value)}
    (hv : SubOk S st L val) {md : MsgDesc} (hk : wkt? md.name = none) : {es : List (Name × Json)} →
    (∀ p ∈ es, st = true → p.2.depth ≤ L) → {m : DynMsg} → Conf S m md →
    Sound st (fun m' => Conf S m' md ∧ m'.desc = m.desc) (deEntries S o val md m es)
  | [], _, m, hC => ⟨hC, rfl⟩
  | (key, j) :: r, h, m, hC => by
    have h1 := deEntry_sound (o := o) hS hJ hv hk hC key (h (key, j) (by simp))
    unfold deEntries
    split
    · rename_i e he; exact h1.error he
    · rename_i m' hm'
      have h2 := h1.ok hm'
      have := deEntries_sound hS hJ hv hk (es := r) (fun p hp => h p (by simp [hp])) h2.1
      exact this.imp (fun x hx => ⟨hx.1, hx.2.trans h2.2⟩)

theorem deMsg_sound (hS : S.wf = true) (hJ : jsonSafe S = true) (hO : OrderOk env) {k : Nat}
    {val : FieldDesc → Json → Except JErr (Option Value)} (hv : SubOk S st k val) (hva : SubOkA S st k val) {d : Nat} {md : MsgDesc}
    (hd : S.msg? d = some md) {j : Json} (hj : st = true → j.depth ≤ k + 1) :
    Sound st (fun m => confMsg S m = true ∧ m.desc = d) (deMsg env S o k val d j) := by
  unfold deMsg
  rw [hd]
  simp only
  split
  · have h1 := deAny_acc (o := o) hS (jsonSafe_exts hJ) hO hva hj
    split
    · rename_i e he; exact h1.error he
    · rename_i fs hfs; exact makeMsg_sound hS hd (h1.ok hfs)
  · rename_i w hne hw
    have h1 := deStd_sound env k j hj w (fun e => hne (by rw [e]))
    split
    · rename_i e he; exact h1.error he
    · rename_i fs hfs; exact makeMsg_sound hS hd (h1.ok hfs)
  · rename_i hw
    split
    · rename_i es
      refine (deEntries_sound hS hJ hv hw (fun p hp hs => ?_) (Conf.empty hd)).imp
        (fun m hm => ⟨confMsg_iff.2 ⟨md, hm.1⟩, hm.2⟩)
      have := hj hs
      simp only [Json.depth] at this
      exact depthObj_le.1 (by omega) p hp
    · exact sound_err

theorem deKind_sound (hS : S.wf = true) (hJ : jsonSafe S = true) (hO : OrderOk env) {k : Nat}
    {val : FieldDesc → Json → Except JErr (Option Value)} (hv : SubOk S st k val) (hva : SubOkA S st k val) {f : FieldDesc}
    (hf : kindOk S f.kind = true) (hc : f.card ≠ .repeated) {j : Json} (hj : st = true → j.depth ≤ k + 1) :
    Sound st (Read S f) (deKind env S o k val f.kind j) := by
  unfold deKind
  split
  · rename_i d hk
    rw [hk] at hf
    obtain ⟨md, hmd⟩ := Option.isSome_iff_exists.1 hf
    refine (deMsg_sound hS hJ hO hv hva hmd hj).map (fun m hm => ⟨fun v e => ?_, fun _ _ => rfl⟩)
    cases e
    exact confVal_msg hc (hm.2 ▸ hk) hm.1
  · rename_i e hk
    refine (deEnum_sound (hk ▸ hf) j).imp (fun r hr => ⟨fun v e => ?_, fun _ h => ?_⟩)
    · exact confVal_scalar hc (hk ▸ hr v e)
    · rw [hk] at h; cases h
  · rename_i h1 h2
    have hm : f.kind.isMessage = false := by
      cases h : f.kind <;> first | rfl | exact absurd h (h1 _)
    refine (deScalar_sound hm (fun e h => h2 e h) j).map (fun v hv => ⟨fun w e => ?_, fun _ h => ?_⟩)
    · cases e; exact confVal_scalar hc hv
    · rw [hm] at h; cases h

theorem deMap_sound {kd vd : FieldDesc} {key : List Char → Except JErr MapKey}
    {val : Json → Except JErr (Option Value)} (hk : ∀ s, Sound st (fun k => keyOk kd.kind k = true) (key s)) :
    {es : List (List Char × Json)} → (∀ p ∈ es, Sound st (Read S vd) (val p.2)) →
    {acc : List (MapKey × Value)} → KMap.distinct acc = true → confMap S kd vd acc = true →
    Sound st (fun kvs => KMap.distinct kvs = true ∧ confMap S kd vd kvs = true) (deMap key val acc es)
  | [], _, _, h1, h2 => ⟨h1, h2⟩
  | (s, j) :: r, h, acc, h1, h2 => by
    have hj := h (s, j) (by simp)
    unfold deMap
    split
    · rename_i e he; exact (hk s).error he
    · rename_i k hkk
      split
      · rename_i e he; exact hj.error he
      · exact deMap_sound hk (fun p hp => h p (by simp [hp])) h1 h2
      · rename_i v hv
        refine deMap_sound hk (fun p hp => h p (by simp [hp])) (KMap.distinct_insert _ _ _ h1) ?_
        rw [confMap_iff] at h2 ⊢
        intro p hp
        rcases KMap.mem_insert hp with rfl | hp
        · exact ⟨(hk s).ok hkk, (hj.ok hv).1 v rfl⟩
        · exact h2 p hp

theorem deVal_sound (hS : S.wf = true) (hJ : jsonSafe S = true) (hO : OrderOk env) (k : Nat) :
    SubOk S st k (deVal env S o k) := by
  induction k with
  | zero =>
    intro f j _ hj
    exact ⟨nofun, fun hs => by have := hj hs; have := j.depth_pos; omega⟩
  | succ k ih =>
    intro f j hf hj
    unfold deVal
    split
    · rename_i hl
      have hc := (isList_iff.1 hl).1
      split
      · rename_i xs
        refine (mapE_sound (P := Read S f.elem) (fun x hx => ?_)).map (fun vs hvs => ⟨fun v e => ?_, fun h => absurd hc h⟩)
        · refine deKind_sound (f := f.elem) hS hJ hO ih (deVal_acc hS (jsonSafe_exts hJ) hO k) hf.kind elem_card (fun hs => ?_)
          have := hj hs
          simp only [Json.depth] at this
          have := depthList_le.1 (Nat.le_of_succ_le_succ this) x hx
          omega
        · cases e
          simp only [confVal, hl, Bool.true_and]
          rw [confVals_iff]
          intro v hv
          obtain ⟨r, hr, e⟩ := List.mem_filterMap.1 hv
          exact (hvs r hr).1 v e
      · exact sound_err
    · split
      · rename_i hm
        obtain ⟨hc, i, hi, he⟩ := isMap_iff.1 hm
        obtain ⟨kd, vd, hE⟩ := Schema.wf_entry hS he
        split
        · rename_i es
          rw [hi]
          simp only [hE.kv]
          refine (deMap_sound (S := S) (kd := kd) (vd := vd) (deKey_sound hE.key.2.2.2) (fun p hp => ih vd p.2 hE.val.1 (fun hs => ?_))
            rfl rfl).map (fun kvs hk => ⟨fun v e => ?_, fun h => absurd hc h⟩)
          · have := hj hs
            simp only [Json.depth] at this
            exact depthObj_le.1 (by omega) p hp
          · cases e
            simp only [confVal, hm, hi, hE.kv, hk.1, hk.2, Bool.and_self]
        · exact sound_err
      · rename_i hl hm
        have hc : f.card ≠ .repeated := by
          intro hc; apply hl; rw [isList_iff]; exact ⟨hc, by simpa using hm⟩
        exact deKind_sound hS hJ hO ih (deVal_acc hS (jsonSafe_exts hJ) hO k) hf.kind hc hj

theorem fromJson_sound (hS : S.wf = true) (hJ : jsonSafe S = true) (hO : OrderOk env) {k d : Nat} {md : MsgDesc}
    (hd : S.msg? d = some md) {j : Json} (hj : st = true → j.depth ≤ k + 1) :
    Sound st (fun m => confMsg S m = true ∧ m.desc = d) (fromJson env S o k d j) :=
  deMsg_sound hS hJ hO (deVal_sound hS hJ hO k) (deVal_acc hS (jsonSafe_exts hJ) hO k) hd hj

end

end Verif.Json
