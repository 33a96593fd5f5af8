import Verif.Text.RoundMsg
import Verif.Dyn.IterTotal
/-!
Printing never fails on a conforming message, given a stack proportional to its nesting.
-/
set_option autoImplicit false
namespace Verif.Text
open Verif.Wire Verif.Dyn Verif.Pool

theorem items_total {S : Schema} (hS : S.wf = true) (o : FOpts) {d : Nat} {md : MsgDesc}
    (hm : S.msg? d = some md) (fs : FieldSet) : ∃ its, items o S md fs = some its := by
  have hw := Schema.wf_msg hS hm
  have hds : ∀ p ∈ (if o.indexOrder then md.fields.map (fun f => (f.number, f)) else md.fieldsByNumber),
      FieldWf S p.2 := by
    intro p hp
    have hO : Order md (if o.indexOrder then md.fields.map (fun f => (f.number, f)) else md.fieldsByNumber) := by
      split
      · exact order_decl hw.nodup
      · exact order_num hw.nodup (fun f hf => (hw.fields f hf).num.1)
    exact hw.fields _ ((hO.mem p.2).2 ⟨p.1, hp⟩)
  obtain ⟨a, ha⟩ := iterFieldPart_total hS (!o.skipDefault) fs _ hds
  obtain ⟨b, hb⟩ := iterExtPart_total hw.exts fs
  exact ⟨a ++ b, by simp only [items, ha, hb]⟩

theorem fmtAll_total {α : Type} {f : α → Option (List Char)} {xs : List α}
    (h : ∀ x ∈ xs, ∃ s, f x = some s) : ∃ ss, fmtAll f xs = some ss := by
  induction xs with
  | nil => exact ⟨_, rfl⟩
  | cons x r ih =>
    obtain ⟨ss, hss⟩ := ih (fun y hy => h y (List.mem_cons_of_mem _ hy))
    obtain ⟨s, hs⟩ := h x (by simp)
    exact ⟨s :: ss, by simp only [fmtAll, hs, hss]⟩

theorem fmtScalar_total (env : TEnv) {S : Schema} {f : FieldDesc} (hk : kindOk S f.kind = true)
    {v : Value} (h : scalarOk f.kind v = true) : ∃ s, fmtScalar env S (some f.kind) v = some s := by
  have hval := scalarOk_isValid h
  cases v with
  | enum x =>
    cases hkd : f.kind <;> rw [hkd] at hval <;> simp [Value.isValid] at hval
    rename_i e
    rw [hkd] at hk
    simp only [kindOk, Schema.enumDefault] at hk
    simp only [fmtScalar]
    cases hed : S.enums[e]? with
    | none => simp [hed] at hk
    | some ed =>
      simp only
      split <;> exact ⟨_, rfl⟩
  | msg d fs => cases hkd : f.kind <;> rw [hkd] at hval <;> simp [scalarOk, hkd, Value.isValid] at h hval
  | list vs => cases hkd : f.kind <;> rw [hkd] at hval <;> simp [Value.isValid] at hval
  | map kvs => cases hkd : f.kind <;> rw [hkd] at hval <;> simp [Value.isValid] at hval
  | _ => exact ⟨_, rfl⟩

/-- The messages in expanded `Any`s print on a stack of `B` levels. -/
def AnyPrints (env : TEnv) (S : Schema) (o : FOpts) (P : DynMsg → Prop) (B : Nat) : Prop :=
  ∀ (md : MsgDesc) (d : Nat) (fs : FieldSet) (url : List Char) (body : DynMsg) (k ind : Nat),
    o.expandAny = true → Conf S ⟨d, fs⟩ md → P ⟨d, fs⟩ → asAny S md ⟨d, fs⟩ = some (some (url, body)) → B ≤ k →
    ∃ s, fmtVal env S o k ind body.toValue none = some s

/-- Under what conditions messages print. -/
structure PrintCtx (env : TEnv) (S : Schema) (o : FOpts) (P : DynMsg → Prop) (B : Nat) : Prop where
  wf : S.wf = true
  names : textWf S = true
  skip : o.skipUnknown = true
  any : AnyPrints env S o P B

theorem RoundCtx.prints {env : TEnv} {S : Schema} {o : FOpts} (hX : RoundCtx env S o) :
    PrintCtx env S o (fun _ => True) 0 := by
  refine ⟨hX.wf, hX.names, hX.skip, ?_⟩
  intro md d fs url body k ind he hC _ ha
  rcases hX.any with h | h
  · rw [h] at he; cases he
  · unfold asAny at ha
    rw [if_pos (h md (List.mem_of_getElem? hC.desc))] at ha
    cases ha

/-- Looking for an `Any` does not panic. -/
theorem asAny_total {S : Schema} (hS : S.wf = true) (md : MsgDesc) {m : DynMsg} (hm : confMsg S m = true) :
    ∃ r, asAny S md m = some r := by
  obtain ⟨b, hb⟩ := (encMsg_total hS m (confMsg_accepted hS hm)).1
  have ht : ∃ r, transcodeAny S m = some r := by
    unfold transcodeAny
    simp only [hb]
    repeat' split
    all_goals exact ⟨_, rfl⟩
  obtain ⟨r, hr⟩ := ht
  unfold asAny
  simp only [hr]
  cases r with
  | none => exact ⟨none, by simp⟩
  | some uv =>
    simp only
    repeat' split
    all_goals exact ⟨_, rfl⟩

theorem fmtFields_total {env : TEnv} {S : Schema} {o : FOpts} {P : DynMsg → Prop} {B : Nat} (hX : PrintCtx env S o P B)
    {d : Nat} {md : MsgDesc} {fs : FieldSet} (hC : Conf S ⟨d, fs⟩ md) (hq : keepSlots textF32 P fs) {k ind : Nat}
    {val : Value → Option Kind → Option (List Char)}
    (h : ∀ f v, FieldWf S f → confVal S f v = true → keepVal textF32 P v → depthVal v ≤ depthSlots fs →
      ∃ s, val v (some f.kind) = some s) : ∃ s, fmtFields S o k ind val md fs = some s := by
  have hm : S.msg? d = some md := hC.desc
  have hw := Schema.wf_msg hX.wf hm
  have hNm := textWf_msg hX.names hm
  obtain ⟨its, hi⟩ := items_total hX.wf o hm fs
  have hL := items_listing hX.wf hC hi
  simp only [fmtFields, hi, hX.skip, if_true, fmtDelimited]
  suffices hall : ∃ ss, fmtAll (fmtItem S o k ind val) (its.filter (fun i => !isUnknown i)) = some ss by
    obtain ⟨ss, hss⟩ := hall
    exact ⟨_, by rw [hss]; rfl⟩
  apply fmtAll_total
  intro it hit
  obtain ⟨hmem, hu⟩ := List.mem_filter.1 hit
  have key : ∀ e, it.ent = some e → ∃ s, val e.v (some e.f.kind) = some s := by
    intro e he
    have hin : e ∈ its.filterMap Item.ent := List.mem_filterMap.2 ⟨it, hmem, he⟩
    exact h e.f e.v (hL.wf hX.wf hm hin) (hL.conf e hin)
      (listing_keep (Q := textF32) (by decide) hX.wf hm hNm.plain hL hq hin) (hL.depth hX.wf hm hin)
  cases it with
  | unknown u => simp [isUnknown] at hu
  | field f v =>
    obtain ⟨s, hs⟩ := key _ rfl
    have hin : (⟨false, f, v⟩ : Ent) ∈ its.filterMap Item.ent := List.mem_filterMap.2 ⟨_, hmem, rfl⟩
    obtain ⟨l, hl, -⟩ := findField_label hNm (getField_mem (hL.look _ hin)).1
    simp only at hs hl
    simp only [fmtItem, hl, hs]
    exact ⟨_, rfl⟩
  | ext f v =>
    obtain ⟨s, hs⟩ := key _ rfl
    simp only at hs
    simp only [fmtItem, hs]
    exact ⟨_, rfl⟩

theorem fmtMsg_total {env : TEnv} {S : Schema} {o : FOpts} {P : DynMsg → Prop} {B : Nat} (hX : PrintCtx env S o P B)
    {d : Nat} {md : MsgDesc} {fs : FieldSet} (hC : Conf S ⟨d, fs⟩ md) (hp : P ⟨d, fs⟩) (hq : keepSlots textF32 P fs)
    {k k' ind : Nat} (hk : B ≤ k)
    (h : ∀ f v, FieldWf S f → confVal S f v = true → keepVal textF32 P v → depthVal v ≤ depthSlots fs →
      ∃ s, fmtVal env S o k ind v (some f.kind) = some s) :
    ∃ s, fmtMsg S o k' ind (fmtVal env S o k ind) md d fs = some s := by
  have hF := fmtFields_total hX hC hq (k := k') (ind := ind) (val := fmtVal env S o k ind) h
  unfold fmtMsg
  by_cases he : o.expandAny = true
  · obtain ⟨r, hr⟩ := asAny_total hX.wf md (confMsg_iff.2 ⟨md, hC⟩)
    rw [if_pos he, hr]
    cases r with
    | none => exact hF
    | some ub =>
      obtain ⟨url, body⟩ := ub
      obtain ⟨s, hs⟩ := hX.any md d fs url body k ind he hC hp hr hk
      simp only [hs]
      exact ⟨_, rfl⟩
  · rw [if_neg he]
    exact hF

/-- Printing a value needs two stack levels per message level. -/
theorem fmtVal_total {env : TEnv} {S : Schema} {o : FOpts} {P : DynMsg → Prop} {B : Nat} (hX : PrintCtx env S o P B) :
    ∀ (k ind : Nat) (f : FieldDesc) (v : Value), kindOk S f.kind = true → confVal S f v = true → keepVal textF32 P v →
      2 * depthVal v + (if f.card = .repeated then 2 else 1) + B ≤ k →
      ∃ s, fmtVal env S o k ind v (some f.kind) = some s := by
  intro k
  induction k with
  | zero => intro ind f v _ _ _ h; split at h <;> omega
  | succ k ih =>
    intro ind f v hf hv hq hk
    cases v with
    | msg d fs =>
      obtain ⟨hc, hkind, hm⟩ := confMsg_of_confVal hv
      obtain ⟨md, hC⟩ := confMsg_iff.1 hm
      have hmd : S.msg? d = some md := hC.desc
      rw [if_neg hc] at hk
      simp only [depthVal] at hk
      obtain ⟨its, hi⟩ := items_total hX.wf o hmd fs
      simp only [keepVal] at hq
      simp only [fmtVal, hmd, hi]
      have hb : ∀ ind, ∃ s, fmtMsg S o k ind (fmtVal env S o k ind) md d fs = some s := by
        intro ind
        refine fmtMsg_total hX hC hq.1 hq.2 (by omega) (fun f v hf hv hq hd => ih ind f v hf.kind hv hq ?_)
        split <;> omega
      split
      · exact ⟨_, rfl⟩
      · unfold braced
        split
        · obtain ⟨s, hs⟩ := hb (ind + 2)
          simp only [hs]
          exact ⟨_, rfl⟩
        · obtain ⟨s, hs⟩ := hb ind
          simp only [hs]
          exact ⟨_, rfl⟩
    | list vs =>
      simp only [confVal, Bool.and_eq_true] at hv
      have hc : f.card = .repeated := (isList_iff.1 hv.1).1
      rw [if_pos hc] at hk
      simp only [depthVal] at hk
      simp only [fmtVal, fmtList]
      obtain ⟨ss, hss⟩ := fmtAll_total (f := fun v => fmtVal env S o k ind v (some f.kind)) (xs := vs) (by
        intro v hvm
        have hd := (depthVals_le (B := depthVals vs) vs).1 (Nat.le_refl _) v hvm
        exact ih ind f.elem v hf ((confVals_iff vs).1 hv.2 v hvm) (keepVals_mem hq hvm) (by
          rw [if_neg elem_card]; omega))
      exact ⟨_, by rw [hss]; rfl⟩
    | map kvs =>
      simp only [confVal, Bool.and_eq_true] at hv
      obtain ⟨hc, i, hki, hme⟩ := isMap_iff.1 hv.1
      obtain ⟨kd, vd, hE⟩ := Schema.wf_entry hX.wf hme
      have hc2 := hv.2
      simp only [hki, hE.kv, Bool.and_eq_true] at hc2
      obtain ⟨-, h2⟩ := mapKV_some hE.kv
      rw [if_pos hc] at hk
      simp only [depthVal] at hk
      simp only [fmtVal, hki, mapValueKind, h2, fmtList]
      obtain ⟨ss, hss⟩ := fmtAll_total (f := fmtEntry o ind (fun ind v => fmtVal env S o k ind v (some vd.kind)))
        (xs := kvs) (by
        intro p hp
        obtain ⟨key, v⟩ := p
        have hd := (depthMap_le (B := depthMap kvs) kvs).1 (Nat.le_refl _) _ hp
        have hcv := ((confMap_iff kvs).1 hc2.2 _ hp).2
        have hval : ∀ ind, ∃ s, fmtVal env S o k ind v (some vd.kind) = some s := fun ind =>
          ih ind vd v hE.val.1.kind hcv (keepMap_mem hq hp) (by rw [if_neg hE.val.2.2]; simp only at hd; omega)
        simp only [fmtEntry]
        split
        · obtain ⟨s, hs⟩ := hval (ind + 2)
          exact ⟨_, by rw [hs]; rfl⟩
        · obtain ⟨s, hs⟩ := hval ind
          exact ⟨_, by rw [hs]; rfl⟩)
      exact ⟨_, by rw [hss]; rfl⟩
    | _ =>
      simp only [confVal, Bool.and_eq_true] at hv
      exact fmtScalar_total env hf hv.2

/-- Printing a conforming message. -/
theorem toText_total {env : TEnv} {S : Schema} {o : FOpts} {P : DynMsg → Prop} {B : Nat} (hX : PrintCtx env S o P B)
    {m : DynMsg} (hm : confMsg S m = true) (hp : P m) (hq : keepSlots textF32 P m.fields) {k : Nat}
    (hk : 2 * depthMsg m + 2 + B ≤ k) : ∃ s, toText env S o k m = some s := by
  obtain ⟨md, hC⟩ := confMsg_iff.1 hm
  have hmd : S.msg? m.desc = some md := hC.desc
  simp only [toText, hmd]
  refine fmtMsg_total hX hC hp hq (by omega) (fun f v hf hv hq hd => fmtVal_total hX k 0 f v hf.kind hv hq ?_)
  unfold depthMsg at hk
  split <;> omega

end Verif.Text
