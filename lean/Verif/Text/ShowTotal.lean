import Verif.Text.PrintTotal
import Verif.Text.Display
import Verif.Wire.Shorter
/-!
Printing finishes for every conforming message, under all options and with unknown fields.
-/
set_option autoImplicit false
namespace Verif.Text
open Verif.Wire Verif.Dyn Verif.Pool

/-! ### Unknown fields -/

theorem keyLen_pos (n : Nat) : 1 ≤ keyLen n := by
  unfold keyLen encodedLenVarint
  omega

theorem lenUSet_mem {us : USet} {n : Nat} {v : UVal} (h : (n, v) ∈ us) : lenUVal n v ≤ lenUSet us := by
  induction us with
  | nil => cases h
  | cons x r ih =>
    obtain ⟨m, w⟩ := x
    simp only [lenUSet]
    rcases List.mem_cons.1 h with h | h
    · cases h; omega
    · have := ih h; omega

theorem decodeUSet_shorter {b : Bytes} {us : USet} (h : decodeUSet b = some us) : lenUSet us ≤ b.length := by
  unfold decodeUSet at h
  split at h
  · rename_i he
    cases h
    have := mergeAll_thrifty he
    simp only [lenUSet] at this
    omega
  · cases h

theorem braced_total {o : FOpts} {ind : Nat} {body : Nat → Option (List Char)} (h : ∀ i, ∃ s, body i = some s) :
    ∃ s, braced o ind body = some s := by
  unfold braced
  split
  · obtain ⟨s, hs⟩ := h (ind + 2)
    exact ⟨_, by rw [hs]; rfl⟩
  · obtain ⟨s, hs⟩ := h ind
    exact ⟨_, by rw [hs]; rfl⟩

theorem fmtDelimited_total {α : Type} {o : FOpts} {ind : Nat} {f : α → Option (List Char)} {xs : List α}
    (h : ∀ x ∈ xs, ∃ s, f x = some s) : ∃ s, fmtDelimited o ind f xs = some s := by
  obtain ⟨ss, hss⟩ := fmtAll_total h
  exact ⟨_, by unfold fmtDelimited; rw [hss]; rfl⟩

/-- An unknown field prints on a stack as deep as its encoding is long. -/
theorem fmtUnknown_shows (o : FOpts) : ∀ (k ind n : Nat) (v : UVal), lenUVal n v ≤ k →
    ∃ s, fmtUnknown o k ind (n, v) = some s := by
  intro k
  induction k with
  | zero =>
    intro ind n v h
    have := keyLen_pos n
    cases v <;> simp only [lenUVal] at h <;> omega
  | succ k ih =>
    intro ind n v h
    have hk := keyLen_pos n
    have hset : ∀ us : USet, lenUSet us ≤ k →
        ∃ s, (if us.isEmpty then some ['{', '}']
          else braced o ind (fun ind => fmtDelimited o ind (fmtUnknown o k ind) us)) = some s := by
      intro us hu
      split
      · exact ⟨_, rfl⟩
      · refine braced_total (fun i => fmtDelimited_total (fun x hx => ?_))
        obtain ⟨m, w⟩ := x
        have := lenUSet_mem hx
        exact ih i m w (by omega)
    cases v with
    | varint v => exact ⟨_, rfl⟩
    | thirtyTwo v => exact ⟨_, rfl⟩
    | sixtyFour v => exact ⟨_, rfl⟩
    | len b =>
      simp only [lenUVal] at h
      simp only [fmtUnknown]
      by_cases hb : b.isEmpty = true
      · simp only [hb, if_true]
        exact ⟨_, rfl⟩
      · simp only [hb]
        cases hd : decodeUSet b with
        | none => exact ⟨_, rfl⟩
        | some us =>
          have := decodeUSet_shorter hd
          obtain ⟨s, hs⟩ := hset us (by omega)
          exact ⟨_, by simp only [Bool.false_eq_true, if_false]; rw [hs]; rfl⟩
    | group us =>
      simp only [lenUVal] at h
      obtain ⟨s, hs⟩ := hset us (by omega)
      simp only [fmtUnknown]
      exact ⟨_, by rw [hs]; rfl⟩

/-! ### Messages -/

/-- With a deep enough stack, printing gives a text. -/
def Prints (env : TEnv) (S : Schema) (o : FOpts) (v : Value) (kind : Option Kind) : Prop :=
  ∃ k0, ∀ k, k0 ≤ k → ∀ ind, ∃ s, fmtVal env S o k ind v kind = some s

/-- One bound for the members of a list. -/
theorem uniform {α : Type} {xs : List α} {G : Nat → α → Prop} (h : ∀ x ∈ xs, ∃ k0, ∀ k, k0 ≤ k → G k x) :
    ∃ k0, ∀ k, k0 ≤ k → ∀ x ∈ xs, G k x := by
  induction xs with
  | nil => exact ⟨0, fun _ _ x hx => by cases hx⟩
  | cons x r ih =>
    obtain ⟨a, ha⟩ := ih (fun y hy => h y (List.mem_cons_of_mem _ hy))
    obtain ⟨b, hb⟩ := h x (by simp)
    refine ⟨max a b, fun k hk y hy => ?_⟩
    rcases List.mem_cons.1 hy with rfl | hy
    · exact hb k (by omega)
    · exact ha k (by omega) y hy

/-- Listed values keep a property of messages, whatever the declared defaults are. -/
theorem listing_keep' {P : DynMsg → Prop} {S : Schema} (hS : S.wf = true) {d : Nat} {md : MsgDesc}
    {fs : FieldSet} (hm : S.msg? d = some md) {L : List Ent} (h : Listing S d md fs L)
    (hk : keepSlots (fun _ => True) P fs) {e : Ent} (he : e ∈ L) : keepVal (fun _ => True) P e.v := by
  have hg := h.get e he
  unfold FieldSet.get FieldSet.getValue at hg
  split at hg
  · rename_i v hv
    cases hg
    split at hv
    · rename_i w hw
      cases hv
      exact keepSlots_get hk hw
    · cases hv
  · rename_i hv
    have hfw := h.wf hS hm he
    have hpr : e.f.presence = false := by
      rcases h.has e he with h | h
      · simp only [FieldSet.has, FieldSet.getValue, hv] at h
        cases h
      · exact h
    generalize e.v = x at hg
    unfold fieldDefault at hg
    split at hg
    · cases hg; trivial
    · split at hg
      · cases hg; trivial
      · rename_i h1 h2
        have hc : e.f.card ≠ .repeated := by
          intro hc
          simp [isList, hc] at h1
          exact h2 h1
        cases hd : e.f.default with
        | some w =>
          rw [hd] at hg
          cases hg
          have hsc := hfw.dflt _ hd
          have hval := scalarOk_isValid hsc
          cases x with
          | msg d fs =>
            cases hkd : e.f.kind <;> rw [hkd] at hval <;> simp [scalarOk, hkd, Value.isValid] at hsc hval
          | list vs => cases hkd : e.f.kind <;> rw [hkd] at hval <;> simp [Value.isValid] at hval
          | map kvs => cases hkd : e.f.kind <;> rw [hkd] at hval <;> simp [Value.isValid] at hval
          | _ => trivial
        | none =>
          rw [hd] at hg
          simp only [kindDefault] at hg
          split at hg
          · rename_i hk
            exact absurd (hfw.msg hc (by rw [hk]; rfl)) (by simp [hpr])
          · obtain ⟨x, -, hx⟩ := Option.map_eq_some_iff.1 hg
            rw [← hx]; trivial
          all_goals cases hg; trivial

theorem fieldLabel_total {S : Schema} {f : FieldDesc} (hf : FieldWf S f) : ∃ n, fieldLabel S f = some n := by
  unfold fieldLabel
  by_cases hg : f.group = true
  · rw [if_pos hg]
    have hmsg := hf.group hg
    have hk := hf.kind
    cases hkd : f.kind <;> rw [hkd] at hmsg hk <;> simp [Kind.isMessage, kindOk] at hmsg hk
    obtain ⟨m, hm⟩ := Option.isSome_iff_exists.1 hk
    exact ⟨_, by simp only [hm]; rfl⟩
  · rw [if_neg hg]
    exact ⟨_, rfl⟩

/-- The messages found in `Any`s inside print. -/
def AnyShows (env : TEnv) (S : Schema) (o : FOpts) (P : DynMsg → Prop) : Prop :=
  ∀ (md : MsgDesc) (d : Nat) (fs : FieldSet) (url : List Char) (body : DynMsg),
    o.expandAny = true → Conf S ⟨d, fs⟩ md → P ⟨d, fs⟩ → asAny S md ⟨d, fs⟩ = some (some (url, body)) →
    Prints env S o body.toValue none

theorem fmtFields_shows {env : TEnv} {S : Schema} {o : FOpts} {P : DynMsg → Prop} (hS : S.wf = true)
    {d : Nat} {md : MsgDesc} {fs : FieldSet} (hC : Conf S ⟨d, fs⟩ md) (hq : keepSlots (fun _ => True) P fs)
    (h : ∀ f v, FieldWf S f → confVal S f v = true → keepVal (fun _ => True) P v → depthVal v ≤ depthSlots fs →
      Prints env S o v (some f.kind)) :
    ∃ k0, ∀ k, k0 ≤ k → ∀ k', k0 ≤ k' → ∀ ind ind', ∃ s, fmtFields S o k' ind' (fmtVal env S o k ind) md fs = some s := by
  have hm : S.msg? d = some md := hC.desc
  obtain ⟨its, hi⟩ := items_total hS o hm fs
  have hL := items_listing hS hC hi
  obtain ⟨a, ha⟩ := uniform (xs := its.filterMap Item.ent)
    (G := fun k e => ∀ ind, ∃ s, fmtVal env S o k ind e.v (some e.f.kind) = some s)
    (fun e he => h e.f e.v (hL.wf hS hm he) (hL.conf e he) (listing_keep' hS hm hL hq he) (hL.depth hS hm he))
  obtain ⟨b, hb⟩ := uniform (xs := its)
    (G := fun k it => ∀ us, it = .unknown us → ∀ ind, ∃ s, fmtDelimited o ind (fmtUnknown o k ind) us = some s)
    (fun it _ => by
      cases it with
      | unknown us =>
        refine ⟨lenUSet us, fun k hk us' hu ind => ?_⟩
        cases hu
        refine fmtDelimited_total (fun x hx => ?_)
        obtain ⟨n, v⟩ := x
        have := lenUSet_mem hx
        exact fmtUnknown_shows o k ind n v (by omega)
      | _ => exact ⟨0, fun k _ us hu => by cases hu⟩)
  refine ⟨max a b, fun k hk k' hk' ind ind' => ?_⟩
  simp only [fmtFields, hi]
  apply fmtDelimited_total
  intro it hit
  have hmem : it ∈ its := by
    split at hit
    · exact (List.mem_filter.1 hit).1
    · exact hit
  have key : ∀ e, it.ent = some e → ∃ s, fmtVal env S o k ind e.v (some e.f.kind) = some s := fun e he =>
    ha k (by omega) e (List.mem_filterMap.2 ⟨it, hmem, he⟩) ind
  cases it with
  | unknown u => exact hb k' (by omega) _ hmem u rfl ind'
  | field f v =>
    obtain ⟨s, hs⟩ := key _ rfl
    have hin : (⟨false, f, v⟩ : Ent) ∈ its.filterMap Item.ent := List.mem_filterMap.2 ⟨_, hmem, rfl⟩
    obtain ⟨l, hl⟩ := fieldLabel_total (hL.wf hS hm hin)
    simp only at hs hl
    simp only [fmtItem, hl, hs]
    exact ⟨_, rfl⟩
  | ext f v =>
    obtain ⟨s, hs⟩ := key _ rfl
    simp only at hs
    simp only [fmtItem, hs]
    exact ⟨_, rfl⟩

theorem fmtMsg_shows {env : TEnv} {S : Schema} {o : FOpts} {P : DynMsg → Prop} (hS : S.wf = true)
    (hA : AnyShows env S o P)
    {d : Nat} {md : MsgDesc} {fs : FieldSet} (hC : Conf S ⟨d, fs⟩ md) (hp : P ⟨d, fs⟩)
    (hq : keepSlots (fun _ => True) P fs)
    (h : ∀ f v, FieldWf S f → confVal S f v = true → keepVal (fun _ => True) P v → depthVal v ≤ depthSlots fs →
      Prints env S o v (some f.kind)) :
    ∃ k0, ∀ k, k0 ≤ k → ∀ ind, ∃ s, fmtMsg S o k ind (fmtVal env S o k ind) md d fs = some s := by
  obtain ⟨a, ha⟩ := fmtFields_shows hS hC hq h
  by_cases he : o.expandAny = true
  · obtain ⟨r, hr⟩ := asAny_total hS md (confMsg_iff.2 ⟨md, hC⟩)
    cases r with
    | none =>
      refine ⟨a, fun k hk ind => ?_⟩
      unfold fmtMsg
      rw [if_pos he, hr]
      exact ha k hk k hk ind ind
    | some ub =>
      obtain ⟨url, body⟩ := ub
      obtain ⟨b, hb⟩ := hA md d fs url body he hC hp hr
      refine ⟨b, fun k hk ind => ?_⟩
      unfold fmtMsg
      rw [if_pos he, hr]
      obtain ⟨s, hs⟩ := hb k hk ind
      simp only [hs]
      exact ⟨_, rfl⟩
  · refine ⟨a, fun k hk ind => ?_⟩
    unfold fmtMsg
    rw [if_neg he]
    exact ha k hk k hk ind ind

/-- Enough for `Prints`: the body prints one level down. -/
theorem Prints.step {env : TEnv} {S : Schema} {o : FOpts} {v : Value} {kind : Option Kind}
    (h : ∃ k0, ∀ k, k0 ≤ k → ∀ ind, ∃ s, fmtVal env S o (k + 1) ind v kind = some s) : Prints env S o v kind := by
  obtain ⟨k0, h⟩ := h
  refine ⟨k0 + 1, fun k hk ind => ?_⟩
  obtain ⟨j, rfl⟩ : ∃ j, k = j + 1 := ⟨k - 1, by omega⟩
  exact h j (by omega) ind

theorem msg_prints {env : TEnv} {S : Schema} {o : FOpts} (hS : S.wf = true) {d : Nat} {md : MsgDesc}
    {fs : FieldSet} (hmd : S.msg? d = some md) {kind : Option Kind}
    (h : ∃ k0, ∀ k, k0 ≤ k → ∀ ind, ∃ s, fmtMsg S o k ind (fmtVal env S o k ind) md d fs = some s) :
    Prints env S o (.msg d fs) kind := by
  obtain ⟨a, ha⟩ := h
  obtain ⟨its, hi⟩ := items_total hS o hmd fs
  refine Prints.step ⟨a, fun k hk ind => ?_⟩
  simp only [fmtVal, hmd, hi]
  split
  · exact ⟨_, rfl⟩
  · exact braced_total (fun i => ha k hk i)

theorem fmtVal_shows {env : TEnv} {S : Schema} {o : FOpts} {P : DynMsg → Prop} (hS : S.wf = true)
    (hA : AnyShows env S o P) : ∀ (n : Nat) (f : FieldDesc) (v : Value), kindOk S f.kind = true →
      confVal S f v = true → keepVal (fun _ => True) P v →
      2 * depthVal v + (if f.card = .repeated then 1 else 0) < n → Prints env S o v (some f.kind) := by
  intro n
  induction n with
  | zero => intro f v _ _ _ h; omega
  | succ n ih =>
    intro f v hf hv hq hn
    cases v with
    | msg d fs =>
      obtain ⟨hc, hkind, hm⟩ := confMsg_of_confVal hv
      obtain ⟨md, hC⟩ := confMsg_iff.1 hm
      rw [if_neg hc] at hn
      simp only [depthVal] at hn
      simp only [keepVal] at hq
      refine msg_prints hS hC.desc (fmtMsg_shows hS hA hC hq.1 hq.2
        (fun f v hf hv hq hd => ih f v hf.kind hv hq ?_))
      split <;> omega
    | list vs =>
      simp only [confVal, Bool.and_eq_true] at hv
      have hc : f.card = .repeated := (isList_iff.1 hv.1).1
      rw [if_pos hc] at hn
      simp only [depthVal] at hn
      simp only [keepVal] at hq
      obtain ⟨a, ha⟩ := uniform (xs := vs)
        (G := fun k v => ∀ ind, ∃ s, fmtVal env S o k ind v (some f.kind) = some s) (fun v hvm => by
          have hd := (depthVals_le (B := depthVals vs) vs).1 (Nat.le_refl _) v hvm
          exact ih f.elem v hf ((confVals_iff vs).1 hv.2 v hvm) (keepVals_mem hq hvm) (by
            rw [if_neg elem_card]; omega))
      refine Prints.step ⟨a, fun k hk ind => ?_⟩
      simp only [fmtVal, fmtList]
      obtain ⟨ss, hss⟩ := fmtAll_total (f := fun v => fmtVal env S o k ind v (some f.kind)) (xs := vs)
        (fun v hvm => ha k hk v hvm ind)
      exact ⟨_, by rw [hss]; rfl⟩
    | map kvs =>
      simp only [confVal, Bool.and_eq_true] at hv
      obtain ⟨hc, i, hki, hme⟩ := isMap_iff.1 hv.1
      obtain ⟨kd, vd, hE⟩ := Schema.wf_entry hS hme
      have hc2 := hv.2
      simp only [hki, hE.kv, Bool.and_eq_true] at hc2
      obtain ⟨-, h2⟩ := mapKV_some hE.kv
      rw [if_pos hc] at hn
      simp only [depthVal] at hn
      simp only [keepVal] at hq
      obtain ⟨a, ha⟩ := uniform (xs := kvs)
        (G := fun k p => ∀ ind, ∃ s, fmtVal env S o k ind p.2 (some vd.kind) = some s) (fun p hp => by
          obtain ⟨key, v⟩ := p
          have hd := (depthMap_le (B := depthMap kvs) kvs).1 (Nat.le_refl _) _ hp
          have hcv := ((confMap_iff kvs).1 hc2.2 _ hp).2
          exact ih vd v hE.val.1.kind hcv (keepMap_mem hq hp) (by
            rw [if_neg hE.val.2.2]; simp only at hd; omega))
      refine Prints.step ⟨a, fun k hk ind => ?_⟩
      simp only [fmtVal, hki, mapValueKind, h2, fmtList]
      obtain ⟨ss, hss⟩ := fmtAll_total (f := fmtEntry o ind (fun ind v => fmtVal env S o k ind v (some vd.kind)))
        (xs := kvs) (by
        intro p hp
        obtain ⟨key, v⟩ := p
        have hval := ha k hk _ hp
        simp only [fmtEntry]
        split
        · obtain ⟨s, hs⟩ := hval (ind + 2)
          exact ⟨_, by rw [hs]; rfl⟩
        · obtain ⟨s, hs⟩ := hval ind
          exact ⟨_, by rw [hs]; rfl⟩)
      exact ⟨_, by rw [hss]; rfl⟩
    | _ =>
      refine Prints.step ⟨0, fun k _ ind => ?_⟩
      simp only [confVal, Bool.and_eq_true] at hv
      exact fmtScalar_total env hf hv.2

/-- A conforming message prints, at the top level and inside another. -/
theorem toText_shows {env : TEnv} {S : Schema} {o : FOpts} {P : DynMsg → Prop} (hS : S.wf = true)
    (hA : AnyShows env S o P) {m : DynMsg} (hm : confMsg S m = true) (hp : keepVal (fun _ => True) P m.toValue) :
    (∃ k0, ∀ k, k0 ≤ k → ∃ s, toText env S o k m = some s) ∧ Prints env S o m.toValue none := by
  obtain ⟨md, hC⟩ := confMsg_iff.1 hm
  have hmd : S.msg? m.desc = some md := hC.desc
  simp only [DynMsg.toValue, keepVal] at hp
  have h := fmtMsg_shows (env := env) hS hA hC hp.1 hp.2
    (fun f v hf hv hq hd => fmtVal_shows hS hA _ f v hf.kind hv hq (Nat.lt_succ_self _))
  refine ⟨?_, msg_prints hS hmd h⟩
  obtain ⟨a, ha⟩ := h
  exact ⟨a, fun k hk => by simp only [toText, hmd]; exact ha k hk 0⟩

mutual
theorem keepVal_all {P : DynMsg → Prop} (hP : ∀ x, P x) : ∀ (v : Value), keepVal (fun _ => True) P v
  | .msg d fs => by simp only [keepVal]; exact ⟨hP _, keepSlots_all hP fs⟩
  | .list vs => by simp only [keepVal]; exact keepVals_all hP vs
  | .map kvs => by simp only [keepVal]; exact keepMap_all hP kvs
  | .f32 _ | .f64 _ | .i32 _ | .i64 _ | .u32 _ | .u64 _ | .bool _ | .str _ | .bytes _ | .enum _ => by simp only [keepVal]
theorem keepVals_all {P : DynMsg → Prop} (hP : ∀ x, P x) : ∀ (vs : List Value), keepVals (fun _ => True) P vs
  | [] => by simp only [keepVals]
  | v :: r => by simp only [keepVals]; exact ⟨keepVal_all hP v, keepVals_all hP r⟩
theorem keepMap_all {P : DynMsg → Prop} (hP : ∀ x, P x) : ∀ (kvs : List (MapKey × Value)), keepMap (fun _ => True) P kvs
  | [] => by simp only [keepMap]
  | (_, v) :: r => by simp only [keepMap]; exact ⟨keepVal_all hP v, keepMap_all hP r⟩
theorem keepSlots_all {P : DynMsg → Prop} (hP : ∀ x, P x) : ∀ (fs : List (Nat × Slot)), keepSlots (fun _ => True) P fs
  | [] => by simp only [keepSlots]
  | (_, .val v) :: r => by simp only [keepSlots]; exact ⟨keepVal_all hP v, keepSlots_all hP r⟩
  | (_, .unknown _) :: r | (_, .taken) :: r => by simp only [keepSlots]; exact keepSlots_all hP r
end

/-- The message in an `Any` conforms to its descriptor. -/
theorem asAny_conf {S : Schema} (hS : S.wf = true) {md : MsgDesc} {m : DynMsg} {url : List Char} {body : DynMsg}
    (ha : asAny S md m = some (some (url, body))) : confMsg S body = true := by
  unfold asAny at ha
  split at ha
  · cases ha
  split at ha <;> try (cases ha; done)
  split at ha <;> try (cases ha; done)
  split at ha <;> try (cases ha; done)
  split at ha <;> try (cases ha; done)
  rename_i i hmn
  split at ha
  · cases ha
  rename_i p hdec
  cases ha
  obtain ⟨pd, hpd⟩ : ∃ pd, S.msg? i = some pd := by
    have := (List.findIdx?_eq_some_iff_getElem.1 hmn).1
    exact ⟨S.msgs[i], by simp [Schema.msg?, this]⟩
  exact ((merge_ok hS (confMsg_iff.2 ⟨pd, Conf.empty hpd⟩) _).2 body hdec).1

end Verif.Text
