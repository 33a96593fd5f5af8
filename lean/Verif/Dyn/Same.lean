import Verif.Dyn.Canon
import Verif.Dyn.Observe
/-!
"Same content": the observational relation C01 and C43 are stated with, and the proof
that the canonical form of a message has the same content as the message.
-/
set_option autoImplicit false
namespace Verif.Dyn
open Verif.Wire

/-- `f` is a field or an extension of message type `d`. -/
def Known (S : Schema) (d : Nat) (f : FieldDesc) : Prop :=
  S.field? d f.number = some f ∨ S.ext? d f.number = some f

/-- Two values have the same content: identical scalars (floats bit for bit), lists with
the same content in the same order, maps with the same content under the same keys
(a value may also be replaced by one that is `==`: a stored -0.0 comes back as +0.0),
and messages of the same type
which report the same fields and extensions as present, with the same content, and
the same unknown fields in the same order. -/
inductive SameV (S : Schema) : Value → Value → Prop where
  | refl (v : Value) : SameV S v v
  | list {vs ws : List Value} (hl : vs.length = ws.length)
      (h : ∀ (i : Nat) v w, vs[i]? = some v → ws[i]? = some w → SameV S v w) : SameV S (.list vs) (.list ws)
  | map {kvs kws : List (MapKey × Value)}
      (hk : ∀ k, (KMap.get? kvs k).isSome = (KMap.get? kws k).isSome)
      (hv : ∀ k v w, KMap.get? kvs k = some v → KMap.get? kws k = some w →
        v.beq w = false → SameV S v w) :
      SameV S (.map kvs) (.map kws)
  | msg {d : Nat} {fs gs : List (Nat × Slot)}
      (hh : ∀ f, Known S d f → FieldSet.has S fs f = FieldSet.has S gs f)
      (hv : ∀ f v w, Known S d f → FieldSet.has S fs f = some true →
        FieldSet.get S fs f = some v → FieldSet.get S gs f = some w → SameV S v w)
      (hu : iterUnknown fs = iterUnknown gs) :
      SameV S (.msg d fs) (.msg d gs)

/-! ### Presence of canonical values -/

theorem iterUnknown_canon {S : Schema} {d : Nat} : ∀ fs : FieldSet,
    iterUnknown (canonSlots S d fs) = iterUnknown fs
  | [] => by simp [canonSlots, iterUnknown]
  | (n, .taken) :: r => by simp only [canonSlots, iterUnknown, iterUnknown_canon r]
  | (n, .unknown u) :: r => by simp only [canonSlots, iterUnknown, iterUnknown_canon r]
  | (n, .val v) :: r => by
    rw [canonSlots_cons]
    cases h : canonSlot S d n (.val v) with
    | none => simp only [iterUnknown, iterUnknown_canon r]
    | some t =>
      have : ∃ w, t = .val w := by
        simp only [canonSlot] at h
        split at h
        · split at h
          · exact ⟨_, (Option.some.inj h).symm⟩
          · cases h
        · split at h
          · split at h
            · exact ⟨_, (Option.some.inj h).symm⟩
            · cases h
          · cases h
      obtain ⟨w, rfl⟩ := this
      simp only [iterUnknown, iterUnknown_canon r]

theorem canonVals_length {S : Schema} {f : FieldDesc} : ∀ vs : List Value,
    (canonVals S f vs).length = vs.length
  | [] => by simp [canonVals]
  | v :: r => by simp only [canonVals, List.length_cons, canonVals_length r]

theorem canonMap_length {S : Schema} {f : FieldDesc} : ∀ vs : List (MapKey × Value),
    (canonMap S f vs).length = vs.length
  | [] => by simp [canonMap]
  | (k, v) :: r => by simp only [canonMap, List.length_cons, canonMap_length r]

/-- Presence does not change. -/
theorem hasVal_canon {S : Schema} {f : FieldDesc} (hf : FieldWf S f) {v : Value}
    (hc : confVal S f v = true) (hp : hasVal S f v = some true) :
    hasVal S f (canonVal S f v) = some true := by
  by_cases hpr : f.presence = true
  · simp [hasVal, hpr]
  · simp only [hasVal, hpr] at hp ⊢
    cases v with
    | msg d fs =>
      obtain ⟨h1, h2, _⟩ := confMsg_of_confVal hc
      exact absurd (hf.msg h1 (by rw [h2]; rfl)) hpr
    | list vs =>
      simp only [confVal, Bool.and_eq_true] at hc
      simp only [isDefault, fieldDefault, hc.1, if_true, Option.map_some, Value.beq, canonVal] at hp ⊢
      cases vs with
      | nil => simp [beqVals] at hp
      | cons w r => simp [beqVals, canonVals]
    | map kvs =>
      simp only [confVal, Bool.and_eq_true] at hc
      have hl : isList S f = false := by
        have := hc.1
        unfold isList; rw [this]; simp
      have hcan : ∃ kvs', canonVal S f (.map kvs) = .map kvs' ∧ kvs'.length = kvs.length := by
        simp only [canonVal]
        split
        · split
          · exact ⟨_, rfl, canonMap_length _⟩
          · exact ⟨_, rfl, rfl⟩
        · exact ⟨_, rfl, rfl⟩
      obtain ⟨kvs', he, hlen⟩ := hcan
      rw [he]
      have hd : fieldDefault S f = some (.map []) := by simp [fieldDefault, hl, hc.1]
      simp only [isDefault, hd, Option.map_some, Value.beq] at hp ⊢
      cases kvs with
      | nil => simp [beqMap] at hp
      | cons p r =>
        cases kvs' with
        | nil => simp at hlen
        | cons q s => simp
    | _ => simp only [canonVal]; exact hp


/-! ### The canonical form has the same content -/

theorem known_conf {S : Schema} (hS : S.wf = true) {d : Nat} {md : MsgDesc} {fs : FieldSet}
    (hC : Conf S ⟨d, fs⟩ md) {f : FieldDesc} (hk : Known S d f) :
    FieldWf S f ∧ ∀ v, SMap.get? fs f.number = some (.val v) → confVal S f v = true ∧
      (S.field? d f.number = some f ∨ (S.field? d f.number = none ∧ S.ext? d f.number = some f)) := by
  have hw := Schema.wf_msg hS hC.desc
  have hm := hC.desc
  simp only at hm
  rcases hk with hk | hk
  · rw [field?_eq hm] at hk
    refine ⟨hw.fields f (getField_mem hk).1, fun v hv => ?_⟩
    have := hC.get hv
    simp only [confSlot, field?_eq hm, hk] at this
    exact ⟨this, .inl (by rw [field?_eq hm]; exact hk)⟩
  · rw [ext?_eq hm] at hk
    obtain ⟨hmem, _⟩ := getExtension_mem hk
    have hnone := (hw.extNew f hmem).1
    refine ⟨hw.exts f hmem, fun v hv => ?_⟩
    have := hC.get hv
    simp only [confSlot, field?_eq hm, ext?_eq hm, hk, hnone] at this
    exact ⟨this, .inr ⟨by rw [field?_eq hm]; exact hnone, by rw [ext?_eq hm]; exact hk⟩⟩

/-- What the canonical form holds for a known field. -/
theorem getValue_canon {S : Schema} (hS : S.wf = true) {d : Nat} {md : MsgDesc} {fs : FieldSet}
    (hC : Conf S ⟨d, fs⟩ md) {f : FieldDesc} (hk : Known S d f) :
    FieldSet.getValue (canonSlots S d fs) f.number =
      match FieldSet.getValue fs f.number with
      | some v => if hasVal S f v = some true then some (canonVal S f v) else none
      | none => none := by
  have hsort : SMap.sortedFrom 0 fs = true := hC.sorted
  unfold FieldSet.getValue
  rw [get?_canonSlots fs 0 hsort]
  cases hg : SMap.get? fs f.number with
  | none => rfl
  | some s =>
    cases s with
    | taken => rfl
    | unknown u => rfl
    | val v =>
      obtain ⟨_, hfd⟩ := (known_conf hS hC hk).2 v hg
      simp only [Option.bind_some, canonSlot]
      rcases hfd with hfd | ⟨hfd, hfe⟩
      · rw [hfd]; simp only
        by_cases hh : hasVal S f v = some true
        · simp only [hh, if_true]
        · simp only [hh, if_false]
      · rw [hfd, hfe]; simp only
        by_cases hh : hasVal S f v = some true
        · simp only [hh, if_true]
        · simp only [hh, if_false]

theorem has_canon {S : Schema} (hS : S.wf = true) {d : Nat} {md : MsgDesc} {fs : FieldSet}
    (hC : Conf S ⟨d, fs⟩ md) {f : FieldDesc} (hk : Known S d f) :
    FieldSet.has S (canonSlots S d fs) f = FieldSet.has S fs f := by
  obtain ⟨hf, hv⟩ := known_conf hS hC hk
  unfold FieldSet.has
  rw [getValue_canon hS hC hk]
  cases hg : FieldSet.getValue fs f.number with
  | none => rfl
  | some v =>
    have hget : SMap.get? fs f.number = some (.val v) := by
      unfold FieldSet.getValue at hg
      split at hg
      · rename_i h; rw [h]; exact congrArg _ (congrArg _ (Option.some.inj hg))
      · cases hg
    simp only
    by_cases hh : hasVal S f v = some true
    · rw [if_pos hh]; simp only [hh]
      exact hasVal_canon hf (hv v hget).1 hh
    · rw [if_neg hh]; simp only
      obtain ⟨b, hb⟩ := hasVal_of_default (S := S) (f := f) (by
        obtain ⟨w, hw, _⟩ := fieldDefault_conf hS hf; rw [hw]; rfl) v
      rw [hb] at hh ⊢
      cases b
      · rfl
      · exact absurd rfl hh

theorem get?_canonMap {S : Schema} {vd : FieldDesc} : ∀ (kvs : List (MapKey × Value)) (k : MapKey),
    KMap.get? (canonMap S vd kvs) k = (KMap.get? kvs k).map (fun v =>
      if hasVal S vd v = some true then canonVal S vd v
        else match fieldDefault S vd with
          | some w => w
          | none => v)
  | [], k => by simp [canonMap, KMap.get?]
  | (j, v) :: r, k => by
    simp only [canonMap, KMap.get?]
    split
    · rfl
    · exact get?_canonMap r k

theorem get?_canonVals {S : Schema} {f : FieldDesc} : ∀ (vs : List Value) (i : Nat),
    (canonVals S f vs)[i]? = vs[i]?.map (canonVal S f)
  | [], i => by simp [canonVals]
  | v :: r, 0 => by simp [canonVals]
  | v :: r, i + 1 => by simp only [canonVals, List.getElem?_cons_succ]; exact get?_canonVals r i

/-- An absent map value equals the default it is replaced by. -/
theorem beq_default {S : Schema} {vd : FieldDesc} {v : Value}
    (hh : ¬ hasVal S vd v = some true) {w : Value} (hw : fieldDefault S vd = some w) :
    v.beq w = true := by
  unfold hasVal isDefault at hh
  rw [hw] at hh
  by_cases hp : vd.presence = true
  · simp [hp] at hh
  · simp only [hp, Bool.false_eq_true, if_false, Option.map_some, Option.some.injEq,
      Bool.not_eq_true'] at hh
    simpa using hh

theorem wf_mapKV {S : Schema} (hS : S.wf = true) {i : Nat} {kd vd : FieldDesc}
    (h : S.mapKV i = some (kd, vd)) : FieldWf S vd := by
  obtain ⟨_, h2⟩ := mapKV_some h
  obtain ⟨md, hm, hf⟩ := Option.bind_eq_some_iff.1 h2
  exact (Schema.wf_msg hS hm).fields vd (getField_mem hf).1

mutual
theorem sameV_canon {S : Schema} (hS : S.wf = true) : (v : Value) → (f : FieldDesc) →
    confVal S f v = true → SameV S v (canonVal S f v)
  | .msg d fs, f, h => by
    obtain ⟨_, _, hc⟩ := confMsg_of_confVal h
    obtain ⟨md, hC⟩ := confMsg_iff.1 hc
    have hc' := hc
    simp only [confMsg, Bool.and_eq_true] at hc'
    have ih := same_slots hS fs d hc'.2
    simp only [canonVal]
    refine .msg (fun f hk => (has_canon hS hC hk).symm) ?_ (iterUnknown_canon fs).symm
    intro g v w hk hh hv hw
    have hval : FieldSet.getValue fs g.number = some v := by
      unfold FieldSet.has at hh
      unfold FieldSet.get at hv
      cases hg : FieldSet.getValue fs g.number with
      | none => rw [hg] at hh; cases hh
      | some x => rw [hg] at hv; exact hv
    have hhv : hasVal S g v = some true := by
      unfold FieldSet.has at hh; rw [hval] at hh; exact hh
    unfold FieldSet.get at hw
    rw [getValue_canon hS hC hk, hval] at hw
    simp only [hhv, if_true, Option.some.injEq] at hw
    subst hw
    have hmem := (getValue_iff hC.sorted).1 hval
    obtain ⟨_, hfd⟩ := (known_conf hS hC hk).2 v (SMap.get?_of_mem hC.sorted hmem)
    exact ih _ _ _ hmem hfd
  | .list vs, f, h => by
    simp only [confVal, Bool.and_eq_true] at h
    have ih := same_vals hS vs f.elem h.2
    simp only [canonVal]
    refine .list (canonVals_length vs).symm ?_
    intro i v w hv hw
    rw [get?_canonVals, hv] at hw
    simp only [Option.map_some, Option.some.injEq] at hw
    subst hw
    exact ih v (List.mem_of_getElem? hv)
  | .map kvs, f, h => by
    simp only [confVal, Bool.and_eq_true] at h
    obtain ⟨hmap, h⟩ := h
    simp only [canonVal]
    cases hk : f.kind with
    | message i =>
      rw [hk] at h
      simp only at h ⊢
      cases hkv : S.mapKV i with
      | none => simp [hkv] at h
      | some p =>
        obtain ⟨kd, vd⟩ := p
        rw [hkv] at h
        simp only [Bool.and_eq_true] at h
        simp only
        have ih := same_map hS kvs kd vd h.2
        refine .map (fun k => by rw [get?_canonMap]; simp) ?_
        intro k v w hv hw hne
        rw [get?_canonMap, hv] at hw
        simp only [Option.map_some, Option.some.injEq] at hw
        subst hw
        by_cases hh : hasVal S vd v = some true
        · rw [if_pos hh]
          refine ih k v ?_
          have : ∀ l : List (MapKey × Value), KMap.get? l k = some v → (k, v) ∈ l := by
            intro l
            induction l with
            | nil => intro h; cases h
            | cons q l ihl =>
              obtain ⟨a, b⟩ := q
              intro h
              simp only [KMap.get?] at h
              split at h
              · rename_i hab; subst hab; cases h; exact List.mem_cons_self
              · exact List.mem_cons_of_mem _ (ihl h)
          exact this kvs hv
        · rw [if_neg hh]
          have hvd : FieldWf S vd := (wf_mapKV hS hkv)
          obtain ⟨w, hw, _⟩ := fieldDefault_conf hS hvd
          rw [if_neg hh, hw] at hne
          simp only at hne
          rw [beq_default hh hw] at hne
          cases hne
    | _ => simp [hk] at h
  | .bool _, _, _ => by simp only [canonVal]; exact .refl _
  | .i32 _, _, _ => by simp only [canonVal]; exact .refl _
  | .i64 _, _, _ => by simp only [canonVal]; exact .refl _
  | .u32 _, _, _ => by simp only [canonVal]; exact .refl _
  | .u64 _, _, _ => by simp only [canonVal]; exact .refl _
  | .f32 _, _, _ => by simp only [canonVal]; exact .refl _
  | .f64 _, _, _ => by simp only [canonVal]; exact .refl _
  | .str _, _, _ => by simp only [canonVal]; exact .refl _
  | .bytes _, _, _ => by simp only [canonVal]; exact .refl _
  | .enum _, _, _ => by simp only [canonVal]; exact .refl _
theorem same_vals {S : Schema} (hS : S.wf = true) : (vs : List Value) → (f : FieldDesc) →
    confVals S f vs = true → ∀ v ∈ vs, SameV S v (canonVal S f v)
  | [], _, _, _, h => by cases h
  | v :: r, f, h, w, hw => by
    simp only [confVals, Bool.and_eq_true] at h
    have h1 := sameV_canon hS v f h.1
    rcases List.mem_cons.1 hw with he | he
    · rw [he]; exact h1
    · exact same_vals hS r f h.2 w he
theorem same_map {S : Schema} (hS : S.wf = true) : (kvs : List (MapKey × Value)) →
    (kd vd : FieldDesc) → confMap S kd vd kvs = true →
    ∀ k v, (k, v) ∈ kvs → SameV S v (canonVal S vd v)
  | [], _, _, _, _, _, hm => by cases hm
  | (k', v') :: r, kd, vd, h, k, v, hm => by
    simp only [confMap, Bool.and_eq_true] at h
    have h1 := sameV_canon hS v' vd h.1.2
    rcases List.mem_cons.1 hm with he | he
    · cases he; exact h1
    · exact same_map hS r kd vd h.2 k v he
theorem same_slots {S : Schema} (hS : S.wf = true) : (fs : List (Nat × Slot)) → (d : Nat) →
    confSlots S d fs = true → ∀ n v f, (n, Slot.val v) ∈ fs →
      (S.field? d n = some f ∨ (S.field? d n = none ∧ S.ext? d n = some f)) →
      SameV S v (canonVal S f v)
  | [], _, _ => by intro n v f h; cases h
  | (n', .taken) :: r, d, h => by
    simp only [confSlots] at h
    have ih := same_slots hS r d h
    intro n v f hm hf
    rcases List.mem_cons.1 hm with he | he
    · cases he
    · exact ih n v f he hf
  | (n', .unknown u) :: r, d, h => by
    simp only [confSlots, Bool.and_eq_true] at h
    have ih := same_slots hS r d h.2
    intro n v f hm hf
    rcases List.mem_cons.1 hm with he | he
    · cases he
    · exact ih n v f he hf
  | (n', .val v') :: r, d, h => by
    simp only [confSlots, Bool.and_eq_true] at h
    have ih := same_slots hS r d h.2
    have hv := sameV_canon hS v'
    have h1 := h.1
    intro n v f hm hf
    rcases List.mem_cons.1 hm with he | he
    · cases he
      rcases hf with hf | ⟨hf, hfe⟩
      · rw [hf] at h1; exact hv f h1
      · rw [hf, hfe] at h1; exact hv f h1
    · exact ih n v f he hf
end

/-- Two messages have the same content. -/
def SameMsg (S : Schema) (a b : DynMsg) : Prop := SameV S a.toValue b.toValue

theorem sameMsg_canon {S : Schema} (hS : S.wf = true) {m : DynMsg} (h : confMsg S m = true) :
    SameMsg S m (canonMsg S m) := by
  obtain ⟨d, fs⟩ := m
  let f : FieldDesc := {
    number := 1, name := [], jsonName := [], kind := (.message d)
    card := .optional, group := false, presence := true, packed := false, default := none,
    oneof := none }
  have : confVal S f (.msg d fs) = true := by
    simp only [confMsg] at h
    simp only [confVal, f, h, Bool.and_true]
    simp
  have := sameV_canon hS (.msg d fs) f this
  simpa only [SameMsg, DynMsg.toValue, canonMsg, canonVal] using this

end Verif.Dyn
