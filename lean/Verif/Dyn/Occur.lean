import Verif.Dyn.UnknownKeep
import Verif.Dyn.PackedMix
import Verif.Dyn.Same
/-! Helper lemmas for C04 and C10: wire occurrences of one field. -/
set_option autoImplicit false
namespace Verif.Dyn
open Verif.Wire

/-- Lists ascending in the number are determined by their parts of each number. -/
theorem sorted_filter_ext : ∀ (a b : List UField), a.Pairwise (fun p q => p.1 ≤ q.1) →
    b.Pairwise (fun p q => p.1 ≤ q.1) →
    (∀ k, a.filter (fun p => p.1 == k) = b.filter (fun p => p.1 == k)) → a = b := by
  intro a
  induction a with
  | nil =>
    intro b _ _ h
    cases b with
    | nil => rfl
    | cons q s => have := h q.1; simp at this
  | cons p r ih =>
    intro b ha hb h
    cases b with
    | nil => have := h p.1; simp at this
    | cons q s =>
      have hpq : p.1 = q.1 := by
        have h1 := h p.1
        have h2 := h q.1
        rw [List.pairwise_cons] at ha hb
        by_cases he : p.1 = q.1
        · exact he
        · have hp : p ∈ (q :: s).filter (fun x => x.1 == p.1) := by rw [← h1]; simp
          have hq : q ∈ (p :: r).filter (fun x => x.1 == q.1) := by rw [h2]; simp
          simp only [List.mem_filter, List.mem_cons, beq_self_eq_true, and_true] at hp hq
          have hp' : p ∈ s := by
            rcases hp with hp | hp
            · exact absurd (by rw [hp]) he
            · exact hp
          have hq' : q ∈ r := by
            rcases hq with hq | hq
            · exact absurd (by rw [hq]) he
            · exact hq
          have := hb.1 p hp'
          have := ha.1 q hq'
          omega
      have h1 := h p.1
      have hqe : (q.1 == p.1) = true := by simp [hpq]
      simp only [List.filter_cons, beq_self_eq_true, if_true, hqe, List.cons.injEq] at h1
      obtain ⟨rfl, _⟩ := h1
      congr 1
      refine ih s (List.pairwise_cons.1 ha).2 (List.pairwise_cons.1 hb).2 (fun k => ?_)
      have := h k
      simp only [List.filter_cons] at this
      split at this
      · simpa using this
      · exact this

theorem iterUnknown_ext {S : Schema} {m m' : DynMsg} {md : MsgDesc} (h : Conf S m md) (h' : Conf S m' md)
    (hu : ∀ k, unknownAt m'.fields k = unknownAt m.fields k) :
    iterUnknown m'.fields = iterUnknown m.fields := by
  have s1 : SMap.sortedFrom 0 m.fields = true := h.sorted
  have s2 : SMap.sortedFrom 0 m'.fields = true := h'.sorted
  refine sorted_filter_ext _ _ (iterUnknown_sorted _ 0 s2 h'.unknown_numbers).1
    (iterUnknown_sorted _ 0 s1 h.unknown_numbers).1 (fun k => ?_)
  rw [iterUnknown_filter _ 0 s2 h'.unknown_numbers, iterUnknown_filter _ 0 s1 h.unknown_numbers, hu]

/-- `m'` is `m` with field `f` holding `v` and the other members of its oneof cleared. -/
structure Placed (S : Schema) (md : MsgDesc) (m : DynMsg) (f : FieldDesc) (v : Value) (m' : DynMsg) :
    Prop where
  desc : m'.desc = m.desc
  conf : Conf S m' md
  get : FieldSet.getValue m'.fields f.number = some v
  sib : ∀ k ∈ siblings md f, SMap.get? m'.fields k = none
  other : ∀ k, k ≠ f.number → k ∉ siblings md f → SMap.get? m'.fields k = SMap.get? m.fields k
  unknown : iterUnknown m'.fields = iterUnknown m.fields

theorem Known.cases {S : Schema} {d : Nat} {md : MsgDesc} {f : FieldDesc} (hm : S.msg? d = some md)
    (h : Known S d f) : md.getField f.number = some f ∨ md.getExtension f.number = some f := by
  rcases h with h | h
  · rw [field?_eq hm] at h; exact .inl h
  · rw [ext?_eq hm] at h; exact .inr h

/-- A run of occurrences of one known field. -/
theorem run_known {S : Schema} (hS : S.wf = true) {m : DynMsg} {md : MsgDesc} (hC : Conf S m md)
    {f : FieldDesc} (hk : Known S m.desc f) {cur v' : Value} {b : Bytes}
    (hcur : FieldSet.get S m.fields f = some cur) (hb : b ≠ [])
    (hv : VSteps S recursionLimit f cur b v') :
    ∃ m', merge S m b = .ok m' ∧ Placed S md m f v' m' := by
  have hw := Schema.wf_msg hS hC.desc
  have key : ∀ (X : Value → DynMsg) (v : Value),
      (∀ c, (X c).desc = m.desc) →
      (∀ c k, SMap.get? (X c).fields k = if k = f.number then some (.val c) else
        if k ∈ siblings md f then none else SMap.get? m.fields k) →
      (FieldSet.getValue m.fields f.number = some v ∨
        FieldSet.getValue m.fields f.number = none ∧ fieldDefault S f = some v) →
      ValidNumber f.number →
      (∀ k, k = f.number ∨ k ∈ siblings md f → unknownAt m.fields k = []) →
      (∀ (w : WireType) (b : Bytes), msgMerge S recursionLimit m f.number w b =
        mapV X (valueMerge S recursionLimit (nestedAt S recursionLimit) f v w b)) →
      (∀ (c : Value) (w : WireType) (b : Bytes), msgMerge S recursionLimit (X c) f.number w b =
        mapV X (valueMerge S recursionLimit (nestedAt S recursionLimit) f c w b)) →
      ∃ m', merge S m b = .ok m' ∧ Placed S md m f v' m' := by
    intro X v hd hX hvv hn hun h1 h2
    have : cur = v := by
      unfold FieldSet.get at hcur
      rcases hvv with h | ⟨h, h'⟩
      · rw [h] at hcur; exact (Option.some.inj hcur).symm
      · rw [h] at hcur; simp only [h', Option.some.injEq] at hcur; exact hcur.symm
    subst this
    have hs := VSteps.placeFrom hn h1 h2 hv hb
    have hm : merge S m b = .ok (X v') := by
      unfold merge; rw [mergeAll_of_fsteps hs]
    refine ⟨X v', hm, ?_⟩
    obtain ⟨hc', hdd⟩ := (merge_ok hS (confMsg_iff.2 ⟨md, hC⟩) b).2 _ hm
    obtain ⟨md', hC'⟩ := confMsg_iff.1 hc'
    have : md' = md := by
      have := hC'.desc; rw [hdd, hC.desc] at this; exact (Option.some.inj this).symm
    subst this
    refine ⟨hd _, hC', ?_, ?_, ?_, ?_⟩
    · unfold FieldSet.getValue; rw [hX, if_pos rfl]
    · intro k hk
      rw [hX, if_neg, if_pos hk]
      rintro rfl; exact not_mem_siblings hk
    · intro k h1 h2; rw [hX, if_neg h1, if_neg h2]
    · refine iterUnknown_ext hC hC' (fun k => ?_)
      by_cases hkf : k = f.number
      · rw [hun k (.inl hkf)]; unfold unknownAt; rw [hX, if_pos hkf]
      · by_cases hks : k ∈ siblings md' f
        · rw [hun k (.inr hks)]; unfold unknownAt; rw [hX, if_neg hkf, if_pos hks]
        · unfold unknownAt; rw [hX, if_neg hkf, if_neg hks]
  have noUnk : ∀ k, (md.getField k).isSome ∨ (md.getExtension k).isSome → unknownAt m.fields k = [] := by
    intro k hk
    unfold unknownAt
    cases hg : SMap.get? m.fields k with
    | none => rfl
    | some s =>
      cases s with
      | taken => rfl
      | val v => rfl
      | unknown u =>
        have := hC.get hg
        simp only [confSlot, field?_eq hC.desc, ext?_eq hC.desc, Bool.and_eq_true,
          Option.isNone_iff_eq_none] at this
        rw [this.1.1, this.1.2] at hk
        simp at hk
  rcases hk.cases hC.desc with hf | hf
  · have hfw := hw.fields f (getField_mem hf).1
    obtain ⟨v, hcv, hvv, h1, h2⟩ := field_place hS hC hf recursionLimit
    have hgc : ∀ k, SMap.get? (FieldSet.clearAll (siblings md f) m.fields) k =
        if k ∈ siblings md f then none else SMap.get? m.fields k :=
      get?_clearAll _ _ hC.sorted
    have hgv : FieldSet.getValue (FieldSet.clearAll (siblings md f) m.fields) f.number =
        FieldSet.getValue m.fields f.number := by
      unfold FieldSet.getValue; rw [hgc, if_neg not_mem_siblings]
    rw [hgv] at hvv
    refine key (fun c => ⟨m.desc, SMap.insert f.number (.val c) (FieldSet.clearAll (siblings md f) m.fields)⟩)
      v (fun _ => rfl) (fun c k => ?_) hvv hfw.num (fun k hk => noUnk k ?_) h1 h2
    · simp only [SMap.get?_insert, hgc]
    · rcases hk with rfl | hk
      · simp [hf]
      · obtain ⟨g, hg⟩ := getField_of_sibling hw.nodup hk
        simp [hg]
  · obtain ⟨hmem, _⟩ := getExtension_mem hf
    have hfw := hw.exts f hmem
    have hnos : siblings md f = [] := by
      have := (hw.extNew f hmem).2
      unfold siblings
      rw [this]
    obtain ⟨v, hcv, hvv, h1, h2⟩ := ext_place hS hC hf recursionLimit
    refine key (fun c => ⟨m.desc, SMap.insert f.number (.val c) m.fields⟩)
      v (fun _ => rfl) (fun c k => ?_) hvv hfw.num (fun k hk => noUnk k ?_) h1 h2
    · simp only [SMap.get?_insert, hnos, List.not_mem_nil, if_false]
    · rw [hnos] at hk
      rcases hk with rfl | hk
      · simp [hf]
      · cases hk

/-! ### Occurrences of the four shapes -/

/-- Occurrences of a scalar field: `none` when a value is not of the kind. -/
def scalarOccs (f : FieldDesc) : List Value → Option Bytes
  | [] => some []
  | v :: r =>
    match scalarEnc f.kind v, scalarOccs f r with
    | some a, some b => some (encodeKey f.number f.kind.wireType ++ a ++ b)
    | _, _ => none

/-- A singular scalar ends up with the last value. -/
theorem scalarOccs_steps {S : Schema} {d : Nat} {f : FieldDesc} (hk : f.kind.isMessage = false)
    : ∀ (vs : List Value) (cur : Value), scalarOk f.kind cur = true →
      (∀ v ∈ vs, scalarOk f.kind v = true) → ∀ {b : Bytes}, scalarOccs f vs = some b →
      b.length < 2 ^ 64 → VSteps S d f cur b ((cur :: vs).getLast (by simp)) := by
  intro vs
  induction vs with
  | nil =>
    intro cur _ _ b hb _
    simp only [scalarOccs, Option.some.injEq] at hb
    subst hb
    exact VSteps.nil _
  | cons v r ih =>
    intro cur hcur hv b hb hl
    simp only [scalarOccs] at hb
    split at hb
    · rename_i x y h1 h2
      cases hb
      simp only [List.length_append] at hl
      have hvv := hv v List.mem_cons_self
      have := ih v hvv (fun w hw => hv w (List.mem_cons_of_mem _ hw)) h2 (by omega)
      rw [List.getLast_cons_cons]
      refine VSteps.cons f.kind.wireType_ne_end ?_ this
      intro t
      have hdec := scalarDec_enc h1 (fun b hb => by subst hb; exact scalarOk_utf8 hvv) (by omega) t
      have hval : cur.isValid f.kind = true := by
        cases hkk : f.kind <;> cases cur <;> simp [hkk, scalarOk, Value.isValid] at hcur ⊢
      have : valueMerge S d (nestedAt S d) f cur f.kind.wireType (x ++ t) =
          scalarDec f.kind f.kind.wireType (x ++ t) := by
        cases cur with
        | msg i fs => cases hkk : f.kind <;> simp [hkk, Kind.isMessage, Value.isValid] at hk hval
        | list vs => cases hkk : f.kind <;> simp [hkk, Value.isValid] at hval
        | map vs => cases hkk : f.kind <;> simp [hkk, Value.isValid] at hval
        | _ => simp only [valueMerge, singularMerge, hval, if_true]
      rw [this, hdec]
    · cases hb

/-- Occurrences of a list field holding strings or bytes, or packable elements one by one. -/
theorem listOccs_steps {S : Schema} {d : Nat} {f : FieldDesc} (hf : FieldWf S f) (hL : isList S f = true)
    (hk : f.kind.isMessage = false) : ∀ (vs ws : List Value),
      (∀ v ∈ vs, scalarOk f.kind v = true) → ∀ {b : Bytes}, scalarOccs f vs = some b →
      b.length < 2 ^ 64 → VSteps S d f (.list ws) b (.list (ws ++ vs)) := by
  intro vs
  induction vs with
  | nil =>
    intro ws _ b hb _
    simp only [scalarOccs, Option.some.injEq] at hb
    subst hb
    simpa using VSteps.nil _
  | cons v r ih =>
    intro ws hv b hb hl
    simp only [scalarOccs] at hb
    split at hb
    · rename_i x y h1 h2
      cases hb
      simp only [List.length_append] at hl
      have hvv := hv v List.mem_cons_self
      have := ih (ws ++ [v]) (fun w hw => hv w (List.mem_cons_of_mem _ hw)) h2 (by omega)
      rw [List.append_assoc, List.singleton_append] at this
      refine VSteps.cons f.kind.wireType_ne_end ?_ this
      intro t
      obtain ⟨v0, h0, hv0⟩ := kindDefault_conf hf
      have hdec := scalarDec_enc h1 (fun b hb => by subst hb; exact scalarOk_utf8 hvv) (by omega) t
      have hw : ¬ (f.kind.wireType = .lengthDelimited ∧ f.kind.packable = true) := by
        intro h; cases hkk : f.kind <;> rw [hkk] at h <;> simp [Kind.wireType, Kind.packable] at h
      simp only [valueMerge, hL, if_true, listMerge, h0, if_neg hw]
      rw [singular_scalar hk hv0, hdec]
      rfl
    · cases hb

/-- One occurrence of a length-delimited message. -/
def msgOcc (n : Nat) (p : Bytes) : Bytes := encodeKey n .lengthDelimited ++ (encodeVarint p.length ++ p)

/-- `Message::merge` of a nested message that may nest `d` levels itself. -/
def mergeAt (S : Schema) (d : Nat) (m : DynMsg) (b : Bytes) : R DynMsg :=
  match mergeAll (msgMerge S d) m b with
  | .error e => .error e
  | .ok (m, _) => .ok m

theorem mergeAt_steps {S : Schema} {d : Nat} {m m' : DynMsg} {b : Bytes} (h : mergeAt S d m b = .ok m') :
    Steps (keyThen (msgMerge S d)) m b m' := by
  unfold mergeAt at h
  split at h
  · cases h
  · rename_i m1 r hr
    cases h
    have := mergeAll_rest hr
    subst this
    unfold mergeAll at hr
    obtain ⟨c, hc, hs⟩ := loopTo_good (r := []) (fun st => keyThen_good (good_msgMerge S d) st)
      (fun st => keyThen_strict (good_msgMerge S d) st) _ _ _ _ hr
    simp only [List.append_nil] at hc
    subst hc
    exact hs

/-- An occurrence of a singular message field merges its payload into the message. -/
theorem msgOcc_step {S : Schema} {d : Nat} {f : FieldDesc} {i : Nat} (hk : f.kind = .message i)
    (hg : f.group = false) {cur cur' : DynMsg} {p : Bytes} (h : mergeAt S d cur p = .ok cur')
    (hl : p.length < 2 ^ 64) :
    VSteps S (d + 1) f cur.toValue (msgOcc f.number p) cur'.toValue := by
  refine VSteps.single (by decide) ?_
  intro t
  have := mergeLoop_of_steps (mergeAt_steps h) hl t
  simp only [valueMerge, singularMerge, DynMsg.toValue, hk, hg, nestedAt, messageMerge]
  rw [List.append_assoc, if_neg (by simp), if_neg (by simp), this]
  rfl

/-- An occurrence of a repeated message field appends the decoded payload. -/
theorem msgListOcc_step {S : Schema} {d : Nat} {f : FieldDesc} {i : Nat} (hk : f.kind = .message i)
    (hL : isList S f = true) (hg : f.group = false) {x : DynMsg} {p : Bytes}
    (h : mergeAt S d (DynMsg.empty i) p = .ok x) (hl : p.length < 2 ^ 64) (ws : List Value) :
    VSteps S (d + 1) f (.list ws) (msgOcc f.number p) (.list (ws ++ [x.toValue])) := by
  refine VSteps.single (by decide) ?_
  intro t
  have := mergeLoop_of_steps (mergeAt_steps h) hl t
  simp only [DynMsg.empty] at this
  simp only [valueMerge, hL, if_true, listMerge, hk, kindDefault, Kind.packable, singularMerge, hg,
    nestedAt, messageMerge]
  rw [if_neg (by simp), List.append_assoc, if_neg (by simp), if_neg (by simp), this]
  rfl

/-- The last value given for a key. -/
def lastOf (kvs : List (MapKey × Value)) (k : MapKey) : Option Value :=
  (kvs.reverse.find? (fun p => p.1 == k)).map (·.2)

theorem lastOf_cons (k0 : MapKey) (v0 : Value) (r : List (MapKey × Value)) (k : MapKey) :
    lastOf ((k0, v0) :: r) k = (lastOf r k).or (if k0 = k then some v0 else none) := by
  unfold lastOf
  rw [List.reverse_cons, List.find?_append]
  cases List.find? (fun p => p.1 == k) r.reverse with
  | some p => rfl
  | none =>
    by_cases h : k0 = k
    · subst h; simp
    · have : (k0 == k) = false := by simpa using h
      simp [this, h]

/-- Map entries: the last value of each key wins, other keys stay. -/
theorem get?_mergeMap {S : Schema} (hS : S.wf = true) {kd vd : FieldDesc} (hf : FieldWf S vd) :
    ∀ (kvs m0 : List (MapKey × Value)), confMap S kd vd kvs = true → ∀ k,
    match lastOf kvs k with
    | some v => ∃ w, KMap.get? (mergeMap S vd m0 kvs) k = some w ∧ (v.beq w = false → SameV S v w)
    | none => KMap.get? (mergeMap S vd m0 kvs) k = KMap.get? m0 k := by
  intro kvs
  induction kvs with
  | nil => intro m0 _ k; simp [lastOf, mergeMap]
  | cons p r ih =>
    obtain ⟨k0, v0⟩ := p
    intro m0 hc k
    simp only [confMap, Bool.and_eq_true] at hc
    obtain ⟨w0, hw0, _⟩ := fieldDefault_conf hS hf
    rw [lastOf_cons]
    simp only [mergeMap, hw0]
    have ih' := ih (KMap.insert k0 (if hasVal S vd v0 = some true then mergeVal S vd (emptyLike v0) v0
        else w0) m0) hc.2 k
    cases hl : lastOf r k with
    | some v => rw [hl] at ih'; exact ih'
    | none =>
      rw [hl] at ih'
      simp only [Option.none_or] at ih' ⊢
      rw [KMap.get?_insert] at ih'
      by_cases hk : k0 = k
      · subst hk
        simp only [if_true] at ih' ⊢
        refine ⟨_, ih', ?_⟩
        by_cases hh : hasVal S vd v0 = some true
        · rw [if_pos hh, mergeVal_canon hS v0 vd hc.1.2]
          exact fun _ => sameV_canon hS v0 vd hc.1.2
        · rw [if_neg hh]
          rw [beq_default hh hw0]
          exact fun h => by cases h
      · rw [if_neg (Ne.symm hk)] at ih'
        rw [if_neg hk]
        exact ih'

end Verif.Dyn
