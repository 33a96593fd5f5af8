import Verif.Dyn.MergeEnc
/-!
Merging into an empty message gives the canonical form.
-/
set_option autoImplicit false
namespace Verif.Dyn
open Verif.Wire

/-! ### Look-ups in the canonical form -/

/-- Canonical form of one entry, if it stays. -/
def canonSlot (S : Schema) (d n : Nat) : Slot → Option Slot
  | .taken => none
  | .unknown u => some (.unknown u)
  | .val v =>
    match S.field? d n with
    | some f => if hasVal S f v = some true then some (.val (canonVal S f v)) else none
    | none =>
      match S.ext? d n with
      | some f => if hasVal S f v = some true then some (.val (canonVal S f v)) else none
      | none => none

theorem canonSlots_cons (S : Schema) (d n : Nat) (s : Slot) (r : List (Nat × Slot)) :
    canonSlots S d ((n, s) :: r) =
      match canonSlot S d n s with
      | some t => (n, t) :: canonSlots S d r
      | none => canonSlots S d r := by
  cases s with
  | taken => simp only [canonSlots, canonSlot]
  | unknown u => simp only [canonSlots, canonSlot]
  | val v =>
    simp only [canonSlots, canonSlot]
    cases S.field? d n with
    | some f => by_cases h : hasVal S f v = some true <;> simp [h]
    | none =>
      cases S.ext? d n with
      | some f => by_cases h : hasVal S f v = some true <;> simp [h]
      | none => rfl

theorem sortedFrom_canonSlots {S : Schema} {d : Nat} : ∀ (fs : List (Nat × Slot)) (lo : Nat),
    SMap.sortedFrom lo fs = true → SMap.sortedFrom lo (canonSlots S d fs) = true := by
  intro fs
  induction fs with
  | nil => intro lo _; simp [canonSlots, SMap.sortedFrom]
  | cons p r ih =>
    obtain ⟨n, s⟩ := p
    intro lo h
    simp only [SMap.sortedFrom, Bool.and_eq_true, decide_eq_true_eq] at h
    rw [canonSlots_cons]
    split
    · simp only [SMap.sortedFrom, Bool.and_eq_true, decide_eq_true_eq]
      exact ⟨h.1, ih n h.2⟩
    · exact SMap.sortedFrom_mono (Nat.le_of_lt h.1) (ih n h.2)

theorem get?_canonSlots {S : Schema} {d : Nat} : ∀ (fs : List (Nat × Slot)) (lo : Nat),
    SMap.sortedFrom lo fs = true → ∀ k,
    SMap.get? (canonSlots S d fs) k = (SMap.get? fs k).bind (canonSlot S d k) := by
  intro fs
  induction fs with
  | nil => intro lo _ k; simp [canonSlots, SMap.get?]
  | cons p r ih =>
    obtain ⟨n, s⟩ := p
    intro lo h k
    simp only [SMap.sortedFrom, Bool.and_eq_true, decide_eq_true_eq] at h
    rw [canonSlots_cons]
    by_cases hk : n = k
    · subst hk
      have hnone : SMap.get? (canonSlots S d r) n = none :=
        SMap.get?_eq_none_of_le (sortedFrom_canonSlots r n h.2) (Nat.le_refl n)
      cases hc : canonSlot S d n s with
      | some t => simp [SMap.get?, hc]
      | none => simp [SMap.get?, hc, hnone]
    · cases hc : canonSlot S d n s with
      | some t => simp [SMap.get?, hk, ih n h.2]
      | none => simp [SMap.get?, hk, ih n h.2]

/-! ### Look-ups after merging into a disjoint field set -/

/-- What merging a declared entry stores when nothing was there. -/
def declSlot (S : Schema) (md : MsgDesc) (n : Nat) : Slot → Option Slot
  | .val v =>
    match md.getField n with
    | some f => if hasVal S f v = some true then some (.val (mergeVal S f (emptyLike v) v)) else none
    | none => none
  | _ => none

/-- What merging an extension or unknown entry stores when nothing was there. -/
def restSlot (S : Schema) (md : MsgDesc) (n : Nat) : Slot → Option Slot
  | .val v =>
    match md.getExtension n with
    | some f => if hasVal S f v = some true then some (.val (mergeVal S f (emptyLike v) v)) else none
    | none => none
  | .unknown u => some (.unknown u)
  | .taken => none

theorem getValue_none {fs : FieldSet} {n : Nat} (h : SMap.get? fs n = none) :
    FieldSet.getValue fs n = none := by
  simp [FieldSet.getValue, h]

theorem mergeDecl_get {S : Schema} {d : Nat} {md : MsgDesc} (hm : S.msg? d = some md) :
    ∀ (fs : List (Nat × Slot)) (lo : Nat) (fs0 : FieldSet), SMap.sortedFrom lo fs = true →
      SMap.sorted fs0 = true → OneofInv md fs →
      (∀ k s, SMap.get? fs k = some s → SMap.get? fs0 k = none) →
      (∀ k s f, SMap.get? fs k = some s → md.getField k = some f → ∀ m ∈ siblings md f,
        SMap.get? fs0 m = none) →
      SMap.sorted (mergeDecl S d fs0 fs) = true ∧
      ∀ k, SMap.get? (mergeDecl S d fs0 fs) k =
        ((SMap.get? fs k).bind (declSlot S md k)).or (SMap.get? fs0 k) := by
  intro fs
  induction fs with
  | nil => intro lo fs0 _ hs0 _ _ _; simp only [mergeDecl]; exact ⟨hs0, by intro k; simp [SMap.get?]⟩
  | cons p r ih =>
    obtain ⟨n, s⟩ := p
    intro lo fs0 hs hs0 ho hfree hsib
    have hs' := hs
    simp only [SMap.sortedFrom, Bool.and_eq_true, decide_eq_true_eq] at hs
    have hrn : SMap.get? r n = none := SMap.get?_eq_none_of_le hs.2 (Nat.le_refl n)
    have hget : ∀ k t, SMap.get? r k = some t → k ≠ n ∧ SMap.get? ((n, s) :: r) k = some t := by
      intro k t hk
      have : k ≠ n := by rintro rfl; rw [hrn] at hk; cases hk
      exact ⟨this, by simp [SMap.get?, Ne.symm this, hk]⟩
    have hor : OneofInv md r := by
      intro k g t hk hg m hmm
      have h1 := ho k g t (hget k t hk).2 hg m hmm
      simp only [SMap.get?] at h1
      split at h1
      · cases h1
      · exact h1
    have skip : declSlot S md n s = none → mergeDecl S d fs0 ((n, s) :: r) = mergeDecl S d fs0 r →
        SMap.sorted (mergeDecl S d fs0 ((n, s) :: r)) = true ∧
        ∀ k, SMap.get? (mergeDecl S d fs0 ((n, s) :: r)) k =
          ((SMap.get? ((n, s) :: r) k).bind (declSlot S md k)).or (SMap.get? fs0 k) := by
      intro hd he
      rw [he]
      obtain ⟨h1, h2⟩ := ih n fs0 hs.2 hs0 hor (fun k t hk => hfree k t (hget k t hk).2)
        (fun k t f hk hf => hsib k t f (hget k t hk).2 hf)
      refine ⟨h1, fun k => ?_⟩
      rw [h2]
      by_cases hk : n = k
      · subst hk; simp [SMap.get?, hrn, hd]
      · simp [SMap.get?, hk]
    cases s with
    | taken => exact skip rfl (by simp only [mergeDecl])
    | unknown u => exact skip rfl (by simp only [mergeDecl])
    | val v =>
      cases hf : md.getField n with
      | none => exact skip (by simp [declSlot, hf]) (by simp only [mergeDecl, hm, hf])
      | some f =>
        by_cases hh : hasVal S f v = some true
        · have hfn := (getField_mem hf).2
          have hself : SMap.get? ((n, Slot.val v) :: r) n = some (.val v) := by simp [SMap.get?]
          have hcl : ∀ k, SMap.get? (FieldSet.clearAll (siblings md f) fs0) k = SMap.get? fs0 k := by
            intro k
            rw [get?_clearAll _ _ hs0]
            split
            · rename_i hk; exact (hsib n _ f hself hf k hk).symm
            · rfl
          have hcur : curOr (FieldSet.clearAll (siblings md f) fs0) n v = emptyLike v := by
            unfold curOr
            rw [getValue_none (by rw [hcl]; exact hfree n _ hself)]
          have he : mergeDecl S d fs0 ((n, .val v) :: r) = mergeDecl S d (SMap.insert n
              (.val (mergeVal S f (emptyLike v) v)) (FieldSet.clearAll (siblings md f) fs0)) r := by
            simp only [mergeDecl, hm, hf, hh, if_true, hcur]
          rw [he]
          obtain ⟨h1, h2⟩ := ih n (SMap.insert n (.val (mergeVal S f (emptyLike v) v))
              (FieldSet.clearAll (siblings md f) fs0)) hs.2
            (SMap.sorted_insert (Nat.lt_of_le_of_lt (Nat.zero_le _) hs.1) (sorted_clearAll _ _ hs0)) hor
            (fun k t hk => by
              rw [SMap.get?_insert, if_neg (hget k t hk).1, hcl]
              exact hfree k t (hget k t hk).2)
            (fun k t g hk hg m hmm => by
              have hmn : m ≠ n := by
                rintro rfl
                have := ho k g t (hget k t hk).2 hg _ hmm
                rw [hself] at this; cases this
              rw [SMap.get?_insert, if_neg hmn, hcl]
              exact hsib k t g (hget k t hk).2 hg m hmm)
          refine ⟨h1, fun k => ?_⟩
          rw [h2, SMap.get?_insert]
          by_cases hk : n = k
          · subst hk; simp [SMap.get?, hrn, declSlot, hf, hh]
          · rw [if_neg (Ne.symm hk), hcl]; simp [SMap.get?, hk]
        · exact skip (by simp [declSlot, hf, hh]) (by simp only [mergeDecl, hm, hf, hh, if_false])

theorem mergeRest_get {S : Schema} {d : Nat} {md : MsgDesc} (hm : S.msg? d = some md) :
    ∀ (fs : List (Nat × Slot)) (lo : Nat) (fs0 : FieldSet), SMap.sortedFrom lo fs = true →
      SMap.sorted fs0 = true →
      (∀ k s, SMap.get? fs k = some s → (restSlot S md k s).isSome = true → SMap.get? fs0 k = none) →
      SMap.sorted (mergeRest S d fs0 fs) = true ∧
      ∀ k, SMap.get? (mergeRest S d fs0 fs) k =
        ((SMap.get? fs k).bind (restSlot S md k)).or (SMap.get? fs0 k) := by
  intro fs
  induction fs with
  | nil => intro lo fs0 _ hs0 _; simp only [mergeRest]; exact ⟨hs0, by intro k; simp [SMap.get?]⟩
  | cons p r ih =>
    obtain ⟨n, s⟩ := p
    intro lo fs0 hs hs0 hfree
    simp only [SMap.sortedFrom, Bool.and_eq_true, decide_eq_true_eq] at hs
    have hrn : SMap.get? r n = none := SMap.get?_eq_none_of_le hs.2 (Nat.le_refl n)
    have hget : ∀ k t, SMap.get? r k = some t → k ≠ n ∧ SMap.get? ((n, s) :: r) k = some t := by
      intro k t hk
      have : k ≠ n := by rintro rfl; rw [hrn] at hk; cases hk
      exact ⟨this, by simp [SMap.get?, Ne.symm this, hk]⟩
    have hself : SMap.get? ((n, s) :: r) n = some s := by simp [SMap.get?]
    have skip : restSlot S md n s = none → mergeRest S d fs0 ((n, s) :: r) = mergeRest S d fs0 r →
        SMap.sorted (mergeRest S d fs0 ((n, s) :: r)) = true ∧
        ∀ k, SMap.get? (mergeRest S d fs0 ((n, s) :: r)) k =
          ((SMap.get? ((n, s) :: r) k).bind (restSlot S md k)).or (SMap.get? fs0 k) := by
      intro hd he
      rw [he]
      obtain ⟨h1, h2⟩ := ih n fs0 hs.2 hs0 (fun k t hk => hfree k t (hget k t hk).2)
      refine ⟨h1, fun k => ?_⟩
      rw [h2]
      by_cases hk : n = k
      · subst hk; simp [SMap.get?, hrn, hd]
      · simp [SMap.get?, hk]
    have push : ∀ t, restSlot S md n s = some t →
        mergeRest S d fs0 ((n, s) :: r) = mergeRest S d (SMap.insert n t fs0) r →
        SMap.sorted (mergeRest S d fs0 ((n, s) :: r)) = true ∧
        ∀ k, SMap.get? (mergeRest S d fs0 ((n, s) :: r)) k =
          ((SMap.get? ((n, s) :: r) k).bind (restSlot S md k)).or (SMap.get? fs0 k) := by
      intro t hd he
      rw [he]
      obtain ⟨h1, h2⟩ := ih n (SMap.insert n t fs0) hs.2
        (SMap.sorted_insert (Nat.lt_of_le_of_lt (Nat.zero_le _) hs.1) hs0)
        (fun k t hk hr => by
          rw [SMap.get?_insert, if_neg (hget k t hk).1]
          exact hfree k t (hget k t hk).2 hr)
      refine ⟨h1, fun k => ?_⟩
      rw [h2, SMap.get?_insert]
      by_cases hk : n = k
      · subst hk; simp [SMap.get?, hrn, hd]
      · rw [if_neg (Ne.symm hk)]; simp [SMap.get?, hk]
    cases s with
    | taken => exact skip rfl (by simp only [mergeRest])
    | unknown u =>
      refine push (.unknown u) rfl ?_
      simp only [mergeRest, addUnknowns, hfree n _ hself rfl]
    | val v =>
      cases he : md.getExtension n with
      | none =>
        exact skip (by simp [restSlot, he]) (by simp only [mergeRest, ext?_eq hm, he])
      | some f =>
        by_cases hh : hasVal S f v = some true
        · have hr : restSlot S md n (.val v) = some (.val (mergeVal S f (emptyLike v) v)) := by
            simp [restSlot, he, hh]
          refine push _ hr ?_
          have : curOr fs0 n v = emptyLike v := by
            unfold curOr
            rw [getValue_none (hfree n _ hself (by rw [hr]; rfl))]
          simp only [mergeRest, ext?_eq hm, he, hh, if_true, this]
        · exact skip (by simp [restSlot, he, hh]) (by simp only [mergeRest, ext?_eq hm, he, hh, if_false])

/-- The inductive hypothesis for the entries of a message. -/
def SlotsIH (S : Schema) (d : Nat) (fs : List (Nat × Slot)) : Prop :=
  ∀ n v f, (n, Slot.val v) ∈ fs → (S.field? d n = some f ∨ (S.field? d n = none ∧ S.ext? d n = some f)) →
    mergeVal S f (emptyLike v) v = canonVal S f v

theorem mergeEmpty_canon {S : Schema} (hS : S.wf = true) {d : Nat} {fs : FieldSet}
    (hc : confMsg S ⟨d, fs⟩ = true) (ih : SlotsIH S d fs) :
    mergeRest S d (mergeDecl S d [] fs) fs = canonSlots S d fs := by
  obtain ⟨md, hC⟩ := confMsg_iff.1 hc
  have hw := Schema.wf_msg hS hC.desc
  have hm := hC.desc
  simp only at hm
  have hsort : SMap.sortedFrom 0 fs = true := hC.sorted
  obtain ⟨d1, d2⟩ := mergeDecl_get (S := S) hm fs 0 [] hsort rfl hC.oneof
    (fun k s _ => rfl) (fun k s f _ _ m _ => rfl)
  have hdisj : ∀ k s, SMap.get? fs k = some s → (restSlot S md k s).isSome = true →
      SMap.get? (mergeDecl S d [] fs) k = none := by
    intro k s hk hr
    rw [d2, hk]
    have hnil : SMap.get? ([] : FieldSet) k = none := rfl
    cases s with
    | taken => simp [restSlot] at hr
    | unknown u => simp [declSlot, hnil]
    | val v =>
      cases he : md.getExtension k with
      | none => simp [restSlot, he] at hr
      | some f =>
        obtain ⟨hmem, hn⟩ := getExtension_mem he
        have := (hw.extNew f hmem).1
        rw [hn] at this
        simp [declSlot, this, hnil]
  obtain ⟨r1, r2⟩ := mergeRest_get (S := S) hm fs 0 _ hsort d1 hdisj
  refine SMap.sorted_ext r1 (sortedFrom_canonSlots fs 0 hsort) ?_
  intro k
  rw [r2, d2, get?_canonSlots fs 0 hsort]
  have hnil : SMap.get? ([] : FieldSet) k = none := rfl
  rw [hnil, Option.or_none]
  cases hk : SMap.get? fs k with
  | none => simp
  | some s =>
    have hmem := SMap.mem_of_get? hk
    simp only [Option.bind_some]
    cases s with
    | taken => simp [restSlot, declSlot, canonSlot]
    | unknown u => simp [restSlot, declSlot, canonSlot]
    | val v =>
      simp only [restSlot, declSlot, canonSlot, field?_eq hm, ext?_eq hm]
      cases hf : md.getField k with
      | some f =>
        have he : md.getExtension k = none := by
          cases he : md.getExtension k with
          | none => rfl
          | some g =>
            obtain ⟨hmem, hn⟩ := getExtension_mem he
            have := (hw.extNew g hmem).1
            rw [hn, hf] at this; cases this
        have := ih k v f hmem (.inl (by rw [field?_eq hm]; exact hf))
        simp only [he, this, Option.none_or]
      | none =>
        cases he : md.getExtension k with
        | none => rfl
        | some f =>
          have := ih k v f hmem (.inr ⟨by rw [field?_eq hm]; exact hf, by rw [ext?_eq hm]; exact he⟩)
          simp only [this, Option.or_none]

theorem mergeMap_append {S : Schema} {vd : FieldDesc} :
    ∀ (kvs m0 : List (MapKey × Value)), KMap.distinct kvs = true →
      (∀ k v, (k, v) ∈ kvs → KMap.get? m0 k = none) →
      (∀ k v, (k, v) ∈ kvs → mergeVal S vd (emptyLike v) v = canonVal S vd v) →
      mergeMap S vd m0 kvs = m0 ++ canonMap S vd kvs := by
  intro kvs
  induction kvs with
  | nil => intro m0 _ _ _; simp [mergeMap, canonMap]
  | cons p r ih =>
    obtain ⟨k, v⟩ := p
    intro m0 hd hfree hih
    simp only [KMap.distinct, Bool.and_eq_true, Option.isNone_iff_eq_none] at hd
    simp only [mergeMap, canonMap]
    rw [KMap.insert_fresh (hfree k v List.mem_cons_self), hih k v List.mem_cons_self, ih _ hd.2]
    · simp
    · intro k' v' hk'
      rw [KMap.get?_append, hfree k' v' (List.mem_cons_of_mem _ hk')]
      have : k ≠ k' := by
        rintro rfl
        have h1 := hd.1
        have : ∀ l : List (MapKey × Value), (k, v') ∈ l → KMap.get? l k ≠ none := by
          intro l
          induction l with
          | nil => intro h; cases h
          | cons q l ihl =>
            obtain ⟨a, b⟩ := q
            intro h
            simp only [KMap.get?]
            split
            · simp
            · rename_i hne
              rcases List.mem_cons.1 h with h | h
              · cases h; exact absurd rfl hne
              · exact ihl h
        exact this r hk' h1
      simp [KMap.get?, this]
    · exact fun k' v' h => hih k' v' (List.mem_cons_of_mem _ h)

mutual
theorem mergeVal_canon {S : Schema} (hS : S.wf = true) : (v : Value) → (f : FieldDesc) →
    confVal S f v = true → mergeVal S f (emptyLike v) v = canonVal S f v
  | .msg d fs, f, h => by
    obtain ⟨_, _, hc⟩ := confMsg_of_confVal h
    have hc' := hc
    simp only [confMsg, Bool.and_eq_true] at hc'
    have ih := slots_canon hS fs d hc'.2
    simp only [emptyLike, mergeVal, canonVal, mergeEmpty_canon hS hc ih]
  | .list vs, f, h => by
    simp only [confVal, Bool.and_eq_true] at h
    simp only [emptyLike, mergeVal, canonVal, List.nil_append, vals_canon hS vs f.elem h.2]
  | .map kvs, f, h => by
    simp only [confVal, Bool.and_eq_true] at h
    obtain ⟨_, h⟩ := h
    simp only [emptyLike, mergeVal, canonVal]
    cases hk : f.kind with
    | message i =>
      rw [hk] at h
      simp only at h ⊢
      cases hkv : S.mapKV i with
      | none => simp [hkv] at h
      | some p =>
        obtain ⟨kd, vd⟩ := p
        rw [hkv] at h
        simp only [Bool.and_eq_true] at h
        simp only
        rw [mergeMap_append kvs [] h.1 (fun _ _ _ => rfl) (map_canon hS kvs kd vd h.2)]
        rfl
    | _ => simp [hk] at h
  | .bool _, _, _ => by simp only [mergeVal, canonVal]
  | .i32 _, _, _ => by simp only [mergeVal, canonVal]
  | .i64 _, _, _ => by simp only [mergeVal, canonVal]
  | .u32 _, _, _ => by simp only [mergeVal, canonVal]
  | .u64 _, _, _ => by simp only [mergeVal, canonVal]
  | .f32 _, _, _ => by simp only [mergeVal, canonVal]
  | .f64 _, _, _ => by simp only [mergeVal, canonVal]
  | .str _, _, _ => by simp only [mergeVal, canonVal]
  | .bytes _, _, _ => by simp only [mergeVal, canonVal]
  | .enum _, _, _ => by simp only [mergeVal, canonVal]
theorem vals_canon {S : Schema} (hS : S.wf = true) : (vs : List Value) → (f : FieldDesc) →
    confVals S f vs = true → normVals S f vs = canonVals S f vs
  | [], _, _ => by simp [normVals, canonVals]
  | v :: r, f, h => by
    simp only [confVals, Bool.and_eq_true] at h
    simp only [normVals, canonVals, mergeVal_canon hS v f h.1, vals_canon hS r f h.2]
theorem map_canon {S : Schema} (hS : S.wf = true) : (kvs : List (MapKey × Value)) →
    (kd vd : FieldDesc) → confMap S kd vd kvs = true →
    ∀ k v, (k, v) ∈ kvs → mergeVal S vd (emptyLike v) v = canonVal S vd v
  | [], _, _, _, _, _, hm => by cases hm
  | (k', v') :: r, kd, vd, h, k, v, hm => by
    simp only [confMap, Bool.and_eq_true] at h
    have h1 := mergeVal_canon hS v' vd h.1.2
    rcases List.mem_cons.1 hm with he | he
    · cases he; exact h1
    · exact map_canon hS r kd vd h.2 k v he
theorem slots_canon {S : Schema} (hS : S.wf = true) : (fs : List (Nat × Slot)) → (d : Nat) →
    confSlots S d fs = true → SlotsIH S d fs
  | [], _, _ => by intro n v f h; cases h
  | (n', .taken) :: r, d, h => by
    simp only [confSlots] at h
    have ih := slots_canon hS r d h
    intro n v f hm hf
    rcases List.mem_cons.1 hm with he | he
    · cases he
    · exact ih n v f he hf
  | (n', .unknown u) :: r, d, h => by
    simp only [confSlots, Bool.and_eq_true] at h
    have ih := slots_canon hS r d h.2
    intro n v f hm hf
    rcases List.mem_cons.1 hm with he | he
    · cases he
    · exact ih n v f he hf
  | (n', .val v') :: r, d, h => by
    simp only [confSlots, Bool.and_eq_true] at h
    have ih := slots_canon hS r d h.2
    have hv := mergeVal_canon hS v'
    have h1 := h.1
    intro n v f hm hf
    rcases List.mem_cons.1 hm with he | he
    · cases he
      rcases hf with hf | ⟨hf, hfe⟩
      · rw [hf] at h1; exact hv f h1
      · rw [hf, hfe] at h1; exact hv f h1
    · exact ih n v f he hf
end

/-- Merging into a fresh message is canonicalisation. -/
theorem mergeMsg_empty {S : Schema} (hS : S.wf = true) {m : DynMsg} (h : confMsg S m = true) :
    mergeMsg S (DynMsg.empty m.desc) m = canonMsg S m := by
  have h' := h
  simp only [confMsg, Bool.and_eq_true] at h'
  unfold mergeMsg canonMsg DynMsg.empty
  simp only
  rw [mergeEmpty_canon hS (d := m.desc) (fs := m.fields) h (slots_canon hS m.fields m.desc h'.2)]

theorem confMsg_empty {S : Schema} {m : DynMsg} (h : confMsg S m = true) :
    confMsg S (DynMsg.empty m.desc) = true := by
  obtain ⟨md, hC⟩ := confMsg_iff.1 h
  exact confMsg_iff.2 ⟨md, Conf.empty hC.desc⟩

/-- Decoding the encoding of a conforming message gives its canonical form. -/
theorem decode_encMsg {S : Schema} (hS : S.wf = true) {m : DynMsg} (h : confMsg S m = true)
    (hdep : depthMsg m ≤ recursionLimit) {b : Bytes} (hb : encMsg S m = some b)
    (hl : b.length < 2 ^ 64) :
    decode S m.desc b = .ok (canonMsg S m) ∧ confMsg S (canonMsg S m) = true := by
  have := merge_encMsg hS (confMsg_empty h) h rfl hdep hb hl
  rw [mergeMsg_empty hS h] at this
  exact this

end Verif.Dyn
