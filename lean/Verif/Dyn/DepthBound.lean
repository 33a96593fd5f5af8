import Verif.Dyn.Conf
/-! Helper lemmas for C08: how deep a decoded message can be. -/
set_option autoImplicit false
namespace Verif.Dyn
open Verif.Wire

def depthSlot : Slot → Nat
  | .taken => 0
  | .unknown u => USet.depth u
  | .val v => depthVal v

theorem depthSlots_le {B : Nat} : ∀ fs : FieldSet,
    depthSlots fs ≤ B ↔ ∀ p ∈ fs, depthSlot p.2 ≤ B
  | [] => by simp [depthSlots]
  | (n, .taken) :: r => by
    simp only [depthSlots, depthSlots_le r, List.forall_mem_cons, depthSlot, Nat.zero_le, true_and]
  | (n, .unknown u) :: r => by
    simp only [depthSlots, List.forall_mem_cons, depthSlot, Nat.max_le, depthSlots_le r]
  | (n, .val v) :: r => by
    simp only [depthSlots, List.forall_mem_cons, depthSlot, Nat.max_le, depthSlots_le r]

theorem depthVals_le {B : Nat} : ∀ vs : List Value,
    depthVals vs ≤ B ↔ ∀ v ∈ vs, depthVal v ≤ B
  | [] => by simp [depthVals]
  | v :: r => by simp only [depthVals, List.forall_mem_cons, Nat.max_le, depthVals_le r]

theorem depthMap_le {B : Nat} : ∀ kvs : List (MapKey × Value),
    depthMap kvs ≤ B ↔ ∀ p ∈ kvs, depthVal p.2 ≤ B
  | [] => by simp [depthMap]
  | (k, v) :: r => by simp only [depthMap, List.forall_mem_cons, Nat.max_le, depthMap_le r]

theorem depth_insert {B n : Nat} {s : Slot} {fs : FieldSet} (hs : depthSlot s ≤ B)
    (h : depthSlots fs ≤ B) : depthSlots (SMap.insert n s fs) ≤ B := by
  rw [depthSlots_le] at *
  intro p hp
  rcases SMap.mem_insert hp with rfl | hp
  · exact hs
  · exact h p hp

theorem depth_clearAll {B : Nat} {ns : List Nat} {fs : FieldSet} (h : depthSlots fs ≤ B) :
    depthSlots (FieldSet.clearAll ns fs) ≤ B := by
  rw [depthSlots_le] at *
  exact fun p hp => h p (mem_clearAll hp)

theorem depth_get {B n : Nat} {s : Slot} {fs : FieldSet} (h : depthSlots fs ≤ B)
    (hg : SMap.get? fs n = some s) : depthSlot s ≤ B :=
  (depthSlots_le fs).1 h (n, s) (SMap.mem_of_get? hg)

theorem scalar_depth {k : Kind} {v : Value} (h : scalarOk k v = true) : depthVal v = 0 := by
  cases v with
  | msg d fs => cases k <;> simp [scalarOk, Value.isValid] at h
  | list vs => cases k <;> simp [scalarOk, Value.isValid] at h
  | map kvs => cases k <;> simp [scalarOk, Value.isValid] at h
  | _ => rfl

theorem kindDefault_depth {S : Schema} {k : Kind} {v : Value} (h : kindDefault S k = some v) :
    depthVal v ≤ 1 := by
  unfold kindDefault at h
  split at h <;> first
    | (cases h; simp [depthVal, depthSlots]; done)
    | (obtain ⟨x, _, rfl⟩ := Option.map_eq_some_iff.1 h; simp [depthVal])

theorem fieldDefault_depth {S : Schema} {f : FieldDesc} (hf : FieldWf S f) {v : Value}
    (h : fieldDefault S f = some v) : depthVal v ≤ 1 := by
  unfold fieldDefault at h
  split at h
  · cases h; simp [depthVal, depthVals]
  · split at h
    · cases h; simp [depthVal, depthMap]
    · split at h
      · rename_i w hd
        cases h
        rw [scalar_depth (hf.dflt _ hd)]; omega
      · exact kindDefault_depth h

theorem getMut_depth {S : Schema} {sib : List Nat} {fs fs' : FieldSet} {f : FieldDesc} {v : Value}
    (hf : FieldWf S f) {B : Nat} (hB : 1 ≤ B) (h : depthSlots fs ≤ B)
    (hg : FieldSet.getMut S sib fs f = some (fs', v)) : depthSlots fs' ≤ B ∧ depthVal v ≤ B := by
  unfold FieldSet.getMut at hg
  have h1 := depth_clearAll (ns := sib) h
  simp only at hg
  split at hg
  · rename_i w hw
    cases hg
    exact ⟨h1, depth_get h1 hw⟩
  · split at hg
    · rename_i w hw
      cases hg
      have := fieldDefault_depth hf hw
      exact ⟨depth_insert (by simp only [depthSlot]; omega) h1, by omega⟩
    · cases hg

section
variable {S : Schema} {nested : Option (FieldFn DynMsg)} {B : Nat}

/-- The nested level keeps messages within one level less. -/
def NestedDepth (nested : Option (FieldFn DynMsg)) (B : Nat) : Prop :=
  ∀ g, nested = some g → 2 ≤ B ∧ ∀ st n w b st' b', depthMsg st ≤ B - 1 →
    g st n w b = .ok (st', b') → depthMsg st' ≤ B - 1

theorem scalarDec_depth {k : Kind} {w : WireType} {b r : Bytes} {v : Value}
    (h : scalarDec k w b = .ok (v, r)) : depthVal v = 0 := scalar_depth (scalarDec_ok h)

theorem singular_depth (hn : NestedDepth nested B) {f : FieldDesc} {v v' : Value} {w : WireType}
    {b r : Bytes} (hv : depthVal v ≤ B) (h : singularMerge nested f v w b = .ok (v', r)) :
    depthVal v' ≤ B := by
  unfold singularMerge at h
  split at h
  · rename_i d fs
    split at h
    · obtain ⟨m, hm, rfl⟩ := mapV_ok h
      simp only [depthVal] at hv
      have hI : ∀ g, nested = some g → ∀ st n w b st' b', 0 < n → n < 2 ^ 29 → depthMsg st ≤ B - 1 →
          g st n w b = .ok (st', b') → depthMsg st' ≤ B - 1 :=
        fun g hg st n w b st' b' _ _ h1 h2 => (hn g hg).2 st n w b st' b' h1 h2
      have hst : depthMsg ⟨d, fs⟩ ≤ B - 1 := by simp only [depthMsg]; omega
      have hmd : depthMsg m ≤ B - 1 := by
        split at hm
        · exact groupMerge_inv (I := fun m => depthMsg m ≤ B - 1) hI hst hm
        · exact messageMerge_inv (I := fun m => depthMsg m ≤ B - 1) hI hst hm
      have hB : 1 ≤ B := by omega
      simp only [DynMsg.toValue, depthVal]
      simp only [depthMsg] at hmd
      omega
    · cases h
  · split at h
    · rw [scalarDec_depth h]; omega
    · cases h

theorem list_depth (hB : 1 ≤ B) (hn : NestedDepth nested B) {f : FieldDesc} {vs vs' : List Value}
    {w : WireType} {b r : Bytes} (hv : depthVals vs ≤ B) (h : listMerge S nested f vs w b = .ok (vs', r)) :
    depthVals vs' ≤ B := by
  unfold listMerge at h
  split at h
  · cases h
  · rename_i v0 hv0
    have h0 := kindDefault_depth hv0
    have push : ∀ vs v, depthVals vs ≤ B → depthVal v ≤ B → depthVals (vs ++ [v]) ≤ B := by
      intro vs v h1 h2
      rw [depthVals_le] at *
      intro x hx
      rcases List.mem_append.1 hx with hx | hx
      · exact h1 x hx
      · rw [List.mem_singleton.1 hx]; exact h2
    split at h
    · refine mergeLoop_inv (I := fun vs => depthVals vs ≤ B) ?_ hv h
      intro st b st' b' hi hs
      obtain ⟨v, hv', rfl⟩ := mapV_ok hs
      exact push _ _ hi (singular_depth hn (by omega) hv')
    · obtain ⟨v, hv', rfl⟩ := mapV_ok h
      exact push _ _ hv (singular_depth hn (by omega) hv')

theorem entryValue_depth (hB : 1 ≤ B) (hn : NestedDepth nested B) {f : FieldDesc} {v v' : Value}
    {w : WireType} {b r : Bytes} (hv : depthVal v ≤ B)
    (h : entryValueMerge S nested f v w b = .ok (v', r)) : depthVal v' ≤ B := by
  unfold entryValueMerge at h
  split at h
  · split at h
    · obtain ⟨x, hx, rfl⟩ := mapV_ok h
      simp only [depthVal] at hv ⊢
      exact list_depth hB hn hv hx
    · cases h
  · cases h
  · exact singular_depth hn hv h

theorem map_depth (hS : S.wf = true) (hB : 1 ≤ B) (hn : NestedDepth nested B) {d i : Nat}
    {kvs kvs' : List (MapKey × Value)} {b r : Bytes} (hv : depthMap kvs ≤ B)
    (h : mapMerge S d nested i kvs b = .ok (kvs', r)) : depthMap kvs' ≤ B := by
  unfold mapMerge at h
  split at h
  · cases h
  · rename_i kd vd hkv
    split at h
    · rename_i k0 v0 hk0 hv0
      have hvd : FieldWf S vd := by
        unfold Schema.mapKV at hkv
        split at hkv
        · rename_i x y hx hy
          cases hkv
          exact (Schema.wf_field hS hy).1
        · cases hkv
      obtain ⟨⟨k, v⟩, hx, rfl⟩ := mapV_ok h
      have : depthVal v ≤ B := by
        refine mergeLoop_inv (I := fun kv : MapKey × Value => depthVal kv.2 ≤ B) ?_
          (by have := fieldDefault_depth hvd hv0; simp only; omega) hx
        intro st b st' b' hi hs
        refine keyThen_inv (I := fun kv : MapKey × Value => depthVal kv.2 ≤ B) ?_ hi hs
        intro st n w b st' b' _ _ hi hs
        unfold entryField at hs
        split at hs
        · obtain ⟨x, hx, rfl⟩ := mapV_ok hs
          exact hi
        · split at hs
          · obtain ⟨x, hx, rfl⟩ := mapV_ok hs
            exact entryValue_depth hB hn hi hx
          · split at hs
            · cases hs
            · cases hs; exact hi
      rw [depthMap_le] at *
      intro p hp
      rcases KMap.mem_insert hp with rfl | hp
      · exact this
      · exact hv p hp
    · cases h

theorem value_depth (hS : S.wf = true) (hB : 1 ≤ B) (hn : NestedDepth nested B) {d : Nat}
    {f : FieldDesc} {v v' : Value} {w : WireType} {b r : Bytes} (hv : depthVal v ≤ B)
    (h : valueMerge S d nested f v w b = .ok (v', r)) : depthVal v' ≤ B := by
  unfold valueMerge at h
  split at h
  · split at h
    · obtain ⟨x, hx, rfl⟩ := mapV_ok h
      simp only [depthVal] at hv ⊢
      exact list_depth hB hn hv hx
    · cases h
  · split at h
    · split at h
      · obtain ⟨x, hx, rfl⟩ := mapV_ok h
        simp only [depthVal] at hv ⊢
        exact map_depth hS hB hn hv hx
      · cases h
    · cases h
  · exact singular_depth hn hv h

theorem mergeField_depth (hS : S.wf = true) (hB : 1 ≤ B) (hn : NestedDepth nested B) {d : Nat}
    (hd : d ≤ B) {m m' : DynMsg} {n : Nat} {w : WireType} {b r : Bytes} (hm : depthMsg m ≤ B)
    (h : mergeField S d nested m n w b = .ok (m', r)) : depthMsg m' ≤ B := by
  have into : ∀ (sib : List Nat) (f : FieldDesc), FieldWf S f →
      mergeInto S d nested sib f m w b = .ok (m', r) → depthMsg m' ≤ B := by
    intro sib f hf h
    unfold mergeInto at h
    split at h
    · cases h
    · rename_i fs v hg
      obtain ⟨v', hv', rfl⟩ := mapV_ok h
      obtain ⟨h1, h2⟩ := getMut_depth hf hB hm hg
      have := value_depth hS hB hn h2 hv'
      exact depth_insert this h1
  unfold mergeField at h
  split at h
  · cases h
  · rename_i md hmd
    have hw := Schema.wf_msg hS hmd
    split at h
    · rename_i f hf
      exact into _ f (hw.fields f (getField_mem hf).1) h
    · split at h
      · rename_i f hf
        exact into _ f (hw.exts f (getExtension_mem hf).1) h
      · split at h
        · cases h
        · rename_i u r' hu
          have hud := (decUVal_ok d n w b u r' hu).2.1
          split at h
          · cases h
          · rename_i fs hfs
            cases h
            have hone : USet.depth [(n, u)] ≤ B := by simp only [USet.depth]; omega
            unfold FieldSet.addUnknown at hfs
            split at hfs
            · cases hfs
            · cases hfs; exact depth_insert hone hm
            · rename_i us hus
              cases hfs
              refine depth_insert ?_ hm
              have := depth_get hm hus
              simp only [depthSlot, USet.depth_append] at this ⊢
              omega
            · cases hfs; exact depth_insert hone hm

end

theorem msgMerge_depth {S : Schema} (hS : S.wf = true) (d : Nat) : ∀ B, d + 1 ≤ B →
    ∀ st n w b st' b', depthMsg st ≤ B → msgMerge S d st n w b = .ok (st', b') → depthMsg st' ≤ B := by
  induction d with
  | zero =>
    intro B hB st n w b st' b' hst h
    exact mergeField_depth hS hB (by intro g hg; cases hg) (by omega) hst h
  | succ d ih =>
    intro B hB st n w b st' b' hst h
    refine mergeField_depth hS (by omega) ?_ (by omega) hst h
    intro g hg
    cases hg
    exact ⟨by omega, ih (B - 1) (by omega)⟩

/-- Decoding never builds a message nested deeper than one level past the limit (the
extra level is an empty message created for a map entry without a value field). -/
theorem merge_depth {S : Schema} (hS : S.wf = true) {m m' : DynMsg} {b : Bytes}
    (h : merge S m b = .ok m') : depthMsg m' ≤ max (depthMsg m) (recursionLimit + 1) := by
  unfold merge at h
  split at h
  · cases h
  · rename_i m1 r hr
    cases h
    refine loopTo_inv (I := fun x => depthMsg x ≤ max (depthMsg m) (recursionLimit + 1)) ?_ 0 _ _ _ _ _
      (Nat.le_max_left _ _) hr
    intro st b st' b' hi hs
    refine keyThen_inv (I := fun x => depthMsg x ≤ max (depthMsg m) (recursionLimit + 1)) ?_ hi hs
    intro st n w b st' b' _ _ hi hs
    exact msgMerge_depth hS recursionLimit _ (Nat.le_max_right _ _) st n w b st' b' hi hs

end Verif.Dyn
