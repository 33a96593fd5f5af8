import Verif.Dyn.Conf
import Verif.Wire.Shorter
/-!
How much of the bytes read by the decoder is kept in strings, byte strings and unknown fields.
-/
set_option autoImplicit false
namespace Verif.Dyn
open Verif.Wire

/-- What a string or byte string takes as a field with number `n`. -/
def payload (n : Nat) : Value → Nat
  | .str b | .bytes b => keyLen n + (encodedLenVarint b.length + b.length)
  | _ => 0

mutual
/-- The bytes taken by the singular strings and byte strings and the unknown fields of the messages in a value. -/
def heft : Value → Nat
  | .msg _ fs => heftSlots fs
  | .list vs => heftVals vs
  | .map kvs => heftMap kvs
  | _ => 0
def heftVals : List Value → Nat
  | [] => 0
  | v :: r => heft v + heftVals r
def heftMap : List (MapKey × Value) → Nat
  | [] => 0
  | (_, v) :: r => heft v + heftMap r
def heftSlots : List (Nat × Slot) → Nat
  | [] => 0
  | (n, .val v) :: r => payload n v + heft v + heftSlots r
  | (_, .unknown u) :: r => lenUSet u + heftSlots r
  | (_, .taken) :: r => heftSlots r
end

/-- The heft of one slot. -/
def heftSlot (n : Nat) : Slot → Nat
  | .val v => payload n v + heft v
  | .unknown u => lenUSet u
  | .taken => 0

theorem heftSlots_cons (n : Nat) (s : Slot) (r : List (Nat × Slot)) :
    heftSlots ((n, s) :: r) = heftSlot n s + heftSlots r := by
  cases s <;> simp only [heftSlots, heftSlot, Nat.zero_add]

/-! ### Loops -/

section
variable {σ : Type} {W : σ → Nat} {I : σ → Prop}

/-- A step that keeps `I` and stores no more than it takes. -/
def Pays (W : σ → Nat) (I : σ → Prop) (body : σ → Bytes → R (σ × Bytes)) : Prop :=
  ∀ st b st' b', I st → body st b = .ok (st', b') → I st' ∧ W st' + b'.length ≤ W st + b.length

/-- A field function that keeps `I` and stores no more than it takes, the key included. -/
def FieldPays (W : σ → Nat) (I : σ → Prop) (f : FieldFn σ) : Prop :=
  ∀ st n w b st' b', 0 < n → n < 2 ^ 29 → I st → f st n w b = .ok (st', b') →
    I st' ∧ W st' + b'.length ≤ W st + keyLen n + b.length

theorem loopTo_pays {body : σ → Bytes → R (σ × Bytes)} (h : Pays W I body) {lim : Nat} :
    ∀ (k : Nat) (st : σ) (b : Bytes) (st' : σ) (b' : Bytes), I st → loopTo lim body k st b = .ok (st', b') →
      I st' ∧ W st' + b'.length ≤ W st + b.length
  | 0, _, _, _, _, _, e => by simp [loopTo] at e
  | k + 1, st, b, st', b', hi, e => by
    unfold loopTo at e
    split at e
    · cases e; exact ⟨hi, Nat.le_refl _⟩
    · split at e
      · cases e
      · rename_i he
        obtain ⟨h1, h2⟩ := h _ _ _ _ hi he
        obtain ⟨h3, h4⟩ := loopTo_pays h k _ _ _ _ h1 e
        exact ⟨h3, by omega⟩

theorem mergeLoop_pays {body : σ → Bytes → R (σ × Bytes)} (h : Pays W I body) : Pays W I (mergeLoop body) := by
  intro st b st' b' hi e
  unfold mergeLoop at e
  split at e
  · cases e
  · rename_i hl
    have := decodeVarint_shorter (w := 0) hl (Nat.zero_le _)
    split at e
    · cases e
    · split at e
      · cases e
      · rename_i hr
        split at e
        · cases e
        · cases e
          obtain ⟨h1, h2⟩ := loopTo_pays h _ _ _ _ _ hi hr
          exact ⟨h1, by omega⟩

theorem keyThen_pays {f : FieldFn σ} (h : FieldPays W I f) : Pays W I (keyThen f) := by
  intro st b st' b' hi e
  unfold keyThen at e
  split at e
  · cases e
  · rename_i hk
    have := decodeKey_shorter hk
    obtain ⟨-, -, -, -, h0, h1⟩ := decodeKey_good hk
    obtain ⟨h2, h3⟩ := h _ _ _ _ _ _ h0 h1 hi e
    exact ⟨h2, by omega⟩

theorem groupLoop_pays {f : FieldFn σ} (h : FieldPays W I f) {tag : Nat} :
    ∀ (k : Nat) (st : σ) (b : Bytes) (st' : σ) (b' : Bytes), I st → groupLoop tag f k st b = .ok (st', b') →
      I st' ∧ W st' + b'.length ≤ W st + b.length
  | 0, _, _, _, _, _, e => by simp [groupLoop] at e
  | k + 1, st, b, st', b', hi, e => by
    unfold groupLoop at e
    split at e
    · cases e
    · rename_i hk
      have := decodeKey_shorter hk
      obtain ⟨-, -, -, -, h0, h1⟩ := decodeKey_good hk
      split at e
      · split at e
        · cases e
        · cases e; exact ⟨hi, by omega⟩
      · split at e
        · cases e
        · rename_i he
          obtain ⟨h2, h3⟩ := h _ _ _ _ _ _ h0 h1 hi he
          obtain ⟨h4, h5⟩ := groupLoop_pays h k _ _ _ _ h2 e
          exact ⟨h4, by omega⟩
end

/-! ### Values -/

theorem scalar_heft {k : Kind} {v : Value} (h : scalarOk k v = true) : heft v = 0 := by
  cases v with
  | msg d fs => cases k <;> simp [scalarOk, Value.isValid] at h
  | list vs => cases k <;> simp [scalarOk, Value.isValid] at h
  | map kvs => cases k <;> simp [scalarOk, Value.isValid] at h
  | _ => simp only [heft]

theorem scalarDec_pays {k : Kind} {w : WireType} {b r : Bytes} {v : Value} (h : scalarDec k w b = .ok (v, r)) :
    heft v = 0 ∧ r.length ≤ b.length ∧ ∀ n, payload n v + r.length ≤ keyLen n + b.length := by
  refine ⟨scalar_heft (scalarDec_ok h), ?_⟩
  unfold scalarDec at h
  cases k <;> simp only at h <;> (try cases h) <;> split at h <;> (try cases h) <;> split at h <;> (try cases h)
  all_goals first
    | (rename_i he
       have := decodeVarint_shorter (w := 0) he (Nat.zero_le _)
       exact ⟨by omega, fun n => by simp only [payload]; omega⟩)
    | (rename_i he
       have := getLE_len he
       exact ⟨by omega, fun n => by simp only [payload]; omega⟩)
    | (rename_i he
       have := getLenDelim_shorter he
       exact ⟨by omega, fun n => by simp only [payload]; omega⟩)
    | (rename_i he
       split at h
       · cases h
         have := getLenDelim_shorter he
         exact ⟨by omega, fun n => by simp only [payload]; omega⟩
       · cases h)

theorem kindDefault_heft {S : Schema} {k : Kind} {v : Value} (h : kindDefault S k = some v) : heft v = 0 := by
  unfold kindDefault at h
  split at h <;> first
    | (cases h; simp [heft, heftSlots]; done)
    | (obtain ⟨x, _, rfl⟩ := Option.map_eq_some_iff.1 h; simp [heft])

theorem fieldDefault_heft {S : Schema} {f : FieldDesc} (hf : FieldWf S f) {v : Value}
    (h : fieldDefault S f = some v) : heft v = 0 := by
  unfold fieldDefault at h
  split at h
  · cases h; simp [heft, heftVals]
  · split at h
    · cases h; simp [heft, heftMap]
    · split at h
      · rename_i w hd
        cases h
        exact scalar_heft (hf.dflt _ hd)
      · exact kindDefault_heft h

/-- The heft of a message. -/
def heftMsg (m : DynMsg) : Nat := heftSlots m.fields

section
variable {S : Schema} {nested : Option (FieldFn DynMsg)}

/-- The nested level pays. -/
def NestedPays (S : Schema) (nested : Option (FieldFn DynMsg)) : Prop :=
  ∀ g, nested = some g → FieldPays heftMsg (fun m => confMsg S m = true) g

theorem singular_pays (ht : NestedPays S nested) {f : FieldDesc} {v v' : Value} {w : WireType} {b r : Bytes}
    (hv : confVal S f.elem v = true) (h : singularMerge nested f v w b = .ok (v', r)) :
    heft v' + r.length ≤ heft v + b.length ∧
    ∀ n, payload n v' + heft v' + r.length ≤ heft v + keyLen n + b.length := by
  unfold singularMerge at h
  split at h
  · rename_i d fs
    split at h
    · obtain ⟨m, hm, rfl⟩ := mapV_ok h
      obtain ⟨-, -, hc⟩ := confMsg_of_confVal hv
      suffices hs : heftMsg m + r.length ≤ heftMsg ⟨d, fs⟩ + b.length by
        simp only [heftMsg] at hs
        refine ⟨by simp only [DynMsg.toValue, heft]; exact hs, fun n => ?_⟩
        simp only [DynMsg.toValue, heft, payload]
        omega
      split at hm
      · unfold groupMerge at hm
        split at hm
        · cases hm
        · split at hm
          · cases hm
          · exact (groupLoop_pays (ht _ rfl) _ _ _ _ _ hc hm).2
      · unfold messageMerge at hm
        split at hm
        · cases hm
        · split at hm
          · cases hm
          · exact (mergeLoop_pays (keyThen_pays (ht _ rfl)) _ _ _ _ hc hm).2
    · cases h
  · split at h
    · obtain ⟨h1, h2, h3⟩ := scalarDec_pays h
      exact ⟨by omega, fun n => by have := h3 n; omega⟩
    · cases h

theorem heftVals_snoc (vs : List Value) (v : Value) : heftVals (vs ++ [v]) = heftVals vs + heft v := by
  induction vs with
  | nil => simp [heftVals]
  | cons x r ih => simp only [List.cons_append, heftVals, ih]; omega

theorem list_pays (ht : NestedPays S nested) {f : FieldDesc} (hf : FieldWf S f) {vs vs' : List Value} {w : WireType}
    {b r : Bytes} (h : listMerge S nested f vs w b = .ok (vs', r)) :
    heftVals vs' + r.length ≤ heftVals vs + b.length := by
  obtain ⟨v0, h0, hc0⟩ := kindDefault_conf hf
  have hw0 := kindDefault_heft h0
  unfold listMerge at h
  simp only [h0] at h
  have step : ∀ (w : WireType) (vs : List Value) (b : Bytes) (vs' : List Value) (r : Bytes),
      mapV (fun v => vs ++ [v]) (singularMerge nested f v0 w b) = .ok (vs', r) →
      heftVals vs' + r.length ≤ heftVals vs + b.length := by
    intro w vs b vs' r h
    obtain ⟨v, hv, rfl⟩ := mapV_ok h
    have := (singular_pays ht hc0 hv).1
    rw [heftVals_snoc]
    omega
  split at h
  · exact (mergeLoop_pays (W := heftVals) (I := fun _ => True)
      (fun st b st' b' _ h => ⟨trivial, step _ _ _ _ _ h⟩) _ _ _ _ trivial h).2
  · exact step _ _ _ _ _ h

theorem skipField_pays {d n : Nat} {w : WireType} {b r : Bytes} (h : skipField d w n b = .ok r) : r.length ≤ b.length := by
  obtain ⟨c, hb, -⟩ := good_skipP d w n b () r (by unfold skipP; rw [h])
  simp [hb]

theorem map_insert_heft (k : MapKey) (v : Value) : ∀ kvs : List (MapKey × Value),
    heftMap (KMap.insert k v kvs) ≤ heftMap kvs + heft v
  | [] => by simp [KMap.insert, heftMap]
  | (x, y) :: r => by
    have := map_insert_heft k v r
    simp only [KMap.insert]
    split <;> simp only [heftMap] <;> omega

theorem map_pays (hS : S.wf = true) (hn : NestedOk S nested) (ht : NestedPays S nested) {d i : Nat}
    {kd vd : FieldDesc} (hE : EntryOk S i kd vd) {kvs kvs' : List (MapKey × Value)} {b r : Bytes}
    (h : mapMerge S d nested i kvs b = .ok (kvs', r)) : heftMap kvs' + r.length ≤ heftMap kvs + b.length := by
  unfold mapMerge at h
  obtain ⟨k0, hk0⟩ := hE.key.2.2.2
  obtain ⟨v0, hv0, hc0⟩ := fieldDefault_conf hS hE.val.1
  have hw0 := fieldDefault_heft hE.val.1 hv0
  simp only [hE.kv, hk0, hv0] at h
  obtain ⟨⟨k, v⟩, hx, rfl⟩ := mapV_ok h
  have hp := (mergeLoop_pays (W := fun kv : MapKey × Value => heft kv.2)
    (I := fun kv : MapKey × Value => keyOk kd.kind kv.1 = true ∧ confVal S vd kv.2 = true)
    (keyThen_pays (by
      intro st n w b st' b' _ _ hi hs
      refine ⟨(entryField_ok hn d hE st n w b hi).2 _ _ hs, ?_⟩
      unfold entryField at hs
      split at hs
      · obtain ⟨x, hx, rfl⟩ := mapV_ok hs
        unfold keyMerge at hx
        split at hx
        · split at hx
          · cases hx
          · rename_i hd
            split at hx
            · cases hx
              have := (scalarDec_pays hd).2.1
              simp only; omega
            · cases hx
        · cases hx
      · split at hs
        · obtain ⟨x, hx, rfl⟩ := mapV_ok hs
          have hc := hE.val.2.2
          have hel : confVal S vd.elem st.2 = true := (confVal_elem hc _).trans hi.2
          have heq : entryValueMerge S nested vd st.2 w b = singularMerge nested vd st.2 w b := by
            obtain ⟨a, c⟩ := st
            have hv := hi.2
            cases c with
            | list vs => simp only [confVal, isList_of_ne hc, Bool.false_and] at hv; cases hv
            | map kvs => simp only [confVal, isMap_of_ne hc, Bool.false_and] at hv; cases hv
            | _ => rfl
          rw [heq] at hx
          have := (singular_pays ht hel hx).1
          simp only; omega
        · split at hs
          · cases hs
          · rename_i hk
            cases hs
            have := skipField_pays hk
            omega)) _ _ _ _ ⟨mapDefault_keyOk hk0, hc0⟩ hx).2
  have := map_insert_heft k v kvs
  simp only at hp ⊢
  omega

theorem value_pays (hS : S.wf = true) (hn : NestedOk S nested) (ht : NestedPays S nested) {d : Nat} {f : FieldDesc}
    (hf : FieldWf S f) {v v' : Value} (hv : confVal S f v = true) {w : WireType} {b r : Bytes}
    (h : valueMerge S d nested f v w b = .ok (v', r)) (n : Nat) :
    payload n v' + heft v' + r.length ≤ heft v + keyLen n + b.length := by
  unfold valueMerge at h
  split at h
  · split at h
    · obtain ⟨x, hx, rfl⟩ := mapV_ok h
      have := list_pays ht hf hx
      simp only [heft, payload]; omega
    · cases h
  · split at h
    · split at h
      · rename_i hk hm
        obtain ⟨x, hx, rfl⟩ := mapV_ok h
        obtain ⟨-, i, hki, hme⟩ := isMap_iff.1 hm
        rw [hk] at hki
        cases hki
        obtain ⟨kd, vd, hE⟩ := Schema.wf_entry hS hme
        have := map_pays hS hn ht hE hx
        simp only [heft, payload]; omega
      · cases h
    · cases h
  · rename_i h1 h2
    have hel : confVal S f.elem v = true := by
      cases v with
      | list vs => exact absurd rfl (h1 vs)
      | map kvs => exact absurd rfl (h2 kvs)
      | _ =>
        simp only [confVal, Bool.and_eq_true, bne_iff_ne] at hv ⊢
        simp_all [FieldDesc.elem]
    exact (singular_pays ht hel h).2 n

/-! ### Field sets -/

theorem insert_heft (n : Nat) (s : Slot) : ∀ fs : FieldSet,
    heftSlots (SMap.insert n s fs) ≤ heftSlots fs + heftSlot n s
  | [] => by simp [SMap.insert, heftSlots_cons, heftSlots]
  | (k, x) :: r => by
    have := insert_heft n s r
    simp only [SMap.insert]
    split
    · simp only [heftSlots_cons]; omega
    · split <;> simp only [heftSlots_cons] <;> omega

theorem replace_heft {n : Nat} {s s' : Slot} : ∀ {fs : FieldSet} {lo : Nat}, SMap.sortedFrom lo fs = true →
    SMap.get? fs n = some s → heftSlots (SMap.insert n s' fs) + heftSlot n s = heftSlots fs + heftSlot n s'
  | [], _, _, h => by cases h
  | (k, x) :: r, lo, hs, h => by
    simp only [SMap.sortedFrom, Bool.and_eq_true, decide_eq_true_eq] at hs
    simp only [SMap.get?] at h
    split at h
    · rename_i hk
      subst hk
      cases h
      simp only [SMap.insert, Nat.lt_irrefl, if_false, if_true, heftSlots_cons]
      omega
    · rename_i hk
      have hlt : k < n := by
        refine Nat.lt_of_not_le (fun hle => ?_)
        rw [SMap.get?_eq_none_of_le hs.2 hle] at h
        cases h
      have := replace_heft (s' := s') hs.2 h
      simp only [SMap.insert]
      rw [if_neg (by omega), if_neg (by omega)]
      simp only [heftSlots_cons]
      omega

theorem erase_heft (n : Nat) : ∀ fs : FieldSet, heftSlots (SMap.erase n fs) ≤ heftSlots fs
  | [] => by simp [SMap.erase]
  | (k, x) :: r => by
    have := erase_heft n r
    simp only [SMap.erase]
    split <;> simp only [heftSlots_cons] <;> omega

theorem clearAll_heft (ns : List Nat) : ∀ fs : FieldSet, heftSlots (FieldSet.clearAll ns fs) ≤ heftSlots fs := by
  induction ns with
  | nil => intro fs; exact Nat.le_refl _
  | cons n r ih => intro fs; exact Nat.le_trans (ih _) (erase_heft n fs)

theorem get_heft {fs : FieldSet} {n : Nat} {s : Slot} (h : SMap.get? fs n = some s) :
    heftSlot n s ≤ heftSlots fs := by
  induction fs with
  | nil => cases h
  | cons x r ih =>
    obtain ⟨k, y⟩ := x
    simp only [SMap.get?] at h
    rw [heftSlots_cons]
    split at h
    · rename_i hk; subst hk; cases h; omega
    · have := ih h; omega

theorem mergeField_pays (hS : S.wf = true) (hn : NestedOk S nested) (ht : NestedPays S nested) (d : Nat) :
    FieldPays heftMsg (fun m => confMsg S m = true) (mergeField S d nested) := by
  intro m n w b m' r h0 h1 hm h
  refine ⟨((mergeField_ok hS hn d m n w b h0 h1 hm).2 _ _ h).1, ?_⟩
  obtain ⟨md, hC⟩ := confMsg_iff.1 hm
  have hw := Schema.wf_msg hS hC.desc
  have into : ∀ (sib : List Nat) (f : FieldDesc), FieldWf S f → f.number = n →
      (∀ fs v, FieldSet.getMut S sib m.fields f = some (fs, v) → confVal S f v = true) →
      mergeInto S d nested sib f m w b = .ok (m', r) → heftMsg m' + r.length ≤ heftMsg m + keyLen n + b.length := by
    intro sib f hf hfn hc h
    unfold mergeInto at h
    split at h
    · cases h
    · rename_i fs v hg
      obtain ⟨v', hv', rfl⟩ := mapV_ok h
      have h3 := value_pays hS hn ht hf (hc _ _ hg) hv' n
      have hcl := clearAll_heft sib m.fields
      unfold FieldSet.getMut at hg
      simp only [hfn] at hg
      simp only [heftMsg, FieldSet.write, hfn]
      split at hg
      · rename_i x hx
        cases hg
        have h4 := replace_heft (s' := .val v') (sorted_clearAll sib _ hC.sorted) hx
        simp only [heftSlot] at h4
        omega
      · split at hg
        · rename_i hd
          cases hg
          have h5 := fieldDefault_heft hf hd
          rw [SMap.insert_insert]
          have h4 := insert_heft n (.val v') (FieldSet.clearAll sib m.fields)
          simp only [heftSlot] at h4
          omega
        · cases hg
  unfold mergeField at h
  simp only [hC.desc] at h
  split at h
  · rename_i f hf
    obtain ⟨hmem, hnum⟩ := getField_mem hf
    exact into _ f (hw.fields f hmem) hnum (fun fs v hg => by
      obtain ⟨fs', v', hg', hcv, -⟩ := getMut_field hS hC hf
      rw [hg] at hg'; cases hg'; exact hcv) h
  · split at h
    · rename_i hnf f hf
      obtain ⟨hmem, hnum⟩ := getExtension_mem hf
      exact into _ f (hw.exts f hmem) hnum (fun fs v hg => by
        obtain ⟨fs', v', hg', hcv, -⟩ := getMut_ext hS hC hf
        rw [hg] at hg'; cases hg'; exact hcv) h
    · split at h
      · cases h
      · rename_i u r' hu
        have hud := decUVal_thrifty d n w b u r' hu
        split at h
        · cases h
        · rename_i fs hfs
          cases h
          have hone : lenUSet [(n, u)] = lenUVal n u := by simp [lenUSet]
          simp only [heftMsg]
          unfold FieldSet.addUnknown at hfs
          split at hfs
          · cases hfs
          · cases hfs
            have := insert_heft n (.unknown [(n, u)]) m.fields
            simp only [heftSlot, hone] at this
            omega
          · rename_i us hus
            cases hfs
            have := replace_heft (s' := .unknown (us ++ [(n, u)])) hC.sorted hus
            simp only [heftSlot, lenUSet_snoc] at this
            omega
          · cases hfs
            have := insert_heft n (.unknown [(n, u)]) m.fields
            simp only [heftSlot, hone] at this
            omega

end

theorem msgMerge_pays {S : Schema} (hS : S.wf = true) (d : Nat) :
    FieldPays heftMsg (fun m => confMsg S m = true) (msgMerge S d) := by
  induction d with
  | zero => exact mergeField_pays hS (nestedAt_ok hS 0) (by intro g hg; cases hg) 0
  | succ d ih => exact mergeField_pays hS (nestedAt_ok hS (d + 1)) (by intro g hg; cases hg; exact ih) (d + 1)

/-- A decoded message weighs no more than the bytes. -/
theorem decode_heft {S : Schema} (hS : S.wf = true) {d : Nat} {md : MsgDesc} (hd : S.msg? d = some md) {b : Bytes}
    {m : DynMsg} (h : decode S d b = .ok m) : heftMsg m ≤ b.length := by
  unfold decode merge at h
  split at h
  · cases h
  · rename_i m1 r hr
    cases h
    have := (loopTo_pays (keyThen_pays (msgMerge_pays hS recursionLimit)) _ _ _ _ _
      (confMsg_iff.2 ⟨md, Conf.empty hd⟩) hr).2
    simp only [heftMsg, heftSlots] at this ⊢
    omega

end Verif.Dyn
