import Verif.Dyn.MergeEnc
/-! Helper lemmas for C08: input nested deeper than the limit is rejected. -/
set_option autoImplicit false
namespace Verif.Wire

variable {σ : Type}

/-- Whatever follows, running the field function over `b` stops with error `e`. -/
inductive FErr (f : FieldFn σ) (e : Err) : σ → Bytes → Prop
  | here {st : σ} {n : Nat} {w : WireType} {c : Bytes} (hn : 0 < n) (hn' : n < 2 ^ 29)
      (hw : w ≠ .endGroup) (h : ∀ t, f st n w (c ++ t) = .error e) : FErr f e st (encodeKey n w ++ c)
  | cons {st st1 : σ} {n : Nat} {w : WireType} {c c' : Bytes} (hn : 0 < n) (hn' : n < 2 ^ 29)
      (hw : w ≠ .endGroup) (h : ∀ t, f st n w (c ++ t) = .ok (st1, t)) (hs : FErr f e st1 c') :
      FErr f e st (encodeKey n w ++ c ++ c')

theorem FSteps.trans_err {f : FieldFn σ} {e : Err} {a b : σ} {c c' : Bytes} (h : FSteps f a c b)
    (h' : FErr f e b c') : FErr f e a (c ++ c') := by
  induction h with
  | nil st => simpa using h'
  | cons hn hn' hw h hs ih =>
    rw [List.append_assoc]
    exact FErr.cons hn hn' hw h (ih h')

theorem FErr.append {f : FieldFn σ} {e : Err} {a : σ} {c : Bytes} (h : FErr f e a c) (c' : Bytes) :
    FErr f e a (c ++ c') := by
  induction h with
  | here hn hn' hw h =>
    rw [List.append_assoc]
    refine FErr.here hn hn' hw ?_
    intro t; rw [List.append_assoc]; exact h _
  | cons hn hn' hw h hs ih =>
    rw [List.append_assoc]
    exact FErr.cons hn hn' hw h ih

theorem FErr.loopTo {f : FieldFn σ} {e : Err} {a : σ} {c : Bytes} (h : FErr f e a c) :
    ∀ (t : Bytes) (k : Nat), c.length < k →
      loopTo t.length (keyThen f) k a (c ++ t) = .error e := by
  induction h with
  | @here st n w c hn hn' hw h =>
    intro t k hk
    have hkp : 0 < (encodeKey n w).length := List.length_pos_iff.2 (encodeKey_ne_nil n w)
    cases k with
    | zero => omega
    | succ k =>
      unfold Wire.loopTo
      rw [if_neg (by simp only [List.length_append]; omega)]
      unfold keyThen
      rw [List.append_assoc, decode_encode_key hn hn']
      simp only [h t]
  | @cons st st1 n w c c' hn hn' hw h hs ih =>
    intro t k hk
    have hkp : 0 < (encodeKey n w).length := List.length_pos_iff.2 (encodeKey_ne_nil n w)
    simp only [List.length_append] at hk
    cases k with
    | zero => omega
    | succ k =>
      unfold Wire.loopTo
      rw [if_neg (by simp only [List.length_append]; omega)]
      unfold keyThen
      simp only [List.append_assoc]
      rw [decode_encode_key hn hn']
      simp only [h (c' ++ t)]
      exact ih t k (by omega)

theorem FErr.groupLoop {f : FieldFn σ} {e : Err} {a : σ} {c : Bytes} (h : FErr f e a c) (tag : Nat) :
    ∀ (t : Bytes) (k : Nat), c.length < k → groupLoop tag f k a (c ++ t) = .error e := by
  induction h with
  | @here st n w c hn hn' hw h =>
    intro t k hk
    cases k with
    | zero => omega
    | succ k =>
      unfold Wire.groupLoop
      rw [List.append_assoc, decode_encode_key hn hn']
      simp only [if_neg hw, h t]
  | @cons st st1 n w c c' hn hn' hw h hs ih =>
    intro t k hk
    have hkp : 0 < (encodeKey n w).length := List.length_pos_iff.2 (encodeKey_ne_nil n w)
    simp only [List.length_append] at hk
    cases k with
    | zero => omega
    | succ k =>
      unfold Wire.groupLoop
      simp only [List.append_assoc]
      rw [decode_encode_key hn hn']
      simp only [if_neg hw, h (c' ++ t)]
      exact ih t k (by omega)

theorem FErr.mergeAll {f : FieldFn σ} {e : Err} {a : σ} {c : Bytes} (h : FErr f e a c) :
    mergeAll f a c = .error e := by
  have := h.loopTo [] (c.length + 1) (by omega)
  simpa [Wire.mergeAll] using this

theorem FErr.mergeLoop {f : FieldFn σ} {e : Err} {a : σ} {c : Bytes} (h : FErr f e a c)
    (hl : c.length < 2 ^ 64) (t : Bytes) :
    mergeLoop (keyThen f) a (encodeVarint c.length ++ (c ++ t)) = .error e := by
  unfold Wire.mergeLoop
  rw [decode_encode_varint hl]
  have h1 : (c ++ t).length - c.length = t.length := by simp
  simp only [h1]
  rw [if_neg (by simp), h.loopTo t _ (by simp; omega)]

theorem FErr.messageMerge {f : FieldFn σ} {e : Err} {a : σ} {c : Bytes} (h : FErr f e a c)
    (hl : c.length < 2 ^ 64) (t : Bytes) :
    messageMerge (some f) .lengthDelimited a (encodeVarint c.length ++ (c ++ t)) = .error e := by
  unfold Wire.messageMerge
  rw [if_neg (by simp)]
  exact h.mergeLoop hl t

theorem FErr.groupMerge {f : FieldFn σ} {e : Err} {a : σ} {c : Bytes} (h : FErr f e a c) (tag : Nat)
    (t : Bytes) : groupMerge (some f) tag .startGroup a (c ++ t) = .error e := by
  unfold Wire.groupMerge
  rw [if_neg (by simp)]
  exact h.groupLoop tag t _ (by simp; omega)

mutual
theorem decUVal_deep : (v : UVal) → (d n : Nat) → (t : Bytes) → d < v.depth → v.Wf →
    decUVal d n v.wireType (uPayload n v ++ t) = .error .recursionLimit
  | .varint _, d, n, t, h, _ => by simp [UVal.depth] at h
  | .sixtyFour _, d, n, t, h, _ => by simp [UVal.depth] at h
  | .thirtyTwo _, d, n, t, h, _ => by simp [UVal.depth] at h
  | .len _, d, n, t, h, _ => by simp [UVal.depth] at h
  | .group fs, d, n, t, hd, hw => by
    simp only [UVal.depth] at hd
    simp only [UVal.Wf] at hw
    cases d with
    | zero => simp [decUVal, decUValWith, UVal.wireType, groupMerge]
    | succ d =>
      have he := decUSet_deep fs d [] (by omega) hw
      simp only [decUVal, decUValWith, UVal.wireType, uPayload]
      rw [List.append_assoc, he.groupMerge]
theorem decUSet_deep : (fs : List (Nat × UVal)) → (d : Nat) → (st : USet) → d < USet.depth fs →
    USet.Wf fs → FErr (pushUnknown (decUVal d)) .recursionLimit st (encUSet fs)
  | [], d, st, h, _ => by simp [USet.depth] at h
  | (n, v) :: r, d, st, hd, hw => by
    simp only [USet.depth] at hd
    simp only [USet.Wf] at hw
    simp only [encUSet, encUVal_eq]
    by_cases hv : d < v.depth
    · have h1 : FErr (pushUnknown (decUVal d)) .recursionLimit st
          (encodeKey n v.wireType ++ uPayload n v) := by
        refine FErr.here hw.1.1 hw.1.2 v.wireType_ne_end ?_
        intro t
        unfold pushUnknown
        rw [decUVal_deep v d n t hv hw.2.1]
      exact h1.append _
    · refine FErr.cons (st1 := st ++ [(n, v)]) hw.1.1 hw.1.2 v.wireType_ne_end ?_
        (decUSet_deep r d _ (by omega) hw.2.2)
      intro t
      unfold pushUnknown
      rw [decUVal_payload v d n t (by omega) hw.2.1 hw.1]
end

end Verif.Wire

namespace Verif.Dyn
open Verif.Wire

/-- A value that is not present holds no messages. -/
theorem absent_depth {S : Schema} {f : FieldDesc} (hf : FieldWf S f) {v : Value}
    (hc : confVal S f v = true) (hv : hasVal S f v = some false) : depthVal v = 0 := by
  cases v with
  | msg i fs =>
    obtain ⟨hcard, hk, _⟩ := confMsg_of_confVal hc
    have := hf.msg hcard (by rw [hk]; rfl)
    simp [hasVal, this] at hv
  | list vs =>
    simp only [confVal, Bool.and_eq_true] at hc
    have hp := (hf.rep (isList_iff.1 hc.1).1).1
    unfold hasVal isDefault fieldDefault at hv
    rw [hp, if_neg (by simp), if_pos hc.1] at hv
    cases vs with
    | nil => rfl
    | cons a r => simp [Value.beq, beqVals] at hv
  | map kvs =>
    simp only [confVal, Bool.and_eq_true] at hc
    have hp := (hf.rep (isMap_iff.1 hc.1).1).1
    have hl : isList S f = false := by simp [isList, hc.1]
    unfold hasVal isDefault fieldDefault at hv
    rw [hp, if_neg (by simp), hl, if_neg (by simp), if_pos hc.1] at hv
    cases kvs with
    | nil => rfl
    | cons a r => simp [Value.beq, beqMap] at hv
  | _ => rfl

/-- Repeated `Value::merge_field` hits the recursion limit. -/
inductive VErr (S : Schema) (d : Nat) (f : FieldDesc) : Value → Bytes → Prop
  | here {v : Value} {w : WireType} {p : Bytes} (hw : w ≠ .endGroup)
      (h : ∀ t, valueMerge S d (nestedAt S d) f v w (p ++ t) = .error .recursionLimit) :
      VErr S d f v (encodeKey f.number w ++ p)
  | cons {v v1 : Value} {w : WireType} {p c : Bytes} (hw : w ≠ .endGroup)
      (h : ∀ t, valueMerge S d (nestedAt S d) f v w (p ++ t) = .ok (v1, t))
      (hs : VErr S d f v1 c) : VErr S d f v (encodeKey f.number w ++ p ++ c)

theorem VErr.append {S : Schema} {d : Nat} {f : FieldDesc} {v : Value} {c : Bytes}
    (h : VErr S d f v c) (c' : Bytes) : VErr S d f v (c ++ c') := by
  induction h with
  | here hw h =>
    rw [List.append_assoc]
    exact VErr.here hw (fun t => by rw [List.append_assoc]; exact h _)
  | cons hw h hs ih => rw [List.append_assoc]; exact VErr.cons hw h ih

theorem VErr.place {S : Schema} {d : Nat} {f : FieldDesc} (hn : ValidNumber f.number)
    {X : Value → DynMsg}
    (hX : ∀ c w b, msgMerge S d (X c) f.number w b =
      mapV X (valueMerge S d (nestedAt S d) f c w b))
    {v : Value} {b : Bytes} (h : VErr S d f v b) :
    FErr (msgMerge S d) .recursionLimit (X v) b := by
  induction h with
  | here hw h =>
    refine FErr.here hn.1 hn.2 hw ?_
    intro t; rw [hX, h t]; rfl
  | cons hw h hs ih =>
    refine FErr.cons hn.1 hn.2 hw ?_ ih
    intro t; rw [hX, h t]; rfl

theorem VErr.placeFrom {S : Schema} {d : Nat} {f : FieldDesc} (hn : ValidNumber f.number)
    {X : Value → DynMsg} {st : DynMsg} {v : Value}
    (h0 : ∀ w b, msgMerge S d st f.number w b = mapV X (valueMerge S d (nestedAt S d) f v w b))
    (hX : ∀ c w b, msgMerge S d (X c) f.number w b =
      mapV X (valueMerge S d (nestedAt S d) f c w b))
    {b : Bytes} (h : VErr S d f v b) : FErr (msgMerge S d) .recursionLimit st b := by
  cases h with
  | here hw h =>
    refine FErr.here hn.1 hn.2 hw ?_
    intro t; rw [h0, h t]; rfl
  | cons hw h hs =>
    refine FErr.cons hn.1 hn.2 hw ?_ (hs.place hn hX)
    intro t; rw [h0, h t]; rfl

/-- One singular value whose encoding is too deep. -/
def Eerr (S : Schema) (d : Nat) (f : FieldDesc) (b : Bytes) : Prop :=
  ∃ w p, b = encodeKey f.number w ++ p ∧ w ≠ .endGroup ∧
    (w = .lengthDelimited → f.kind.packable = false) ∧
    ∀ cur, confVal S f.elem cur = true → ∀ t,
      singularMerge (nestedAt S d) f cur w (p ++ t) = .error .recursionLimit

theorem Verr_of_Eerr {S : Schema} {d : Nat} {f : FieldDesc} {b : Bytes}
    (hc : f.card ≠ .repeated) (h : Eerr S d f b) : ∀ cur, confVal S f cur = true → VErr S d f cur b := by
  obtain ⟨w, p, rfl, hw, _, h⟩ := h
  intro cur hcur
  refine VErr.here hw ?_
  intro t
  have h3 : isList S f = false := isList_of_ne hc
  have h5 : isMap S f = false := isMap_of_ne hc
  have heq : ∀ b, valueMerge S d (nestedAt S d) f cur w b = singularMerge (nestedAt S d) f cur w b := by
    intro b
    cases cur with
    | list vs => simp only [confVal, h3, Bool.false_and] at hcur; cases hcur
    | map kvs => simp only [confVal, h5, Bool.false_and] at hcur; cases hcur
    | _ => rfl
  rw [heq]
  exact h cur (by rw [confVal_elem hc]; exact hcur) t

/-- Unknown fields nested too deep. -/
theorem unknown_deep {S : Schema} (hS : S.wf = true) {md : MsgDesc} {n : Nat}
    (hf : md.getField n = none) (he : md.getExtension n = none) (d : Nat) :
    ∀ (u : USet), (∀ p ∈ u, p.1 = n) → Wire.USet.Wf u → d < USet.depth u →
    ∀ st : DynMsg, Conf S st md → FErr (msgMerge S d) .recursionLimit st (encUSet u) := by
  intro u
  induction u with
  | nil => intro _ _ hd; simp [USet.depth] at hd
  | cons p r ih =>
    obtain ⟨k, x⟩ := p
    intro hall hw hd st hC
    have hk : k = n := hall (k, x) List.mem_cons_self
    subst hk
    simp only [USet.depth] at hd
    have hw0 := hw
    simp only [Wire.USet.Wf] at hw
    by_cases hx : d < x.depth
    · simp only [encUSet, encUVal_eq]
      have : FErr (msgMerge S d) .recursionLimit st (encodeKey k x.wireType ++ uPayload k x) := by
        refine FErr.here hw.1.1 hw.1.2 x.wireType_ne_end ?_
        intro t
        rw [msgMerge_eq]
        unfold mergeField
        simp only [hC.desc, hf, he, decUVal_deep x d k t hx hw.2.1]
      exact this.append _
    · have hone := unknown_steps hS hf he d [(k, x)] (by simp) (by simp)
        (by simp only [Wire.USet.Wf]; exact ⟨hw.1, hw.2.1, trivial⟩)
        (by simp only [USet.depth]; omega) st hC
      have hc1 := FSteps_conf hS hone (confMsg_iff.2 ⟨md, hC⟩)
      obtain ⟨md', hC'⟩ := confMsg_iff.1 hc1.1
      have : md' = md := by
        have := hC'.desc; rw [hc1.2, hC.desc] at this; exact (Option.some.inj this).symm
      subst this
      have henc : encUSet ((k, x) :: r) = encUSet [(k, x)] ++ encUSet r := by
        simp only [encUSet, List.append_nil]
      rw [henc]
      exact hone.trans_err (ih (fun p hp => hall p (List.mem_cons_of_mem _ hp)) hw.2.2 (by omega) _ hC')

mutual
theorem encVal_deep {S : Schema} (hS : S.wf = true) : (v : Value) → (f : FieldDesc) → (b : Bytes) →
    (d : Nat) → FieldWf S f → hasVal S f v = some true → encVal S f v = some b →
    b.length < 2 ^ 64 → d < depthVal v →
    (confVal S f.elem v = true → Eerr S d f b) ∧
    (confVal S f v = true → ∀ cur, confVal S f cur = true → VErr S d f cur b)
  | .msg i fs, f, b, d, hf, hv, h, hl, hd => by
    have main : confVal S f.elem (.msg i fs) = true → Eerr S d f b := by
      intro hc
      obtain ⟨_, hk, hcm⟩ := confMsg_of_confVal hc
      have hk : f.kind = .message i := hk
      have hcm' := hcm
      simp only [confMsg, Bool.and_eq_true] at hcm'
      simp only [encVal] at h
      rw [unlessDefault_present hv, hk] at h
      simp only at h
      cases he : encSlots S i fs with
      | none => rw [he] at h; cases h
      | some p =>
        obtain ⟨x, y⟩ := p
        rw [he] at h
        simp only at h
        simp only [depthVal] at hd
        have hxy : (x ++ y).length < 2 ^ 64 := by
          split at h
          · cases h; simp only [List.length_append] at hl ⊢; omega
          · split at h
            · cases h
            · cases h; simp only [List.length_append] at hl ⊢; omega
        have bad : ∀ d', d = d' + 1 → ∀ fs0, confMsg S ⟨i, fs0⟩ = true →
            FErr (msgMerge S d') .recursionLimit ⟨i, fs0⟩ (x ++ y) := by
          intro d' hd' fs0 hc0
          rcases encSlots_deep hS fs i x y d' hcm'.2 he hxy (by omega) with h1 | ⟨h1, h2⟩
          · exact (h1 ⟨i, fs0⟩ hc0 rfl).append y
          · obtain ⟨st', hs, hcs, hds⟩ := h1 ⟨i, fs0⟩ hc0 rfl
            exact hs.trans_err (h2 st' hcs hds)
        split at h
        · rename_i hg
          cases h
          refine ⟨.startGroup, _, rfl, by decide, (by intro h; cases h), ?_⟩
          intro cur hcur t
          obtain ⟨fs0, rfl, hc0⟩ := msg_of_confVal (f := f.elem) hk elem_card hcur
          unfold singularMerge
          simp only [hk, hg, if_true]
          cases d with
          | zero => simp [nestedAt, groupMerge, mapV]
          | succ d =>
            simp only [nestedAt]
            rw [List.append_assoc, (bad d rfl fs0 hc0).groupMerge]; rfl
        · rename_i hg
          have hlen := lenSlots_eq hS fs i x y (confSlots_accepted hS fs i hcm'.2) he hxy
          rw [hlen] at h
          cases h
          refine ⟨.lengthDelimited, _, rfl, by decide, (by intro _; rw [hk]; rfl), ?_⟩
          intro cur hcur t
          obtain ⟨fs0, rfl, hc0⟩ := msg_of_confVal (f := f.elem) hk elem_card hcur
          unfold singularMerge
          simp only [hk, hg]
          cases d with
          | zero => simp [nestedAt, messageMerge, mapV]
          | succ d =>
            simp only [nestedAt]
            rw [List.append_assoc, if_neg (by simp), (bad d rfl fs0 hc0).messageMerge hxy]; rfl
    refine ⟨main, fun hc => ?_⟩
    have hcard := (confMsg_of_confVal hc).1
    exact Verr_of_Eerr hcard (main (by rw [confVal_elem hcard]; exact hc))
  | .list vs, f, b, d, hf, hv, h, hl, hd => by
    constructor
    · intro hc
      have h3 : isList S f.elem = false := isList_of_ne elem_card
      simp only [confVal, h3, Bool.false_and] at hc; cases hc
    · intro hc cur hcur
      simp only [confVal, Bool.and_eq_true] at hc
      obtain ⟨hlist, hcv⟩ := hc
      simp only [encVal] at h
      rw [unlessDefault_present hv, if_pos hlist] at h
      simp only [depthVal] at hd
      have : ∃ ws, cur = .list ws := by
        have hmap := (isList_iff.1 hlist).2
        cases cur with
        | list ws => exact ⟨ws, rfl⟩
        | map kvs => simp only [confVal, hmap, Bool.false_and] at hcur; cases hcur
        | _ => simp [confVal, (isList_iff.1 hlist).1] at hcur
      obtain ⟨ws, rfl⟩ := this
      split at h
      · rename_i hp
        have hpk := (hf.packed hp).2
        have hk : f.kind.isMessage = false := by
          cases hkk : f.kind <;> rw [hkk] at hpk <;> first | rfl | cases hpk
        have h0 : ∀ vs : List Value, confVals S f.elem vs = true → depthVals vs = 0 := by
          intro vs
          induction vs with
          | nil => intro _; rfl
          | cons a r ih =>
            intro hc
            simp only [confVals, Bool.and_eq_true] at hc
            have hs := scalarOk_of_confVal (f := f.elem) hk elem_card hc.1
            simp only [depthVals, ih hc.2]
            cases a <;> first
              | rfl
              | (exfalso; cases hkk : f.kind <;> rw [hkk] at hk <;>
                  simp [FieldDesc.elem, hkk, scalarOk, Value.isValid, Kind.isMessage] at hs hk)
        rw [h0 vs hcv] at hd
        omega
      · exact encVals_deep hS vs f b d hf hlist hcv h hl hd ws
  | .map kvs, f, b, d, hf, hv, h, hl, hd => by
    constructor
    · intro hc
      have h3 : isMap S f.elem = false := isMap_of_ne elem_card
      simp only [confVal, h3, Bool.false_and] at hc; cases hc
    · intro hc cur hcur
      simp only [confVal, Bool.and_eq_true] at hc
      obtain ⟨hmap, hcv⟩ := hc
      obtain ⟨hcard, i, hi, hme⟩ := isMap_iff.1 hmap
      obtain ⟨kd, vd, hE⟩ := Schema.wf_entry hS hme
      have hlist : isList S f = false := by simp [isList, hmap]
      simp only [encVal] at h
      rw [unlessDefault_present hv, hi] at h
      simp only [hmap, if_true, hE.kv] at h
      simp only [hi, hE.kv, Bool.and_eq_true] at hcv
      simp only [depthVal] at hd
      have : ∃ m0, cur = .map m0 := by
        cases cur with
        | list ws => simp only [confVal, hlist, Bool.false_and] at hcur; cases hcur
        | map m0 => exact ⟨m0, rfl⟩
        | _ => simp [confVal, hcard] at hcur
      obtain ⟨m0, rfl⟩ := this
      exact encMap_deep hS kvs f i kd vd b d hf hi hmap hE hcv.2 h hl hd m0
  | .bool x, f, b, d, hf, hv, h, hl, hd => by simp [depthVal] at hd
  | .i32 x, f, b, d, hf, hv, h, hl, hd => by simp [depthVal] at hd
  | .i64 x, f, b, d, hf, hv, h, hl, hd => by simp [depthVal] at hd
  | .u32 x, f, b, d, hf, hv, h, hl, hd => by simp [depthVal] at hd
  | .u64 x, f, b, d, hf, hv, h, hl, hd => by simp [depthVal] at hd
  | .f32 x, f, b, d, hf, hv, h, hl, hd => by simp [depthVal] at hd
  | .f64 x, f, b, d, hf, hv, h, hl, hd => by simp [depthVal] at hd
  | .str x, f, b, d, hf, hv, h, hl, hd => by simp [depthVal] at hd
  | .bytes x, f, b, d, hf, hv, h, hl, hd => by simp [depthVal] at hd
  | .enum x, f, b, d, hf, hv, h, hl, hd => by simp [depthVal] at hd
theorem encVals_deep {S : Schema} (hS : S.wf = true) : (vs : List Value) → (f : FieldDesc) →
    (b : Bytes) → (d : Nat) → FieldWf S f → isList S f = true → confVals S f.elem vs = true →
    encVals S f vs = some b → b.length < 2 ^ 64 → d < depthVals vs →
    ∀ ws : List Value, VErr S d f (.list ws) b
  | [], f, b, d, _, _, _, h, _, hd => by simp [depthVals] at hd
  | v :: r, f, b, d, hf, hlist, hc, h, hl, hd => by
    simp only [confVals, Bool.and_eq_true] at hc
    simp only [encVals] at h
    simp only [depthVals] at hd
    have ihv := encVal_deep hS v f
    have ihr := encVals_deep hS r f
    split at h
    · rename_i x y h1 h2
      cases h
      rw [List.length_append] at hl
      intro ws
      obtain ⟨v0, hv0, hcv0⟩ := kindDefault_conf hf
      by_cases hdv : d < depthVal v
      · obtain ⟨w, p, rfl, hw, hpk, hE⟩ :=
          (ihv x d hf (hasVal_elem hf hlist hc.1) h1 (by omega) hdv).1 hc.1
        have h1 : VErr S d f (.list ws) (encodeKey f.number w ++ p) := by
          refine VErr.here hw ?_
          intro t
          unfold valueMerge listMerge
          simp only [hlist, if_true, hv0]
          rw [if_neg (by rintro ⟨h1, h2⟩; rw [hpk h1] at h2; cases h2), hE v0 hcv0 t]
          rfl
        exact h1.append y
      · obtain ⟨w, p, rfl, hw, hpk, hE⟩ :=
          (encVal_merge hS v f x d hf (hasVal_elem hf hlist hc.1) h1 (by omega) (by omega)).1 hc.1
        refine VErr.cons (v1 := .list (ws ++ [mergeVal S f v0 v])) hw ?_
          (ihr y d hf hlist hc.2 h2 (by omega) (by omega) _)
        intro t
        unfold valueMerge listMerge
        simp only [hlist, if_true, hv0]
        rw [if_neg (by rintro ⟨h1, h2⟩; rw [hpk h1] at h2; cases h2), hE v0 hcv0 t]
        rfl
    · cases h
theorem encMap_deep {S : Schema} (hS : S.wf = true) : (kvs : List (MapKey × Value)) →
    (f : FieldDesc) → (i : Nat) → (kd vd : FieldDesc) → (b : Bytes) → (d : Nat) → FieldWf S f →
    f.kind = .message i → isMap S f = true → EntryOk S i kd vd → confMap S kd vd kvs = true →
    encMapEntries S f.number kd vd kvs = some b → b.length < 2 ^ 64 → d < depthMap kvs →
    ∀ m0, VErr S d f (.map m0) b
  | [], f, i, kd, vd, b, d, _, _, _, _, _, h, _, hd => by simp [depthMap] at hd
  | (k, v) :: r, f, i, kd, vd, b, d, hf, hi, hmap, hE, hc, h, hl, hd => by
    have hc0 := hc
    have h0 := h
    simp only [confMap, Bool.and_eq_true] at hc
    simp only [encMapEntries] at h
    simp only [depthMap] at hd
    have ihv := encVal_deep hS v vd
    have ihr := encMap_deep hS r f i kd vd
    split at h
    · rename_i la lb a bb c h1 h2 h3 h4 h5
      cases h
      simp only [List.length_append] at hl
      intro m0
      by_cases hdv : d < depthVal v
      · have hla := encKey_len hE.key.1.num.2 h3 (by omega)
        have hlb := lenVal_eq hS v vd bb hE.val.1.num.2 (conf_accepted hS v vd hc.1.2).2 h4 (by omega)
        rw [hla] at h1
        rw [hlb] at h2
        cases h1; cases h2
        obtain ⟨k0, hk0⟩ := hE.key.2.2.2
        obtain ⟨v0, hv0, hcv0⟩ := fieldDefault_conf hS hE.val.1
        have hkey := encKey_steps (d := d) hE hk0 hc.1.1 h3 (by omega) v0
        have hhb : hasVal S vd v = some true := by
          obtain ⟨hb, hhb⟩ := hasVal_isSome hE.val.1 v
          cases hb with
          | true => exact hhb
          | false => have := absent_depth hE.val.1 hc.1.2 hhb; omega
        have hce : confVal S vd.elem v = true := by rw [confVal_elem hE.val.2.2]; exact hc.1.2
        obtain ⟨w, p, rfl, hw, _, hsm⟩ := (ihv bb d hE.val.1 hhb h4 (by omega) hdv).1 hce
        have hval : FErr (entryField S d (nestedAt S d) kd vd) .recursionLimit (k, v0)
            (encodeKey vd.number w ++ p) := by
          refine FErr.here hE.val.1.num.1 hE.val.1.num.2 hw ?_
          intro t
          have hne1 : ¬ vd.number = 1 := by rw [hE.val.2.1]; decide
          unfold entryField
          rw [if_neg hne1, if_pos hE.val.2.1]
          have h3 : isList S vd = false := isList_of_ne hE.val.2.2
          have h5 : isMap S vd = false := isMap_of_ne hE.val.2.2
          have heq : ∀ b, entryValueMerge S (nestedAt S d) vd v0 w b =
              singularMerge (nestedAt S d) vd v0 w b := by
            intro b
            cases v0 with
            | list vs => simp only [confVal, h3, Bool.false_and] at hcv0; cases hcv0
            | map kvs => simp only [confVal, h5, Bool.false_and] at hcv0; cases hcv0
            | _ => rfl
          simp only [heq]
          rw [hsm v0 (by rw [confVal_elem hE.val.2.2]; exact hcv0) t]
          rfl
        have hentry := hkey.trans_err hval
        have hlen : a.length + (encodeKey vd.number w ++ p).length =
            (a ++ (encodeKey vd.number w ++ p)).length := by simp only [List.length_append]
        have hone : VErr S d f (.map m0) (encodeKey f.number .lengthDelimited ++
            (encodeVarint (a.length + (encodeKey vd.number w ++ p).length) ++
              (a ++ (encodeKey vd.number w ++ p)))) := by
          refine VErr.here (by decide) ?_
          intro t
          unfold valueMerge mapMerge
          simp only [hi, hmap, if_true, hE.kv, hk0, hv0]
          rw [hlen, List.append_assoc, hentry.mergeLoop (by
            simp only [List.length_append] at hl ⊢; omega)]
          rfl
        exact hone.append c
      · -- the entry is read, the rest is too deep
        have hsingle : encMapEntries S f.number kd vd [(k, v)] =
            some (encodeKey f.number .lengthDelimited ++ (encodeVarint (la + lb) ++ (a ++ bb))) := by
          simp only [encMapEntries, h1, h2, h3, h4, List.append_nil]
        have hpos := (encMap_merge hS [(k, v)] f i kd vd _ d hf hi hmap hE
          (by simp only [confMap, Bool.and_eq_true]; exact ⟨hc.1, trivial⟩) hsingle
          (by simp only [List.length_append]; omega) (by simp only [depthMap]; omega)).1 m0
        have hrest := ihr c d hf hi hmap hE hc.2 h5 (by omega) (by omega)
          (mergeMap S vd m0 [(k, v)])
        have : ∀ {x z : Value} {p : Bytes}, VSteps S d f x p z → VErr S d f z c → VErr S d f x (p ++ c) := by
          intro x z p hs he
          induction hs with
          | nil v => simpa using he
          | cons hw h hs ih => rw [List.append_assoc]; exact VErr.cons hw h (ih he)
        exact this hpos hrest
    · cases h
theorem encSlots_deep {S : Schema} (hS : S.wf = true) : (fs : List (Nat × Slot)) → (i : Nat) →
    (x y : Bytes) → (d : Nat) → confSlots S i fs = true → encSlots S i fs = some (x, y) →
    (x ++ y).length < 2 ^ 64 → d < depthSlots fs →
    (∀ st, confMsg S st = true → st.desc = i → FErr (msgMerge S d) .recursionLimit st x) ∨
    ((∀ st, confMsg S st = true → st.desc = i →
        ∃ st', FSteps (msgMerge S d) st x st' ∧ confMsg S st' = true ∧ st'.desc = i) ∧
      (∀ st, confMsg S st = true → st.desc = i → FErr (msgMerge S d) .recursionLimit st y))
  | [], i, x, y, d, _, _, _, hd => by simp [depthSlots] at hd
  | (n, .taken) :: r, i, x, y, d, hc, h, hl, hd => by
    simp only [confSlots] at hc
    simp only [encSlots] at h
    simp only [depthSlots] at hd
    exact encSlots_deep hS r i x y d hc h hl hd
  | (n, .unknown u) :: r, i, x, y, d, hc, h, hl, hd => by
    simp only [confSlots, Bool.and_eq_true, Option.isNone_iff_eq_none] at hc
    obtain ⟨⟨⟨hf, he⟩, hu⟩, hc⟩ := hc
    simp only [encSlots] at h
    simp only [depthSlots] at hd
    have ihr := encSlots_deep hS r i
    split at h
    · cases h
    · rename_i a b hab
      simp only [Option.some.injEq, Prod.mk.injEq] at h
      obtain ⟨rfl, rfl⟩ := h
      simp only [List.length_append] at hl
      have hlab : (a ++ b).length < 2 ^ 64 := by rw [List.length_append]; omega
      simp only [unknownOk, Bool.and_eq_true, Bool.not_eq_true', List.isEmpty_eq_false_iff,
        List.all_eq_true, beq_iff_eq] at hu
      have hwu := (USet.wf_iff u).1 hu.2
      -- the declared part of the rest
      by_cases hdu : d < USet.depth u
      · have bad : ∀ st, confMsg S st = true → st.desc = i →
            FErr (msgMerge S d) .recursionLimit st (encUSet u ++ b) := by
          intro st hst hi
          obtain ⟨md, hC⟩ := confMsg_iff.1 hst
          have hdesc := hC.desc
          rw [hi] at hdesc
          have hf' := hf; rw [field?_eq hdesc] at hf'
          have he' := he; rw [ext?_eq hdesc] at he'
          exact (unknown_deep hS hf' he' d u hu.1.2 hwu hdu st hC).append b
        by_cases hdr : d < depthSlots r
        · rcases ihr a b d hc hab hlab hdr with h1 | ⟨h1, _⟩
          · exact .inl h1
          · exact .inr ⟨h1, bad⟩
        · refine .inr ⟨?_, bad⟩
          intro st hst hi
          have s1 := (encSlots_merge hS r i a b d hc hab hlab (by omega)).1 st hst hi
          have hc1 := FSteps_conf hS s1 hst
          exact ⟨_, s1, hc1.1, rfl⟩
      · rcases ihr a b d hc hab hlab (by omega) with h1 | ⟨h1, h2⟩
        · exact .inl h1
        · refine .inr ⟨h1, ?_⟩
          intro st hst hi
          obtain ⟨md, hC⟩ := confMsg_iff.1 hst
          have hdesc := hC.desc
          rw [hi] at hdesc
          have hf' := hf; rw [field?_eq hdesc] at hf'
          have he' := he; rw [ext?_eq hdesc] at he'
          have s1 := unknown_steps hS hf' he' d u hu.1.1 hu.1.2 hwu (by omega) st hC
          have hc1 := FSteps_conf hS s1 hst
          exact s1.trans_err (h2 _ hc1.1 (hc1.2.trans hi))
  | (n, .val v) :: r, i, x, y, d, hc, h, hl, hd => by
    have hc0 := hc
    simp only [confSlots, Bool.and_eq_true] at hc
    obtain ⟨hcv, hc⟩ := hc
    simp only [encSlots] at h
    simp only [depthSlots] at hd
    have ihv := encVal_deep hS v
    have ihr := encSlots_deep hS r i
    split at h
    · rename_i p q a b hp hq hab
      cases h
      simp only [List.length_append] at hl
      have hlab : (a ++ b).length < 2 ^ 64 := by rw [List.length_append]; omega
      -- reading this entry alone, if it is shallow
      have hone : depthVal v ≤ d →
          (∀ st, confMsg S st = true → st.desc = i → ∃ st', FSteps (msgMerge S d) st p st' ∧
            confMsg S st' = true ∧ st'.desc = i) ∧
          (∀ st, confMsg S st = true → st.desc = i → ∃ st', FSteps (msgMerge S d) st q st' ∧
            confMsg S st' = true ∧ st'.desc = i) := by
        intro hdv
        have henc : encSlots S i [(n, .val v)] = some (p, q) := by
          simp only [encSlots, hp, hq, List.append_nil]
        have hcs : confSlots S i [(n, .val v)] = true := by
          simp only [confSlots, Bool.and_eq_true]; exact ⟨hcv, trivial⟩
        obtain ⟨e1, e2⟩ := encSlots_merge hS [(n, .val v)] i p q d hcs henc
          (by rw [List.length_append]; omega) (by simp only [depthSlots]; omega)
        constructor
        · intro st hst hi
          have s := e1 st hst hi
          exact ⟨_, s, (FSteps_conf hS s hst).1, rfl⟩
        · intro st hst hi
          have s := e2 st hst hi
          exact ⟨_, s, (FSteps_conf hS s hst).1, rfl⟩
      have hrest : depthSlots r ≤ d → ∀ st, confMsg S st = true → st.desc = i →
          ∃ st', FSteps (msgMerge S d) st a st' ∧ confMsg S st' = true ∧ st'.desc = i := by
        intro hdr st hst hi
        have s := (encSlots_merge hS r i a b d hc hab hlab hdr).1 st hst hi
        exact ⟨_, s, (FSteps_conf hS s hst).1, rfl⟩
      by_cases hdv : d < depthVal v
      · cases hf : S.field? i n with
        | some f =>
          rw [hf] at hcv hp
          simp only at hcv
          have hw := Schema.wf_field hS hf
          have hhb : hasVal S f v = some true := by
            obtain ⟨hb, hhb⟩ := hasVal_isSome hw.1 v
            cases hb with
            | true => exact hhb
            | false => have := absent_depth hw.1 hcv hhb; omega
          simp only [ifPresent, hhb] at hp
          left
          intro st hst hi
          obtain ⟨md, hC⟩ := confMsg_iff.1 hst
          have hdesc := hC.desc
          rw [hi] at hdesc
          have hgf := hf
          rw [field?_eq hdesc] at hgf
          obtain ⟨c, hcc, _, hfirst, hrest⟩ := field_place hS hC hgf d
          have hV := (ihv f p d hw.1 hhb hp (by omega) hdv).2 hcv c hcc
          exact (hV.placeFrom hw.1.num hfirst hrest).append a
        | none =>
          rw [hf] at hcv hp
          simp only at hcv
          simp only [ifPresent] at hp
          cases hp
          cases he : S.ext? i n with
          | none => rw [he] at hcv; cases hcv
          | some f =>
            rw [he] at hcv hq
            simp only at hcv
            have hw := Schema.wf_ext hS he
            have hhb : hasVal S f v = some true := by
              obtain ⟨hb, hhb⟩ := hasVal_isSome hw.1 v
              cases hb with
              | true => exact hhb
              | false => have := absent_depth hw.1 hcv hhb; omega
            simp only [ifPresent, hhb] at hq
            have bad : ∀ st, confMsg S st = true → st.desc = i →
                FErr (msgMerge S d) .recursionLimit st (q ++ b) := by
              intro st hst hi
              obtain ⟨md, hC⟩ := confMsg_iff.1 hst
              have hdesc := hC.desc
              rw [hi] at hdesc
              have hge := he
              rw [ext?_eq hdesc] at hge
              obtain ⟨c, hcc, _, hfirst, hrest⟩ := ext_place hS hC hge d
              have hV := (ihv f q d hw.1 hhb hq (by omega) hdv).2 hcv c hcc
              exact (hV.placeFrom hw.1.num hfirst hrest).append b
            simp only [List.nil_append]
            by_cases hdr : d < depthSlots r
            · rcases ihr a b d hc hab hlab hdr with h1 | ⟨h1, _⟩
              · exact .inl h1
              · exact .inr ⟨h1, bad⟩
            · exact .inr ⟨hrest (by omega), bad⟩
      · obtain ⟨e1, e2⟩ := hone (by omega)
        rcases ihr a b d hc hab hlab (by omega) with h1 | ⟨h1, h2⟩
        · left
          intro st hst hi
          obtain ⟨st1, s1, c1, d1⟩ := e1 st hst hi
          exact s1.trans_err (h1 st1 c1 d1)
        · right
          constructor
          · intro st hst hi
            obtain ⟨st1, s1, c1, d1⟩ := e1 st hst hi
            obtain ⟨st2, s2, c2, d2⟩ := h1 st1 c1 d1
            exact ⟨st2, s1.trans s2, c2, d2⟩
          · intro st hst hi
            obtain ⟨st1, s1, c1, d1⟩ := e2 st hst hi
            exact s1.trans_err (h2 st1 c1 d1)
    · cases h
end

/-- Decoding the encoding of a message nested deeper than the limit fails with the
recursion error. -/
theorem merge_encMsg_deep {S : Schema} (hS : S.wf = true) {m1 m2 : DynMsg} (h1 : confMsg S m1 = true)
    (h2 : confMsg S m2 = true) (hd : m1.desc = m2.desc) (hdep : recursionLimit < depthMsg m2)
    {b : Bytes} (hb : encMsg S m2 = some b) (hl : b.length < 2 ^ 64) :
    merge S m1 b = .error .recursionLimit := by
  have h2' := h2
  simp only [confMsg, Bool.and_eq_true] at h2'
  unfold encMsg at hb
  split at hb
  · cases hb
  · rename_i x y hxy
    cases hb
    have : FErr (msgMerge S recursionLimit) .recursionLimit m1 (x ++ y) := by
      rcases encSlots_deep hS m2.fields m2.desc x y recursionLimit h2'.2 hxy hl hdep with h | ⟨h, h'⟩
      · exact (h m1 h1 hd).append y
      · obtain ⟨st, s, c, dd⟩ := h m1 h1 hd
        exact s.trans_err (h' st c dd)
    unfold merge
    rw [this.mergeAll]

end Verif.Dyn
