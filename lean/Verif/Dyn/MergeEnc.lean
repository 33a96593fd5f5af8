import Verif.Dyn.Merge
/-!
The main induction: decoding the encoding of a message into another message is the
abstract merge.
-/
set_option autoImplicit false
namespace Verif.Dyn
open Verif.Wire

theorem hasVal_elem {S : Schema} {f : FieldDesc} (hf : FieldWf S f) (hl : isList S f = true)
    {v : Value} (hv : confVal S f.elem v = true) : hasVal S f v = some true := by
  have hc := (isList_iff.1 hl).1
  have hp := (hf.rep hc).1
  have h3 : isList S f.elem = false := isList_of_ne elem_card
  unfold hasVal isDefault fieldDefault
  rw [hp, if_neg (by simp), if_pos hl]
  cases v with
  | list vs => simp only [confVal, h3, Bool.false_and] at hv; cases hv
  | _ => simp [Value.beq]

theorem mergeVal_elem {S : Schema} {f g : FieldDesc} {v : Value} (hc : f.card ≠ .repeated)
    (hv : confVal S f v = true) (cur : Value) (h : FieldDesc) : mergeVal S g cur v = mergeVal S h cur v := by
  have h3 : isList S f = false := isList_of_ne hc
  have h5 : isMap S f = false := isMap_of_ne hc
  cases v with
  | list vs => simp only [confVal, h3, Bool.false_and] at hv; cases hv
  | map kvs => simp only [confVal, h5, Bool.false_and] at hv; cases hv
  | _ => rfl

theorem mergeVal_kindDefault {S : Schema} {f : FieldDesc} {v v0 : Value} (hc : f.card ≠ .repeated)
    (hv : confVal S f v = true) (h0 : kindDefault S f.kind = some v0) :
    mergeVal S f v0 v = mergeVal S f (emptyLike v) v := by
  have h3 : isList S f = false := isList_of_ne hc
  have h5 : isMap S f = false := isMap_of_ne hc
  cases v with
  | msg i fs =>
    obtain ⟨_, hk, _⟩ := confMsg_of_confVal hv
    rw [hk] at h0
    simp [kindDefault] at h0
    subst h0; rfl
  | list vs => simp only [confVal, h3, Bool.false_and] at hv; cases hv
  | map kvs => simp only [confVal, h5, Bool.false_and] at hv; cases hv
  | _ => rfl

/-- The scalar cases of the main theorem. -/
theorem encScalar_merge {S : Schema} {d : Nat} {f : FieldDesc} {v : Value} {b : Bytes}
    (hcf : ∀ g : FieldDesc, confVal S g v = (g.card != .repeated && scalarOk g.kind v))
    (hm : ∀ cur, mergeVal S f cur v = v)
    (hv : hasVal S f v = some true)
    (h : unlessDefault S f v []
      ((scalarEnc f.kind v).map (encodeKey f.number f.kind.wireType ++ ·)) = some b)
    (hl : b.length < 2 ^ 64) :
    (confVal S f.elem v = true → Espec S d f v b) ∧ (confVal S f v = true → Vspec S d f v b) := by
  rw [unlessDefault_present hv] at h
  constructor
  · intro hc
    rw [hcf, Bool.and_eq_true] at hc
    exact Espec_scalar hc.2 hm h hl
  · intro hc
    rw [hcf, Bool.and_eq_true] at hc
    exact Vspec_of_Espec (by simpa using hc.1) (Espec_scalar hc.2 hm h hl)

/-- The key of a map entry. -/
theorem encKey_steps {S : Schema} {d : Nat} {kd vd : FieldDesc} {i : Nat}
    (hE : EntryOk S i kd vd) {k k0 : MapKey} (hk0 : MapKey.default kd.kind = some k0)
    (hk : keyOk kd.kind k = true) {a : Bytes} (h : encKey kd k = some a) (hl : a.length < 2 ^ 64)
    (v : Value) :
    FSteps (entryField S d (nestedAt S d) kd vd) (k0, v) a (k, v) := by
  have hkm := (mapKeyDefault_kind hk0).1
  have body : ∀ a : Bytes, a.length < 2 ^ 64 →
      (scalarEnc kd.kind k.toValue).map (encodeKey kd.number kd.kind.wireType ++ ·) = some a →
      FSteps (entryField S d (nestedAt S d) kd vd) (k0, v) a (k, v) := by
    intro a hl h
    obtain ⟨p, hp, rfl⟩ := Option.map_eq_some_iff.1 h
    refine FSteps.single hE.key.1.num.1 hE.key.1.num.2 kd.kind.wireType_ne_end ?_
    intro t
    have hs : scalarOk kd.kind k.toValue = true := by rw [← keyOk_eq k hkm]; exact hk
    have hval : k0.isValid kd.kind = true := by
      have := mapDefault_keyOk hk0
      rw [keyOk_eq _ hkm] at this
      rw [mapKey_isValid]; exact scalarOk_isValid this
    unfold entryField
    simp only [hE.key.2.1, if_true]
    unfold keyMerge
    rw [if_pos hval, scalarDec_enc hp (fun b hb => by
      rw [hb] at hs; exact scalarOk_utf8 hs) (by rw [List.length_append] at hl; omega)]
    simp only [toMapKey_toValue]
    rfl
  unfold encKey at h
  simp only at h
  split at h
  · exact body a hl h
  · rw [hk0] at h
    simp only at h
    split at h
    · rename_i he; cases h; subst he; exact FSteps.nil _
    · exact body a hl h

mutual
theorem encVal_merge {S : Schema} (hS : S.wf = true) : (v : Value) → (f : FieldDesc) → (b : Bytes) →
    (d : Nat) → FieldWf S f → hasVal S f v = some true → encVal S f v = some b →
    b.length < 2 ^ 64 → depthVal v ≤ d →
    (confVal S f.elem v = true → Espec S d f v b) ∧ (confVal S f v = true → Vspec S d f v b)
  | .msg i fs, f, b, d, hf, hv, h, hl, hd => by
    have main : confVal S f.elem (.msg i fs) = true → Espec S d f (.msg i fs) b := by
      intro hc
      obtain ⟨_, hk, hcm⟩ := confMsg_of_confVal hc
      have hk : f.kind = .message i := hk
      have hcm' := hcm
      simp only [confMsg, Bool.and_eq_true] at hcm'
      simp only [encVal] at h
      rw [unlessDefault_present hv, hk] at h
      simp only at h
      cases he : encSlots S i fs with
      | none => rw [he] at h; cases h
      | some p =>
        obtain ⟨x, y⟩ := p
        rw [he] at h
        simp only at h
        simp only [depthVal] at hd
        cases d with
        | zero => omega
        | succ d =>
          have hxy : (x ++ y).length < 2 ^ 64 := by
            split at h
            · cases h; simp only [List.length_append] at hl ⊢; omega
            · split at h
              · cases h
              · cases h; simp only [List.length_append] at hl ⊢; omega
          have steps : ∀ fs0, confMsg S ⟨i, fs0⟩ = true →
              FSteps (msgMerge S d) ⟨i, fs0⟩ (x ++ y)
                ⟨i, mergeRest S i (mergeDecl S i fs0 fs) fs⟩ := by
            intro fs0 hc0
            obtain ⟨h1, h2⟩ := encSlots_merge hS fs i x y d hcm'.2 he hxy (by omega)
            have s1 := h1 ⟨i, fs0⟩ hc0 rfl
            have s2 := h2 _ (FSteps_conf hS s1 hc0).1 rfl
            exact s1.trans s2
          split at h
          · rename_i hg
            cases h
            refine ⟨.startGroup, _, rfl, by decide, (by intro h; cases h), ?_⟩
            intro cur hcur t
            obtain ⟨fs0, rfl, hc0⟩ := msg_of_confVal (f := f.elem) hk elem_card hcur
            unfold singularMerge
            simp only [hk, hg, if_true, nestedAt]
            rw [List.append_assoc, groupMerge_of_fsteps (steps fs0 hc0) hf.num.1 hf.num.2]
            simp only [mapV, mergeVal, DynMsg.toValue]
          · rename_i hg
            have hlen := lenSlots_eq hS fs i x y (confSlots_accepted hS fs i hcm'.2) he hxy
            rw [hlen] at h
            cases h
            refine ⟨.lengthDelimited, _, rfl, by decide, (by intro _; rw [hk]; rfl), ?_⟩
            intro cur hcur t
            obtain ⟨fs0, rfl, hc0⟩ := msg_of_confVal (f := f.elem) hk elem_card hcur
            unfold singularMerge
            simp only [hk, hg, nestedAt]
            rw [List.append_assoc, if_neg (by simp), messageMerge_of_fsteps (steps fs0 hc0) hxy]
            simp only [mapV, mergeVal, DynMsg.toValue]
    refine ⟨main, fun hc => ?_⟩
    have hcard := (confMsg_of_confVal hc).1
    exact Vspec_of_Espec hcard (main (by rw [confVal_elem hcard]; exact hc))
  | .list vs, f, b, d, hf, hv, h, hl, hd => by
    constructor
    · intro hc
      have h3 : isList S f.elem = false := isList_of_ne elem_card
      simp only [confVal, h3, Bool.false_and] at hc; cases hc
    · intro hc
      simp only [confVal, Bool.and_eq_true] at hc
      obtain ⟨hlist, hcv⟩ := hc
      have hrep := hf.rep (isList_iff.1 hlist).1
      have hne : vs ≠ [] := by
        rintro rfl
        unfold hasVal isDefault fieldDefault at hv
        rw [hrep.1, if_neg (by simp), if_pos hlist] at hv
        simp [Value.beq, beqVals] at hv
      simp only [encVal] at h
      rw [unlessDefault_present hv, if_pos hlist] at h
      simp only [depthVal] at hd
      have hcur : ∀ cur, confVal S f cur = true → ∃ ws, cur = .list ws := by
        intro cur hcur
        have hmap := (isList_iff.1 hlist).2
        cases cur with
        | list ws => exact ⟨ws, rfl⟩
        | map kvs => simp only [confVal, hmap, Bool.false_and] at hcur; cases hcur
        | _ => simp [confVal, (isList_iff.1 hlist).1] at hcur
      split at h
      · rename_i hp
        have hpk := (hf.packed hp).2
        unfold encPackedList at h
        rw [if_pos hpk] at h
        split at h
        · rename_i l bb h1 h2
          cases h
          have hbb : bb.length < 2 ^ 64 := by simp only [List.length_append] at hl; omega
          rw [packedLenAll_eq hpk vs bb h2 hbb] at h1
          cases h1
          refine ⟨by simp [encodeKey_ne_nil], ?_⟩
          intro cur hc
          obtain ⟨ws, rfl⟩ := hcur cur hc
          refine VSteps.single (by decide) ?_
          intro t
          obtain ⟨v0, hv0, hcv0⟩ := kindDefault_conf hf
          unfold valueMerge listMerge
          simp only [hlist, if_true, hv0, hpk, and_self]
          rw [List.append_assoc, mergeLoop_of_steps (packed_steps hpk hcv0 vs bb h2 hbb hcv ws) hbb]
          have hkm : f.kind.isMessage = false := by
            cases hkk : f.kind <;> rw [hkk] at hpk <;> first | rfl | cases hpk
          simp only [mapV, mergeVal, normVals_scalar (f := f.elem) (g := f.elem) hkm elem_card vs hcv]
        · cases h
      · obtain ⟨h1, h2⟩ := encVals_merge hS vs f b d hf hlist hcv h hl hd
        refine ⟨h2 hne, ?_⟩
        intro cur hc
        obtain ⟨ws, rfl⟩ := hcur cur hc
        simp only [mergeVal]
        exact h1 ws
  | .map kvs, f, b, d, hf, hv, h, hl, hd => by
    constructor
    · intro hc
      have h3 : isMap S f.elem = false := isMap_of_ne elem_card
      simp only [confVal, h3, Bool.false_and] at hc; cases hc
    · intro hc
      simp only [confVal, Bool.and_eq_true] at hc
      obtain ⟨hmap, hcv⟩ := hc
      obtain ⟨hcard, i, hi, hme⟩ := isMap_iff.1 hmap
      obtain ⟨kd, vd, hE⟩ := Schema.wf_entry hS hme
      have hlist : isList S f = false := by simp [isList, hmap]
      have hrep := hf.rep hcard
      have hne : kvs ≠ [] := by
        rintro rfl
        unfold hasVal isDefault fieldDefault at hv
        rw [hrep.1, if_neg (by simp), hlist, if_neg (by simp), if_pos hmap] at hv
        simp [Value.beq, beqMap] at hv
      simp only [encVal] at h
      rw [unlessDefault_present hv, hi] at h
      simp only [hmap, if_true, hE.kv] at h
      simp only [hi, hE.kv, Bool.and_eq_true] at hcv
      simp only [depthVal] at hd
      obtain ⟨h1, h2⟩ := encMap_merge hS kvs f i kd vd b d hf hi hmap hE hcv.2 h hl hd
      refine ⟨h2 hne, ?_⟩
      intro cur hc
      have : ∃ m0, cur = .map m0 := by
        cases cur with
        | list ws => simp only [confVal, hlist, Bool.false_and] at hc; cases hc
        | map m0 => exact ⟨m0, rfl⟩
        | _ => simp [confVal, hcard] at hc
      obtain ⟨m0, rfl⟩ := this
      simp only [mergeVal, hi, hE.kv]
      exact h1 m0
  | .bool x, f, b, d, hf, hv, h, hl, hd => by
    simp only [encVal] at h
    exact encScalar_merge (fun g => by simp only [confVal]) (fun c => by simp only [mergeVal]) hv h hl
  | .i32 x, f, b, d, hf, hv, h, hl, hd => by
    simp only [encVal] at h
    exact encScalar_merge (fun g => by simp only [confVal]) (fun c => by simp only [mergeVal]) hv h hl
  | .i64 x, f, b, d, hf, hv, h, hl, hd => by
    simp only [encVal] at h
    exact encScalar_merge (fun g => by simp only [confVal]) (fun c => by simp only [mergeVal]) hv h hl
  | .u32 x, f, b, d, hf, hv, h, hl, hd => by
    simp only [encVal] at h
    exact encScalar_merge (fun g => by simp only [confVal]) (fun c => by simp only [mergeVal]) hv h hl
  | .u64 x, f, b, d, hf, hv, h, hl, hd => by
    simp only [encVal] at h
    exact encScalar_merge (fun g => by simp only [confVal]) (fun c => by simp only [mergeVal]) hv h hl
  | .f32 x, f, b, d, hf, hv, h, hl, hd => by
    simp only [encVal] at h
    exact encScalar_merge (fun g => by simp only [confVal]) (fun c => by simp only [mergeVal]) hv h hl
  | .f64 x, f, b, d, hf, hv, h, hl, hd => by
    simp only [encVal] at h
    exact encScalar_merge (fun g => by simp only [confVal]) (fun c => by simp only [mergeVal]) hv h hl
  | .str x, f, b, d, hf, hv, h, hl, hd => by
    simp only [encVal] at h
    exact encScalar_merge (fun g => by simp only [confVal]) (fun c => by simp only [mergeVal]) hv h hl
  | .bytes x, f, b, d, hf, hv, h, hl, hd => by
    simp only [encVal] at h
    exact encScalar_merge (fun g => by simp only [confVal]) (fun c => by simp only [mergeVal]) hv h hl
  | .enum x, f, b, d, hf, hv, h, hl, hd => by
    simp only [encVal] at h
    exact encScalar_merge (fun g => by simp only [confVal]) (fun c => by simp only [mergeVal]) hv h hl
theorem encVals_merge {S : Schema} (hS : S.wf = true) : (vs : List Value) → (f : FieldDesc) →
    (b : Bytes) → (d : Nat) → FieldWf S f → isList S f = true → confVals S f.elem vs = true →
    encVals S f vs = some b → b.length < 2 ^ 64 → depthVals vs ≤ d →
    (∀ ws : List Value, VSteps S d f (.list ws) b (.list (ws ++ normVals S f.elem vs))) ∧
      (vs ≠ [] → b ≠ [])
  | [], f, b, d, _, _, _, h, _, _ => by
    simp [encVals] at h
    subst h
    refine ⟨?_, fun h => absurd rfl h⟩
    intro ws
    simp only [normVals, List.append_nil]
    exact VSteps.nil _
  | v :: r, f, b, d, hf, hlist, hc, h, hl, hd => by
    simp only [confVals, Bool.and_eq_true] at hc
    simp only [encVals] at h
    simp only [depthVals] at hd
    split at h
    · rename_i x y h1 h2
      cases h
      rw [List.length_append] at hl
      obtain ⟨w, p, rfl, hw, hpk, hE⟩ :=
        (encVal_merge hS v f x d hf (hasVal_elem hf hlist hc.1) h1 (by omega) (by omega)).1 hc.1
      have hr := (encVals_merge hS r f y d hf hlist hc.2 h2 (by omega) (by omega)).1
      refine ⟨?_, fun _ => by simp [encodeKey_ne_nil]⟩
      intro ws
      obtain ⟨v0, hv0, hcv0⟩ := kindDefault_conf hf
      have hm : mergeVal S f v0 v = mergeVal S f.elem (emptyLike v) v := by
        rw [mergeVal_elem elem_card hc.1 v0 f.elem]
        exact mergeVal_kindDefault (f := f.elem) elem_card hc.1 hv0
      refine VSteps.cons (v1 := .list (ws ++ [mergeVal S f v0 v])) hw ?_ ?_
      · intro t
        unfold valueMerge listMerge
        simp only [hlist, if_true, hv0]
        rw [if_neg (by rintro ⟨h1, h2⟩; rw [hpk h1] at h2; cases h2), hE v0 hcv0 t]
        rfl
      · have := hr (ws ++ [mergeVal S f v0 v])
        simp only [normVals]
        rw [← hm]
        simpa using this
    · cases h
theorem encMap_merge {S : Schema} (hS : S.wf = true) : (kvs : List (MapKey × Value)) →
    (f : FieldDesc) → (i : Nat) → (kd vd : FieldDesc) → (b : Bytes) → (d : Nat) → FieldWf S f →
    f.kind = .message i → isMap S f = true → EntryOk S i kd vd → confMap S kd vd kvs = true →
    encMapEntries S f.number kd vd kvs = some b → b.length < 2 ^ 64 → depthMap kvs ≤ d →
    (∀ m0, VSteps S d f (.map m0) b (.map (mergeMap S vd m0 kvs))) ∧ (kvs ≠ [] → b ≠ [])
  | [], f, i, kd, vd, b, d, _, _, _, _, _, h, _, _ => by
    simp [encMapEntries] at h
    subst h
    refine ⟨?_, fun h => absurd rfl h⟩
    intro m0
    simp only [mergeMap]
    exact VSteps.nil _
  | (k, v) :: r, f, i, kd, vd, b, d, hf, hi, hmap, hE, hc, h, hl, hd => by
    simp only [confMap, Bool.and_eq_true] at hc
    simp only [encMapEntries] at h
    simp only [depthMap] at hd
    split at h
    · rename_i la lb a bb c h1 h2 h3 h4 h5
      cases h
      simp only [List.length_append] at hl
      have hla := encKey_len hE.key.1.num.2 h3 (by omega)
      have hlb := lenVal_eq hS v vd bb hE.val.1.num.2 (conf_accepted hS v vd hc.1.2).2 h4 (by omega)
      rw [hla] at h1
      rw [hlb] at h2
      cases h1; cases h2
      have hr := (encMap_merge hS r f i kd vd c d hf hi hmap hE hc.2 h5 (by omega) (by omega)).1
      refine ⟨?_, fun _ => by simp [encodeKey_ne_nil]⟩
      intro m0
      obtain ⟨k0, hk0⟩ := hE.key.2.2.2
      obtain ⟨v0, hv0, hcv0⟩ := fieldDefault_conf hS hE.val.1
      simp only [mergeMap]
      have ih := encVal_merge hS v vd bb d hE.val.1
      refine VSteps.cons (by decide) ?_ (hr _)
      intro t
      have hkey := encKey_steps (d := d) hE hk0 hc.1.1 h3 (by omega) v0
      have hval : FSteps (entryField S d (nestedAt S d) kd vd) (k, v0) bb
          (k, if hasVal S vd v = some true then mergeVal S vd (emptyLike v) v
            else match fieldDefault S vd with
              | some w => w
              | none => v) := by
        obtain ⟨hb, hhb⟩ := hasVal_isSome hE.val.1 v
        cases hb with
        | false =>
          have : bb = [] := by
            cases v <;> simp only [encVal] at h4 <;> rw [unlessDefault_absent hhb] at h4 <;>
              exact (Option.some.inj h4).symm
          subst this
          rw [if_neg (by rw [hhb]; simp), hv0]
          exact FSteps.nil _
        | true =>
          rw [if_pos hhb]
          have hce : confVal S vd.elem v = true := by rw [confVal_elem hE.val.2.2]; exact hc.1.2
          obtain ⟨w, p, rfl, hw, _, hsm⟩ := (ih hhb h4 (by omega) (by omega)).1 hce
          refine FSteps.single hE.val.1.num.1 hE.val.1.num.2 hw ?_
          intro t
          have hne1 : ¬ vd.number = 1 := by rw [hE.val.2.1]; decide
          unfold entryField
          rw [if_neg hne1, if_pos hE.val.2.1]
          have h3 : isList S vd = false := isList_of_ne hE.val.2.2
          have h5 : isMap S vd = false := isMap_of_ne hE.val.2.2
          have heq : ∀ b, entryValueMerge S (nestedAt S d) vd v0 w b =
              singularMerge (nestedAt S d) vd v0 w b := by
            intro b
            cases v0 with
            | list vs => simp only [confVal, h3, Bool.false_and] at hcv0; cases hcv0
            | map kvs => simp only [confVal, h5, Bool.false_and] at hcv0; cases hcv0
            | _ => rfl
          simp only [heq]
          rw [hsm v0 (by rw [confVal_elem hE.val.2.2]; exact hcv0) t,
            mergeVal_default hE.val.1 hc.1.2 hv0]
          rfl
      have hsteps := (hkey.trans hval).toSteps
      have hlen : a.length + bb.length = (a ++ bb).length := by rw [List.length_append]
      unfold valueMerge mapMerge
      simp only [hi, hmap, if_true, hE.kv, hk0, hv0]
      rw [hlen, List.append_assoc, mergeLoop_of_steps hsteps (by rw [List.length_append]; omega)]
      simp only [mapV, hv0]
    · cases h
theorem encSlots_merge {S : Schema} (hS : S.wf = true) : (fs : List (Nat × Slot)) → (i : Nat) →
    (x y : Bytes) → (d : Nat) → confSlots S i fs = true → encSlots S i fs = some (x, y) →
    (x ++ y).length < 2 ^ 64 → depthSlots fs ≤ d →
    (∀ st, confMsg S st = true → st.desc = i →
      FSteps (msgMerge S d) st x ⟨i, mergeDecl S i st.fields fs⟩) ∧
    (∀ st, confMsg S st = true → st.desc = i →
      FSteps (msgMerge S d) st y ⟨i, mergeRest S i st.fields fs⟩)
  | [], i, x, y, d, _, h, _, _ => by
    simp [encSlots] at h
    obtain ⟨rfl, rfl⟩ := h
    constructor
    · rintro ⟨j, gs⟩ _ rfl; simp only [mergeDecl]; exact FSteps.nil _
    · rintro ⟨j, gs⟩ _ rfl; simp only [mergeRest]; exact FSteps.nil _
  | (n, .taken) :: r, i, x, y, d, hc, h, hl, hd => by
    simp only [confSlots] at hc
    simp only [encSlots] at h
    simp only [depthSlots] at hd
    simp only [mergeDecl, mergeRest]
    exact encSlots_merge hS r i x y d hc h hl hd
  | (n, .unknown u) :: r, i, x, y, d, hc, h, hl, hd => by
    simp only [confSlots, Bool.and_eq_true, Option.isNone_iff_eq_none] at hc
    obtain ⟨⟨⟨hf, he⟩, hu⟩, hc⟩ := hc
    simp only [encSlots] at h
    simp only [depthSlots] at hd
    simp only [mergeDecl, mergeRest]
    split at h
    · cases h
    · rename_i a b hab
      simp only [Option.some.injEq, Prod.mk.injEq] at h
      obtain ⟨rfl, rfl⟩ := h
      simp only [List.length_append] at hl
      obtain ⟨h1, h2⟩ := encSlots_merge hS r i a b d hc hab (by rw [List.length_append]; omega) (by omega)
      refine ⟨h1, ?_⟩
      intro st hst hi
      obtain ⟨md, hC⟩ := confMsg_iff.1 hst
      simp only [unknownOk, Bool.and_eq_true, Bool.not_eq_true', List.isEmpty_eq_false_iff,
        List.all_eq_true, beq_iff_eq] at hu
      have hdesc := hC.desc
      rw [hi] at hdesc
      rw [field?_eq hdesc] at hf
      rw [ext?_eq hdesc] at he
      have s1 := unknown_steps hS hf he d u hu.1.1 hu.1.2 ((USet.wf_iff u).1 hu.2) (by omega) st hC
      have hc1 := FSteps_conf hS s1 hst
      have s2 := h2 _ hc1.1 hi
      exact s1.trans s2
  | (n, .val v) :: r, i, x, y, d, hc, h, hl, hd => by
    simp only [confSlots, Bool.and_eq_true] at hc
    obtain ⟨hcv, hc⟩ := hc
    simp only [encSlots] at h
    simp only [depthSlots] at hd
    have ih := encVal_merge hS v
    split at h
    · rename_i p q a b hp hq hab
      cases h
      simp only [List.length_append] at hl
      obtain ⟨h1, h2⟩ := encSlots_merge hS r i a b d hc hab (by rw [List.length_append]; omega) (by omega)
      cases hf : S.field? i n with
      | some f =>
        rw [hf] at hcv hp
        simp only at hcv
        have he : S.ext? i n = none := by
          cases he : S.ext? i n with
          | none => rfl
          | some g => have := (Schema.wf_ext hS he).2.2.1; rw [hf] at this; cases this
        rw [he] at hq
        simp only [ifPresent] at hp hq
        cases hq
        have hw := Schema.wf_field hS hf
        constructor
        · intro st hst hi
          obtain ⟨md, hC⟩ := confMsg_iff.1 hst
          have hdesc := hC.desc
          rw [hi] at hdesc
          have hgf := hf
          rw [field?_eq hdesc] at hgf
          simp only [mergeDecl, hdesc, hgf]
          obtain ⟨hb, hhb⟩ := hasVal_isSome hw.1 v
          cases hb with
          | false =>
            rw [hhb] at hp
            cases hp
            rw [if_neg (by rw [hhb]; simp), List.nil_append]
            exact h1 st hst hi
          | true =>
            rw [hhb] at hp
            rw [if_pos hhb]
            obtain ⟨hne, hV⟩ := (ih f p d hw.1 hhb hp (by omega) (by omega)).2 hcv
            obtain ⟨c, hcc, hcur, hfirst, hrest⟩ := field_place hS hC hgf d
            have s1 := (hV c hcc).placeFrom hw.1.num hfirst hrest hne
            have hmv : mergeVal S f c v =
                mergeVal S f (curOr (FieldSet.clearAll (siblings md f) st.fields) n v) v := by
              unfold curOr
              rcases hcur with hcur | ⟨hcur, hdef⟩
              · rw [hcur]
              · rw [hcur]; exact mergeVal_default hw.1 hcv hdef
            rw [hmv] at s1
            have hc1 := FSteps_conf hS s1 hst
            have s2 := h1 _ hc1.1 hi
            exact s1.trans s2
        · intro st hst hi
          simp only [mergeRest, he, List.nil_append]
          exact h2 st hst hi
      | none =>
        rw [hf] at hcv hp
        simp only at hcv
        simp only [ifPresent] at hp
        cases hp
        cases he : S.ext? i n with
        | none => rw [he] at hcv; cases hcv
        | some f =>
          rw [he] at hcv hq
          simp only at hcv
          simp only [ifPresent] at hq
          have hw := Schema.wf_ext hS he
          constructor
          · intro st hst hi
            obtain ⟨md, hC⟩ := confMsg_iff.1 hst
            have hdesc := hC.desc
            rw [hi] at hdesc
            rw [field?_eq hdesc] at hf
            simp only [mergeDecl, hdesc, hf, List.nil_append]
            exact h1 st hst hi
          · intro st hst hi
            obtain ⟨md, hC⟩ := confMsg_iff.1 hst
            have hdesc := hC.desc
            rw [hi] at hdesc
            have hge := he
            rw [ext?_eq hdesc] at hge
            simp only [mergeRest, he]
            obtain ⟨hb, hhb⟩ := hasVal_isSome hw.1 v
            cases hb with
            | false =>
              rw [hhb] at hq
              cases hq
              rw [if_neg (by rw [hhb]; simp), List.nil_append]
              exact h2 st hst hi
            | true =>
              rw [hhb] at hq
              rw [if_pos hhb]
              obtain ⟨hne, hV⟩ := (ih f q d hw.1 hhb hq (by omega) (by omega)).2 hcv
              obtain ⟨c, hcc, hcur, hfirst, hrest⟩ := ext_place hS hC hge d
              have s1 := (hV c hcc).placeFrom hw.1.num hfirst hrest hne
              have hmv : mergeVal S f c v = mergeVal S f (curOr st.fields n v) v := by
                unfold curOr
                rcases hcur with hcur | ⟨hcur, hdef⟩
                · rw [hcur]
                · rw [hcur]; exact mergeVal_default hw.1 hcv hdef
              rw [hmv] at s1
              have hc1 := FSteps_conf hS s1 hst
              have s2 := h2 _ hc1.1 hi
              exact s1.trans s2
    · cases h
end

/-- Merging the encoding of `m2` into a conforming message of the same type is the
abstract merge. -/
theorem merge_encMsg {S : Schema} (hS : S.wf = true) {m1 m2 : DynMsg} (h1 : confMsg S m1 = true)
    (h2 : confMsg S m2 = true) (hd : m1.desc = m2.desc) (hdep : depthMsg m2 ≤ recursionLimit)
    {b : Bytes} (hb : encMsg S m2 = some b) (hl : b.length < 2 ^ 64) :
    merge S m1 b = .ok (mergeMsg S m1 m2) ∧ confMsg S (mergeMsg S m1 m2) = true := by
  have h2' := h2
  simp only [confMsg, Bool.and_eq_true] at h2'
  unfold encMsg at hb
  split at hb
  · cases hb
  · rename_i x y hxy
    cases hb
    obtain ⟨e1, e2⟩ := encSlots_merge hS m2.fields m2.desc x y recursionLimit h2'.2 hxy hl hdep
    have s1 := e1 m1 h1 hd
    have c1 := FSteps_conf hS s1 h1
    have s2 := e2 _ c1.1 rfl
    have s := s1.trans s2
    have c2 := FSteps_conf hS s h1
    unfold merge
    rw [mergeAll_of_fsteps s]
    unfold mergeMsg
    rw [hd]
    exact ⟨rfl, c2.1⟩

end Verif.Dyn
