import Verif.Wire.Unknown
import Verif.Wire.Loops
/-! Helper lemmas about unknown fields. -/
set_option autoImplicit false
namespace Verif.Wire

/-- Field numbers prost can put in a key. -/
def ValidNumber (n : Nat) : Prop := 0 < n ∧ n < 2 ^ 29

instance (n : Nat) : Decidable (ValidNumber n) := by unfold ValidNumber; infer_instance

mutual
/-- Group nesting depth. -/
def UVal.depth : UVal → Nat
  | .group fs => 1 + USet.depth fs
  | _ => 0
def USet.depth : List (Nat × UVal) → Nat
  | [] => 0
  | (_, v) :: r => max v.depth (USet.depth r)
end

mutual
/-- Well-formed unknown values: valid field numbers inside groups and payloads
whose length is a `u64`. -/
def UVal.Wf : UVal → Prop
  | .group fs => USet.Wf fs
  | .len b => b.length < 2 ^ 64
  | _ => True
def USet.Wf : List (Nat × UVal) → Prop
  | [] => True
  | (n, v) :: r => ValidNumber n ∧ v.Wf ∧ USet.Wf r
end

theorem USet.wf_iff (fs : USet) : USet.Wf fs ↔ ∀ p ∈ fs, ValidNumber p.1 ∧ p.2.Wf := by
  induction fs with
  | nil => simp [USet.Wf]
  | cons p r ih => obtain ⟨n, v⟩ := p; simp [USet.Wf, ih, and_assoc]

theorem USet.wf_append {a b : USet} : USet.Wf (a ++ b) ↔ USet.Wf a ∧ USet.Wf b := by
  simp only [USet.wf_iff, List.mem_append]
  constructor
  · intro h; exact ⟨fun p hp => h p (.inl hp), fun p hp => h p (.inr hp)⟩
  · rintro ⟨h1, h2⟩ p (hp | hp)
    · exact h1 p hp
    · exact h2 p hp

/-- What follows the key. -/
def uPayload (n : Nat) : UVal → Bytes
  | .varint v => encodeVarint v.toNat
  | .sixtyFour v => putLE 8 v.toNat
  | .len b => encodeVarint b.length ++ b
  | .group fs => encUSet fs ++ encodeKey n .endGroup
  | .thirtyTwo v => putLE 4 v.toNat

theorem encUVal_eq (n : Nat) (v : UVal) : encUVal n v = encodeKey n v.wireType ++ uPayload n v := by
  cases v <;> simp [encUVal, uPayload, UVal.wireType]

theorem UVal.wireType_ne_end (v : UVal) : v.wireType ≠ .endGroup := by
  cases v <;> simp [UVal.wireType]

theorem encUSet_append (a b : USet) : encUSet (a ++ b) = encUSet a ++ encUSet b := by
  induction a with
  | nil => simp [encUSet]
  | cons p r ih => obtain ⟨n, v⟩ := p; simp [encUSet, ih]

theorem decUValWith_payload (nested : Option (FieldFn USet)) (n : Nat) (v : UVal) (t : Bytes)
    (hw : v.Wf) (hg : ∀ fs, v = .group fs →
      groupMerge nested n .startGroup [] (encUSet fs ++ (encodeKey n .endGroup ++ t)) = .ok (fs, t)) :
    decUValWith nested n v.wireType (uPayload n v ++ t) = .ok (v, t) := by
  cases v with
  | varint v =>
    simp only [UVal.wireType, uPayload, decUValWith]
    rw [decode_encode_varint v.isLt]; simp
  | sixtyFour v =>
    simp only [UVal.wireType, uPayload, decUValWith]
    rw [getLE_putLE (by have := v.isLt; simpa using this)]; simp
  | thirtyTwo v =>
    simp only [UVal.wireType, uPayload, decUValWith]
    rw [getLE_putLE (by have := v.isLt; simpa using this)]; simp
  | len b =>
    simp only [UVal.wireType, uPayload, decUValWith]
    rw [List.append_assoc, getLenDelim_encode (by simpa [UVal.Wf] using hw)]
  | group fs =>
    simp only [UVal.wireType, uPayload, decUValWith]
    rw [List.append_assoc, hg fs rfl]

theorem decUVal_eq (d : Nat) : decUVal d = decUValWith (match d with
    | 0 => none
    | d + 1 => some (pushUnknown (decUVal d))) := by
  cases d <;> rfl

mutual
theorem decUVal_payload : (v : UVal) → (d n : Nat) → (t : Bytes) → v.depth ≤ d → v.Wf →
    ValidNumber n → decUVal d n v.wireType (uPayload n v ++ t) = .ok (v, t)
  | .varint _, d, n, t, _, hw, _ => by
    rw [decUVal_eq]; exact decUValWith_payload _ _ _ _ hw (by intro _ h; cases h)
  | .sixtyFour _, d, n, t, _, hw, _ => by
    rw [decUVal_eq]; exact decUValWith_payload _ _ _ _ hw (by intro _ h; cases h)
  | .thirtyTwo _, d, n, t, _, hw, _ => by
    rw [decUVal_eq]; exact decUValWith_payload _ _ _ _ hw (by intro _ h; cases h)
  | .len _, d, n, t, _, hw, _ => by
    rw [decUVal_eq]; exact decUValWith_payload _ _ _ _ hw (by intro _ h; cases h)
  | .group fs, d, n, t, hd, hw, hn => by
    simp only [UVal.depth] at hd
    cases d with
    | zero => omega
    | succ d =>
      rw [decUVal_eq]
      refine decUValWith_payload _ _ _ _ hw ?_
      intro fs' h
      cases h
      simp only [UVal.Wf] at hw
      exact groupMerge_of_fsteps (decUSet_steps fs d [] (by omega) hw) hn.1 hn.2 t
theorem decUSet_steps : (fs : List (Nat × UVal)) → (d : Nat) → (st : USet) → USet.depth fs ≤ d →
    USet.Wf fs → FSteps (pushUnknown (decUVal d)) st (encUSet fs) (st ++ fs)
  | [], d, st, _, _ => by
    simp only [encUSet, List.append_nil]; exact FSteps.nil _
  | (n, v) :: r, d, st, hd, hw => by
    simp only [USet.depth] at hd
    simp only [USet.Wf] at hw
    simp only [encUSet, encUVal_eq]
    refine FSteps.cons (st1 := st ++ [(n, v)]) hw.1.1 hw.1.2 v.wireType_ne_end ?_ ?_
    · intro t
      unfold pushUnknown
      rw [decUVal_payload v d n t (by omega) hw.2.1 hw.1]
    · have := decUSet_steps r d (st ++ [(n, v)]) (by omega) hw.2.2
      simpa using this
end

mutual
theorem lenUVal_eq : (v : UVal) → (n : Nat) → n < 2 ^ 29 → v.Wf → lenUVal n v = (encUVal n v).length
  | .varint v, n, hn, _ => by
    simp only [lenUVal, encUVal, List.length_append, ← keyLen_eq hn, encodedLenVarint_eq v.isLt]
  | .sixtyFour v, n, hn, _ => by
    simp only [lenUVal, encUVal, List.length_append, ← keyLen_eq hn, putLE_length]
  | .thirtyTwo v, n, hn, _ => by
    simp only [lenUVal, encUVal, List.length_append, ← keyLen_eq hn, putLE_length]
  | .len b, n, hn, hw => by
    simp only [UVal.Wf] at hw
    simp only [lenUVal, encUVal, List.length_append, ← keyLen_eq hn, encodedLenVarint_eq hw]
    omega
  | .group fs, n, hn, hw => by
    simp only [UVal.Wf] at hw
    simp only [lenUVal, encUVal, List.length_append, ← keyLen_eq hn, lenUSet_eq fs hw]
    omega
theorem lenUSet_eq : (fs : List (Nat × UVal)) → USet.Wf fs → lenUSet fs = (encUSet fs).length
  | [], _ => rfl
  | (n, v) :: r, hw => by
    simp only [USet.Wf] at hw
    simp only [lenUSet, encUSet, List.length_append, lenUVal_eq v n hw.1.2 hw.2.1,
      lenUSet_eq r hw.2.2]
end

/-! ### Decoder properties -/

theorem fgood_pushUnknown {dec : Nat → WireType → Bytes → R (UVal × Bytes)}
    (h : ∀ n w, Good (dec n w)) : FGood (pushUnknown dec) := by
  intro st n w b v r he
  unfold pushUnknown at he
  split at he
  · cases he
  · rename_i v' b' hd
    cases he
    obtain ⟨c, hc, ht⟩ := h n w _ _ _ hd
    refine ⟨c, hc, fun t => ?_⟩
    unfold pushUnknown
    rw [ht]

theorem good_decUValWith {nested : Option (FieldFn USet)} (hn : ∀ f, nested = some f → FGood f)
    (n : Nat) (w : WireType) : Good (decUValWith nested n w) := by
  intro b v r h
  cases w <;> simp only [decUValWith] at h
  case endGroup => cases h
  all_goals
    split at h
    · cases h
    · rename_i hd
      cases h
      first
      | obtain ⟨c, hc, ht⟩ := good_decodeVarint _ _ _ hd
        exact ⟨c, hc, fun t => by simp only [decUValWith]; rw [ht]⟩
      | obtain ⟨c, hc, ht⟩ := good_getLE _ _ _ _ hd
        exact ⟨c, hc, fun t => by simp only [decUValWith]; rw [ht]⟩
      | obtain ⟨c, hc, ht⟩ := good_getLenDelim _ _ _ hd
        exact ⟨c, hc, fun t => by simp only [decUValWith]; rw [ht]⟩
      | obtain ⟨c, hc, ht⟩ := groupMerge_good hn _ _ _ _ _ _ hd
        exact ⟨c, hc, fun t => by simp only [decUValWith]; rw [ht]⟩

theorem good_decUVal (d : Nat) : ∀ n w, Good (decUVal d n w) := by
  induction d with
  | zero => intro n w; exact good_decUValWith (by intro f h; cases h) n w
  | succ d ih =>
    intro n w
    exact good_decUValWith (by intro f h; cases h; exact fgood_pushUnknown ih) n w

theorem fnoFuel_pushUnknown {dec : Nat → WireType → Bytes → R (UVal × Bytes)}
    (h : ∀ n w, NoFuel (dec n w)) : FNoFuel (pushUnknown dec) := by
  intro st n w b he
  unfold pushUnknown at he
  split at he
  · rename_i e hd; cases he; exact h _ _ _ hd
  · cases he

theorem noFuel_decUValWith {nested : Option (FieldFn USet)} (hg : ∀ f, nested = some f → FGood f)
    (hn : ∀ f, nested = some f → FNoFuel f) (n : Nat) (w : WireType) :
    NoFuel (decUValWith nested n w) := by
  intro b h
  cases w <;> simp only [decUValWith] at h
  case endGroup => cases h
  all_goals
    split at h
    · rename_i e hd
      cases h
      first
      | exact noFuel_decodeVarint _ hd
      | exact noFuel_getLE _ _ hd
      | exact noFuel_getLenDelim _ hd
      | exact groupMerge_noFuel hg hn _ _ _ _ hd
    · cases h

theorem noFuel_decUVal (d : Nat) : ∀ n w, NoFuel (decUVal d n w) := by
  induction d with
  | zero =>
    intro n w
    exact noFuel_decUValWith (by intro f h; cases h) (by intro f h; cases h) n w
  | succ d ih =>
    intro n w
    exact noFuel_decUValWith (by intro f h; cases h; exact fgood_pushUnknown (good_decUVal d))
      (by intro f h; cases h; exact fnoFuel_pushUnknown ih) n w

theorem groupMerge_inv {σ : Type} {f : Option (FieldFn σ)} {I : σ → Prop}
    (hI : ∀ g, f = some g → ∀ st n w b st' b', 0 < n → n < 2 ^ 29 → I st →
      g st n w b = .ok (st', b') → I st') {tag : Nat} {w : WireType} {st : σ} {b : Bytes} {st' : σ}
    {b' : Bytes} (hi : I st) (h : groupMerge f tag w st b = .ok (st', b')) : I st' := by
  unfold groupMerge at h
  split at h
  · cases h
  · cases hf : f with
    | none => rw [hf] at h; cases h
    | some g =>
      rw [hf] at h
      exact groupLoop_inv (hI g hf) _ _ _ _ _ _ hi h

theorem messageMerge_inv {σ : Type} {f : Option (FieldFn σ)} {I : σ → Prop}
    (hI : ∀ g, f = some g → ∀ st n w b st' b', 0 < n → n < 2 ^ 29 → I st →
      g st n w b = .ok (st', b') → I st') {w : WireType} {st : σ} {b : Bytes} {st' : σ}
    {b' : Bytes} (hi : I st) (h : messageMerge f w st b = .ok (st', b')) : I st' := by
  unfold messageMerge at h
  split at h
  · cases h
  · cases hf : f with
    | none => rw [hf] at h; cases h
    | some g =>
      rw [hf] at h
      exact mergeLoop_inv (fun st b st' b' => keyThen_inv (hI g hf) (st := st) (b := b) (st' := st') (b' := b')) hi h

theorem USet.depth_append (a b : USet) : USet.depth (a ++ b) = max (USet.depth a) (USet.depth b) := by
  induction a with
  | nil => simp [USet.depth]
  | cons p r ih => obtain ⟨n, v⟩ := p; simp [USet.depth, ih, Nat.max_assoc]

theorem getLenDelim_lt {b c r : Bytes} (h : getLenDelim b = .ok (c, r)) : c.length < 2 ^ 64 := by
  unfold getLenDelim at h
  split at h
  · cases h
  · rename_i len rest hv
    split at h
    · cases h
    · cases h
      have := decodeVarint_lt hv
      simp; omega

/-- Everything decoded as an unknown value is well-formed, has the wire type it was
announced with and is nested no deeper than the recursion counter allowed. -/
theorem decUVal_ok (d : Nat) : ∀ (n : Nat) (w : WireType) (b : Bytes) (v : UVal) (r : Bytes),
    decUVal d n w b = .ok (v, r) → v.Wf ∧ v.depth ≤ d ∧ v.wireType = w := by
  induction d with
  | zero =>
    intro n w b v r h
    rw [decUVal_eq] at h
    cases w <;> simp only [decUValWith] at h
    case endGroup => cases h
    all_goals
      split at h
      · cases h
      · rename_i hd
        cases h
        first
        | exact ⟨trivial, Nat.le_refl _, rfl⟩
        | exact ⟨getLenDelim_lt hd, Nat.le_refl _, rfl⟩
        | simp [groupMerge] at hd
  | succ d ih =>
    intro n w b v r h
    rw [decUVal_eq] at h
    cases w <;> simp only [decUValWith] at h
    case endGroup => cases h
    case startGroup =>
      split at h
      · cases h
      · rename_i fs r' hd
        cases h
        have := groupMerge_inv (I := fun fs => USet.Wf fs ∧ USet.depth fs ≤ d) (by
          intro g hg st n w b st' b' hn hn' hi hs
          cases hg
          unfold pushUnknown at hs
          split at hs
          · cases hs
          · rename_i v' b'' hdd
            cases hs
            obtain ⟨h1, h2, -⟩ := ih _ _ _ _ _ hdd
            refine ⟨USet.wf_append.2 ⟨hi.1, ⟨hn, hn'⟩, h1, trivial⟩, ?_⟩
            rw [USet.depth_append]
            have := hi.2
            simp only [USet.depth]
            omega) (by simp [USet.Wf, USet.depth]) hd
        refine ⟨this.1, ?_, rfl⟩
        simp only [UVal.depth]; omega
    all_goals
      split at h
      · cases h
      · rename_i hd
        cases h
        first
        | exact ⟨trivial, Nat.zero_le _, rfl⟩
        | exact ⟨getLenDelim_lt hd, Nat.zero_le _, rfl⟩

theorem getLE_safe (k : Nat) (b : Bytes) : Safe (getLE k b) := by
  intro e h
  unfold getLE at h
  split at h
  · cases h; rfl
  · cases h

theorem getLenDelim_safe (b : Bytes) : Safe (getLenDelim b) := by
  intro e h
  unfold getLenDelim at h
  split at h
  · rename_i he; cases h; exact decodeVarint_safe _ _ he
  · split at h
    · cases h; rfl
    · cases h

theorem groupMerge_safe {σ : Type} {f : Option (FieldFn σ)} {I : σ → Prop}
    (hI : ∀ g, f = some g → ∀ st n w b st' b', 0 < n → n < 2 ^ 29 → I st →
      g st n w b = .ok (st', b') → I st')
    (hE : ∀ g, f = some g → ∀ st n w b, 0 < n → n < 2 ^ 29 → I st → Safe (g st n w b))
    {tag : Nat} {w : WireType} {st : σ} {b : Bytes} (hi : I st) :
    Safe (groupMerge f tag w st b) := by
  intro e h
  unfold groupMerge at h
  split at h
  · cases h; rfl
  · cases hf : f with
    | none => rw [hf] at h; cases h; rfl
    | some g =>
      rw [hf] at h
      exact groupLoop_safe (hI g hf) (hE g hf) _ _ _ _ hi _ h

theorem messageMerge_safe {σ : Type} {f : Option (FieldFn σ)} {I : σ → Prop}
    (hI : ∀ g, f = some g → ∀ st n w b st' b', 0 < n → n < 2 ^ 29 → I st →
      g st n w b = .ok (st', b') → I st')
    (hE : ∀ g, f = some g → ∀ st n w b, 0 < n → n < 2 ^ 29 → I st → Safe (g st n w b))
    {w : WireType} {st : σ} {b : Bytes} (hi : I st) :
    Safe (messageMerge f w st b) := by
  intro e h
  unfold messageMerge at h
  split at h
  · cases h; rfl
  · cases hf : f with
    | none => rw [hf] at h; cases h; rfl
    | some g =>
      rw [hf] at h
      exact mergeLoop_safe
        (fun st b st' b' => keyThen_inv (hI g hf) (st := st) (b := b) (st' := st') (b' := b'))
        (fun st b => keyThen_safe (hE g hf) (st := st) (b := b)) hi _ _ h

theorem decUVal_safe (d : Nat) : ∀ n w b, Safe (decUVal d n w b) := by
  induction d with
  | zero =>
    intro n w b e h
    rw [decUVal_eq] at h
    cases w <;> simp only [decUValWith] at h
    case endGroup => cases h; rfl
    all_goals
      split at h
      · rename_i hd
        cases h
        first
        | exact decodeVarint_safe _ _ hd
        | exact getLE_safe _ _ _ hd
        | exact getLenDelim_safe _ _ hd
        | (simp [groupMerge] at hd; subst hd; rfl)
      · cases h
  | succ d ih =>
    intro n w b e h
    rw [decUVal_eq] at h
    cases w <;> simp only [decUValWith] at h
    case endGroup => cases h; rfl
    all_goals
      split at h
      · rename_i hd
        cases h
        first
        | exact decodeVarint_safe _ _ hd
        | exact getLE_safe _ _ _ hd
        | exact getLenDelim_safe _ _ hd
        | refine groupMerge_safe (I := fun _ => True) ?_ ?_ trivial _ hd
          · intros; trivial
          · intro g hg st n w b _ _ _ e hs
            cases hg
            unfold pushUnknown at hs
            split at hs
            · rename_i he; cases hs; exact ih _ _ _ _ he
            · cases hs
      · cases h

/-! ### skip_field -/

theorem skipField_safe (d : Nat) : ∀ w n b, Safe (skipField d w n b) := by
  induction d with
  | zero => intro w n b e h; simp [skipField] at h; subst h; rfl
  | succ d ih =>
    intro w n b e h
    cases w <;> simp only [skipField] at h
    case endGroup => cases h; rfl
    case thirtyTwoBit => split at h <;> cases h; rfl
    case sixtyFourBit => split at h <;> cases h; rfl
    case varint =>
      split at h
      · rename_i hd; cases h; exact decodeVarint_safe _ _ hd
      · cases h
    case lengthDelimited =>
      split at h
      · rename_i hd; cases h; exact decodeVarint_safe _ _ hd
      · split at h <;> cases h; rfl
    case startGroup =>
      split at h
      · rename_i hd; cases h
        refine groupLoop_safe (I := fun _ => True) ?_ ?_ _ _ _ _ trivial _ hd
        · intros; trivial
        · intro st n w b _ _ _ e hs
          split at hs
          · rename_i he; cases hs; exact ih _ _ _ _ he
          · cases hs
      · cases h

/-- `skipField` as a parser. -/
def skipP (d : Nat) (w : WireType) (n : Nat) (b : Bytes) : R (Unit × Bytes) :=
  match skipField d w n b with
  | .error e => .error e
  | .ok r => .ok ((), r)

theorem good_skipP (d : Nat) : ∀ w n, Good (skipP d w n) := by
  induction d with
  | zero => intro w n b v r h; simp [skipP, skipField] at h
  | succ d ih =>
    intro w n b v r h
    have hsk : skipField (d + 1) w n b = .ok r := by
      unfold skipP at h
      split at h
      · cases h
      · rename_i he; cases h; exact he
    have key : ∀ c, b = c ++ r → (∀ t, skipField (d + 1) w n (c ++ t) = .ok t) →
        ∃ c, b = c ++ r ∧ ∀ t, skipP (d + 1) w n (c ++ t) = .ok (v, t) :=
      fun c hc ht => ⟨c, hc, fun t => by simp [skipP, ht t]⟩
    cases w <;> simp only [skipField] at hsk
    case endGroup => cases hsk
    case thirtyTwoBit =>
      split at hsk
      · cases hsk
      · rename_i hl
        cases hsk
        refine key (b.take 4) (by simp) fun t => ?_
        have : (b.take 4).length = 4 := by simp; omega
        simp only [skipField]
        rw [if_neg (by simp; omega), List.drop_left' this]
    case sixtyFourBit =>
      split at hsk
      · cases hsk
      · rename_i hl
        cases hsk
        refine key (b.take 8) (by simp) fun t => ?_
        have : (b.take 8).length = 8 := by simp; omega
        simp only [skipField]
        rw [if_neg (by simp; omega), List.drop_left' this]
    case varint =>
      split at hsk
      · cases hsk
      · rename_i hd; cases hsk
        obtain ⟨c, hc, ht⟩ := good_decodeVarint _ _ _ hd
        exact key c hc fun t => by simp only [skipField, ht t]
    case lengthDelimited =>
      split at hsk
      · cases hsk
      · rename_i len rest hd
        split at hsk
        · cases hsk
        · rename_i hl
          cases hsk
          obtain ⟨c, hc, ht⟩ := good_decodeVarint _ _ _ hd
          refine key (c ++ rest.take len) (by rw [hc]; simp) fun t => ?_
          simp only [skipField, List.append_assoc, ht]
          have : (rest.take len).length = len := by simp; omega
          rw [if_neg (by rw [List.length_append, this]; omega), List.drop_left' this]
    case startGroup =>
      split at hsk
      · cases hsk
      · rename_i u rest hd
        cases hsk
        have hf : FGood (fun (_ : Unit) n w b =>
          match skipField d w n b with
          | .error e => .error e
          | .ok b' => .ok ((), b')) := fun st n w => ih w n
        obtain ⟨c, hc, ht⟩ := groupLoop_good hf n () _ _ _ hd
        exact key c hc fun t => by
          exact congrArg (fun x : R (Unit × Bytes) => match x with
            | .error e => (.error e : R Bytes)
            | .ok (_, rest) => .ok rest) (ht t)

theorem noFuel_skipP (d : Nat) : ∀ w n, NoFuel (skipP d w n) := by
  induction d with
  | zero => intro w n b h; simp [skipP, skipField] at h
  | succ d ih =>
    intro w n b h
    have hsk : skipField (d + 1) w n b = .error .fuel := by
      unfold skipP at h
      split at h
      · rename_i he; cases h; exact he
      · cases h
    cases w <;> simp only [skipField] at hsk
    case endGroup => cases hsk
    case thirtyTwoBit => split at hsk <;> cases hsk
    case sixtyFourBit => split at hsk <;> cases hsk
    case varint =>
      split at hsk
      · rename_i hd; cases hsk; exact noFuel_decodeVarint _ hd
      · cases hsk
    case lengthDelimited =>
      split at hsk
      · rename_i hd; cases hsk; exact noFuel_decodeVarint _ hd
      · split at hsk <;> cases hsk
    case startGroup =>
      split at hsk
      · rename_i hd; cases hsk
        have hf : FGood (fun (_ : Unit) n w b =>
          match skipField d w n b with
          | .error e => .error e
          | .ok b' => .ok ((), b')) := fun st n w => good_skipP d w n
        have hn : FNoFuel (fun (_ : Unit) n w b =>
          match skipField d w n b with
          | .error e => .error e
          | .ok b' => .ok ((), b')) := fun st n w => ih w n
        exact groupLoop_noFuel hn hf n _ _ _ (by omega) hd
      · cases hsk

end Verif.Wire
