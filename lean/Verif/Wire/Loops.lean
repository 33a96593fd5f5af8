import Verif.Wire.Lemmas
/-! Helper lemmas about the decoding loops. -/
set_option autoImplicit false
namespace Verif.Wire

variable {σ : Type}

/-! ### Forward direction: a run described chunk by chunk -/

/-- The body, applied repeatedly, consumes exactly `c` and takes `st` to `st'`. -/
inductive Steps (body : σ → Bytes → R (σ × Bytes)) : σ → Bytes → σ → Prop
  | nil (st : σ) : Steps body st [] st
  | cons {st st1 st2 : σ} {c c' : Bytes} (hne : c ≠ [])
      (h : ∀ t, body st (c ++ t) = .ok (st1, t)) (hs : Steps body st1 c' st2) :
      Steps body st (c ++ c') st2

theorem Steps.single {body : σ → Bytes → R (σ × Bytes)} {st st' : σ} {c : Bytes}
    (hne : c ≠ []) (h : ∀ t, body st (c ++ t) = .ok (st', t)) : Steps body st c st' := by
  have := Steps.cons hne h (Steps.nil st')
  simpa using this

theorem Steps.trans {body : σ → Bytes → R (σ × Bytes)} {a b d : σ} {c c' : Bytes}
    (h1 : Steps body a c b) (h2 : Steps body b c' d) : Steps body a (c ++ c') d := by
  induction h1 with
  | nil st => simpa using h2
  | cons hne h hs ih =>
    rw [List.append_assoc]
    exact Steps.cons hne h (ih h2)

theorem loopTo_of_steps {body : σ → Bytes → R (σ × Bytes)} {st st' : σ} {c : Bytes}
    (h : Steps body st c st') : ∀ (t : Bytes) (f : Nat), c.length < f →
      loopTo t.length body f st (c ++ t) = .ok (st', t) := by
  induction h with
  | nil st =>
    intro t f hf
    cases f with
    | zero => omega
    | succ f => simp [loopTo]
  | @cons st st1 st2 c c' hne h hs ih =>
    intro t f hf
    cases f with
    | zero => omega
    | succ f =>
      have hc : 0 < c.length := List.length_pos_iff.2 hne
      simp only [List.length_append] at hf
      unfold loopTo
      rw [if_neg (by simp; omega), List.append_assoc, h]
      exact ih t f (by omega)

theorem mergeLoop_of_steps {body : σ → Bytes → R (σ × Bytes)} {st st' : σ} {c : Bytes}
    (h : Steps body st c st') (hl : c.length < 2 ^ 64) (t : Bytes) :
    mergeLoop body st (encodeVarint c.length ++ (c ++ t)) = .ok (st', t) := by
  unfold mergeLoop
  rw [decode_encode_varint hl]
  have h1 : (c ++ t).length - c.length = t.length := by simp
  simp only [h1]
  rw [if_neg (by simp), loopTo_of_steps h t _ (by simp; omega)]
  simp

/-- A run of a field function over key/payload chunks, none of which is an end-group key. -/
inductive FSteps (f : FieldFn σ) : σ → Bytes → σ → Prop
  | nil (st : σ) : FSteps f st [] st
  | cons {st st1 st2 : σ} {n : Nat} {w : WireType} {c c' : Bytes}
      (hn : 0 < n) (hn' : n < 2 ^ 29) (hw : w ≠ .endGroup)
      (h : ∀ t, f st n w (c ++ t) = .ok (st1, t)) (hs : FSteps f st1 c' st2) :
      FSteps f st (encodeKey n w ++ c ++ c') st2

theorem FSteps.single {f : FieldFn σ} {st st1 : σ} {n : Nat} {w : WireType} {c : Bytes}
    (hn : 0 < n) (hn' : n < 2 ^ 29) (hw : w ≠ .endGroup)
    (h : ∀ t, f st n w (c ++ t) = .ok (st1, t)) : FSteps f st (encodeKey n w ++ c) st1 := by
  have := FSteps.cons hn hn' hw h (FSteps.nil st1)
  simpa using this

theorem FSteps.trans {f : FieldFn σ} {a b d : σ} {c c' : Bytes}
    (h1 : FSteps f a c b) (h2 : FSteps f b c' d) : FSteps f a (c ++ c') d := by
  induction h1 with
  | nil st => simpa using h2
  | cons hn hn' hw h hs ih =>
    rw [List.append_assoc]
    exact FSteps.cons hn hn' hw h (ih h2)

theorem FSteps.toSteps {f : FieldFn σ} {a b : σ} {c : Bytes} (h : FSteps f a c b) :
    Steps (keyThen f) a c b := by
  induction h with
  | nil st => exact Steps.nil st
  | @cons st st1 st2 n w c c' hn hn' hw h hs ih =>
    refine Steps.cons ?_ ?_ ih
    · simp [encodeKey_ne_nil]
    · intro t
      unfold keyThen
      rw [List.append_assoc, decode_encode_key hn hn']
      exact h t

theorem mergeAll_of_fsteps {f : FieldFn σ} {a b : σ} {c : Bytes} (h : FSteps f a c b) :
    mergeAll f a c = .ok (b, []) := by
  unfold mergeAll
  have := loopTo_of_steps h.toSteps [] (c.length + 1) (by omega)
  simpa using this

theorem messageMerge_of_fsteps {f : FieldFn σ} {a b : σ} {c : Bytes} (h : FSteps f a c b)
    (hl : c.length < 2 ^ 64) (t : Bytes) :
    messageMerge (some f) .lengthDelimited a (encodeVarint c.length ++ (c ++ t)) = .ok (b, t) := by
  unfold messageMerge
  simp only [ne_eq, not_true_eq_false, if_false]
  exact mergeLoop_of_steps h.toSteps hl t

theorem groupLoop_of_fsteps {f : FieldFn σ} {a b : σ} {c : Bytes} (h : FSteps f a c b) {tag : Nat}
    (ht : 0 < tag) (ht' : tag < 2 ^ 29) : ∀ (t : Bytes) (k : Nat), c.length < k →
    groupLoop tag f k a (c ++ (encodeKey tag .endGroup ++ t)) = .ok (b, t) := by
  induction h with
  | nil st =>
    intro t k hk
    cases k with
    | zero => omega
    | succ k =>
      unfold groupLoop
      rw [List.nil_append, decode_encode_key ht ht']
      simp
  | @cons st st1 st2 n w c c' hn hn' hw h hs ih =>
    intro t k hk
    cases k with
    | zero => omega
    | succ k =>
      have hkp : 0 < (encodeKey n w).length := List.length_pos_iff.2 (encodeKey_ne_nil n w)
      simp only [List.length_append] at hk
      unfold groupLoop
      simp only [List.append_assoc]
      rw [decode_encode_key hn hn']
      simp only
      rw [if_neg hw, h]
      exact ih t k (by omega)

theorem groupMerge_of_fsteps {f : FieldFn σ} {a b : σ} {c : Bytes} (h : FSteps f a c b) {tag : Nat}
    (ht : 0 < tag) (ht' : tag < 2 ^ 29) (t : Bytes) :
    groupMerge (some f) tag .startGroup a (c ++ (encodeKey tag .endGroup ++ t)) = .ok (b, t) := by
  unfold groupMerge
  simp only [ne_eq, not_true_eq_false, if_false]
  exact groupLoop_of_fsteps h ht ht' t _ (by simp; omega)

/-! ### Backward direction: locality, progress, fuel, invariants -/

theorem loopTo_good {body : σ → Bytes → R (σ × Bytes)} (hg : ∀ st, Good (body st))
    (hs : ∀ st, Strict (body st)) : ∀ (f : Nat) (st st' : σ) (b r : Bytes),
    loopTo r.length body f st b = .ok (st', r) → ∃ c, b = c ++ r ∧ Steps body st c st' := by
  intro f
  induction f with
  | zero => intro st st' b r h; simp [loopTo] at h
  | succ f ih =>
    intro st st' b r h
    unfold loopTo at h
    split at h
    · cases h
      exact ⟨[], rfl, Steps.nil _⟩
    · split at h
      · cases h
      · rename_i st1 b1 hb
        obtain ⟨c, hc, hstep⟩ := ih _ _ _ _ h
        obtain ⟨c0, hc0, hg0⟩ := hg st _ _ _ hb
        refine ⟨c0 ++ c, by rw [hc0, hc, List.append_assoc], Steps.cons ?_ hg0 hstep⟩
        rintro rfl
        have := hs st _ _ _ hb
        rw [hc0] at this
        simp at this

theorem mergeLoop_good {body : σ → Bytes → R (σ × Bytes)} (hg : ∀ st, Good (body st))
    (hs : ∀ st, Strict (body st)) (st : σ) : Good (mergeLoop body st) := by
  intro b v r h
  unfold mergeLoop at h
  split at h
  · cases h
  · rename_i len rest hv
    split at h
    · cases h
    · rename_i hl
      split at h
      · cases h
      · rename_i st' b' hloop
        split at h
        · cases h
        · rename_i hlen
          cases h
          have hlen' : rest.length - len = r.length := by omega
          rw [hlen'] at hloop
          obtain ⟨c, hc, hst⟩ := loopTo_good hg hs _ _ _ _ _ hloop
          obtain ⟨c0, hc0, hg0⟩ := good_decodeVarint _ _ _ hv
          refine ⟨c0 ++ c, by rw [hc0, hc, List.append_assoc], fun t => ?_⟩
          unfold mergeLoop
          rw [List.append_assoc, hg0]
          have hcl : c.length = len := by
            have := congrArg List.length hc
            simp at this; omega
          have h1 : (c ++ t).length - len = t.length := by simp; omega
          simp only [h1]
          rw [if_neg (by simp; omega), loopTo_of_steps hst t _ (by simp; omega)]
          simp

theorem mergeLoop_strict {body : σ → Bytes → R (σ × Bytes)} (_hg : ∀ st, Good (body st))
    (_hs : ∀ st, Strict (body st)) (st : σ) : Strict (mergeLoop body st) := by
  intro b v r h
  unfold mergeLoop at h
  split at h
  · cases h
  · rename_i len rest hv
    have := strict_decodeVarint _ _ _ hv
    split at h
    · cases h
    · split at h
      · cases h
      · split at h
        · cases h
        · cases h; omega

theorem loopTo_noFuel {body : σ → Bytes → R (σ × Bytes)} (hn : ∀ st, NoFuel (body st))
    (hs : ∀ st, Strict (body st)) (limit : Nat) : ∀ (f : Nat) (st : σ) (b : Bytes),
    b.length < f → loopTo limit body f st b ≠ .error .fuel := by
  intro f
  induction f with
  | zero => intro st b h; omega
  | succ f ih =>
    intro st b hb h
    unfold loopTo at h
    split at h
    · cases h
    · split at h
      · rename_i e he; cases h; exact hn _ _ he
      · rename_i st1 b1 he
        have := hs _ _ _ _ he
        exact ih st1 b1 (by omega) h

theorem mergeLoop_noFuel {body : σ → Bytes → R (σ × Bytes)} (hn : ∀ st, NoFuel (body st))
    (hs : ∀ st, Strict (body st)) (st : σ) : NoFuel (mergeLoop body st) := by
  intro b h
  unfold mergeLoop at h
  split at h
  · rename_i e he; cases h; exact noFuel_decodeVarint _ he
  · split at h
    · cases h
    · split at h
      · rename_i e he; cases h
        exact loopTo_noFuel hn hs _ _ _ _ (by omega) he
      · split at h <;> cases h

/-- All runs of the body preserve `I` and satisfy no-error `E`. -/
theorem loopTo_inv {body : σ → Bytes → R (σ × Bytes)} {I : σ → Prop}
    (hI : ∀ st b st' b', I st → body st b = .ok (st', b') → I st') (limit : Nat) :
    ∀ (f : Nat) (st : σ) (b : Bytes) (st' : σ) (b' : Bytes), I st →
      loopTo limit body f st b = .ok (st', b') → I st' := by
  intro f
  induction f with
  | zero => intro st b st' b' _ h; simp [loopTo] at h
  | succ f ih =>
    intro st b st' b' hi h
    unfold loopTo at h
    split at h
    · cases h; exact hi
    · split at h
      · cases h
      · rename_i st1 b1 he
        exact ih _ _ _ _ (hI _ _ _ _ hi he) h

theorem mergeLoop_inv {body : σ → Bytes → R (σ × Bytes)} {I : σ → Prop}
    (hI : ∀ st b st' b', I st → body st b = .ok (st', b') → I st')
    {st : σ} {b : Bytes} {st' : σ} {b' : Bytes} (hi : I st)
    (h : mergeLoop body st b = .ok (st', b')) : I st' := by
  unfold mergeLoop at h
  split at h
  · cases h
  · split at h
    · cases h
    · split at h
      · cases h
      · rename_i he
        split at h
        · cases h
        · cases h
          exact loopTo_inv hI _ _ _ _ _ _ hi he

/-- An error of the loop is an error of the body or one of the loop's own. -/
theorem decodeVarintAux_err : ∀ (b : Bytes) (k acc : Nat) (e : Err),
    decodeVarintAux k acc b = .error e → e = .invalidVarint := by
  intro b
  induction b with
  | nil => intro k acc e h; simp [decodeVarintAux] at h; exact h.symm
  | cons x r ih =>
    intro k acc e h
    simp only [decodeVarintAux] at h
    split at h
    · split at h
      · cases h; rfl
      · cases h
    · split at h
      · cases h; rfl
      · exact ih _ _ _ h

theorem decodeVarint_err {b : Bytes} {e : Err} (h : decodeVarint b = .error e) :
    e = .invalidVarint := decodeVarintAux_err _ _ _ _ h

/-- Outcomes that are not a decode error of the real code: a panic, or the construct
the model leaves out. -/
def Err.bad : Err → Bool
  | .panic | .unsupported => true
  | _ => false

/-- The result is a value or an ordinary decode error. -/
def Safe {α : Type} (r : R α) : Prop := ∀ e, r = .error e → e.bad = false

theorem decodeVarint_safe (b : Bytes) : Safe (decodeVarint b) := by
  intro e h; rw [decodeVarint_err h]; rfl

theorem decodeKey_safe (b : Bytes) : Safe (decodeKey b) := by
  intro e h
  unfold decodeKey at h
  split at h
  · rename_i e he; cases h; exact decodeVarint_safe _ _ he
  · split at h
    · cases h; rfl
    · split at h
      · cases h; rfl
      · split at h
        · cases h; rfl
        · cases h

theorem loopTo_safe {body : σ → Bytes → R (σ × Bytes)} {I : σ → Prop}
    (hI : ∀ st b st' b', I st → body st b = .ok (st', b') → I st')
    (hE : ∀ st b, I st → Safe (body st b)) (limit : Nat) :
    ∀ (f : Nat) (st : σ) (b : Bytes), I st → Safe (loopTo limit body f st b) := by
  intro f
  induction f with
  | zero => intro st b _ e h; simp [loopTo] at h; subst h; rfl
  | succ f ih =>
    intro st b hi e h
    unfold loopTo at h
    split at h
    · cases h
    · split at h
      · rename_i he; cases h; exact hE _ _ hi _ he
      · rename_i he; exact ih _ _ (hI _ _ _ _ hi he) _ h

theorem mergeLoop_safe {body : σ → Bytes → R (σ × Bytes)} {I : σ → Prop}
    (hI : ∀ st b st' b', I st → body st b = .ok (st', b') → I st')
    (hE : ∀ st b, I st → Safe (body st b)) {st : σ} (hi : I st) (b : Bytes) :
    Safe (mergeLoop body st b) := by
  intro e h
  unfold mergeLoop at h
  split at h
  · rename_i he; cases h; exact decodeVarint_safe _ _ he
  · split at h
    · cases h; rfl
    · split at h
      · rename_i he; cases h
        exact loopTo_safe hI hE _ _ _ _ hi _ he
      · split at h
        · cases h; rfl
        · cases h

/-! #### Group loop -/

/-- Locality of a field function, for every state, number and wire type. -/
def FGood (f : FieldFn σ) : Prop := ∀ st n w, Good (f st n w)
def FNoFuel (f : FieldFn σ) : Prop := ∀ st n w, NoFuel (f st n w)

theorem keyThen_good {f : FieldFn σ} (hf : FGood f) (st : σ) : Good (keyThen f st) := by
  intro b v r h
  unfold keyThen at h
  split at h
  · cases h
  · rename_i n w rest hk
    obtain ⟨c, _, hc, hg, _⟩ := decodeKey_good hk
    obtain ⟨c', hc', hg'⟩ := hf st n w _ _ _ h
    refine ⟨c ++ c', by rw [hc, hc', List.append_assoc], fun t => ?_⟩
    unfold keyThen
    rw [List.append_assoc, hg]
    exact hg' t

theorem keyThen_strict {f : FieldFn σ} (hf : FGood f) (st : σ) : Strict (keyThen f st) := by
  intro b v r h
  unfold keyThen at h
  split at h
  · cases h
  · rename_i n w rest hk
    obtain ⟨c, hne, hc, _, _⟩ := decodeKey_good hk
    have := (hf st n w).le h
    have h2 : 0 < c.length := List.length_pos_iff.2 hne
    rw [hc]; simp; omega

theorem keyThen_noFuel {f : FieldFn σ} (hf : FNoFuel f) (st : σ) : NoFuel (keyThen f st) := by
  intro b h
  unfold keyThen at h
  split at h
  · rename_i e he; cases h; exact noFuel_decodeKey _ he
  · exact hf _ _ _ _ h

/-- A successful group loop, as chunks. -/
inductive GSteps (f : FieldFn σ) (tag : Nat) : σ → Bytes → σ → Prop
  | stop (st : σ) (c : Bytes) (h : ∀ t, decodeKey (c ++ t) = .ok (tag, .endGroup, t)) :
      GSteps f tag st c st
  | cons {st st1 st2 : σ} {n : Nat} {w : WireType} {k c c' : Bytes} (hne : k ≠ [])
      (hk : ∀ t, decodeKey (k ++ t) = .ok (n, w, t)) (hw : w ≠ .endGroup)
      (h : ∀ t, f st n w (c ++ t) = .ok (st1, t)) (hs : GSteps f tag st1 c' st2) :
      GSteps f tag st (k ++ c ++ c') st2

theorem groupLoop_of_gsteps {f : FieldFn σ} {tag : Nat} {st st' : σ} {c : Bytes}
    (h : GSteps f tag st c st') : ∀ (t : Bytes) (k : Nat), c.length < k →
    groupLoop tag f k st (c ++ t) = .ok (st', t) := by
  induction h with
  | stop st c h =>
    intro t k hk
    cases k with
    | zero => omega
    | succ k =>
      unfold groupLoop
      rw [h]; simp
  | @cons st st1 st2 n w kb c c' hne hk hw h hs ih =>
    intro t k hk'
    cases k with
    | zero => omega
    | succ k =>
      have : 0 < kb.length := List.length_pos_iff.2 hne
      simp only [List.length_append] at hk'
      unfold groupLoop
      simp only [List.append_assoc]
      rw [hk]
      simp only
      rw [if_neg hw, h]
      exact ih t k (by omega)

theorem groupLoop_gsteps {f : FieldFn σ} (hf : FGood f) {tag : Nat} : ∀ (k : Nat) (st st' : σ)
    (b r : Bytes), groupLoop tag f k st b = .ok (st', r) →
      ∃ c, b = c ++ r ∧ c ≠ [] ∧ GSteps f tag st c st' := by
  intro k
  induction k with
  | zero => intro st st' b r h; simp [groupLoop] at h
  | succ k ih =>
    intro st st' b r h
    unfold groupLoop at h
    split at h
    · cases h
    · rename_i n w rest hk
      obtain ⟨c, hne, hc, hg, _⟩ := decodeKey_good hk
      split at h
      · rename_i hw
        split at h
        · cases h
        · rename_i ht
          have ht : n = tag := by omega
          cases h
          subst hw ht
          exact ⟨c, hc, hne, GSteps.stop _ _ hg⟩
      · rename_i hw
        split at h
        · cases h
        · rename_i st1 b1 hb
          obtain ⟨c1, hc1, hg1⟩ := hf _ _ _ _ _ _ hb
          obtain ⟨c2, hc2, _, hs2⟩ := ih _ _ _ _ h
          refine ⟨c ++ c1 ++ c2, by rw [hc, hc1, hc2]; simp, by simp [hne],
            GSteps.cons hne hg hw hg1 hs2⟩

theorem groupLoop_good {f : FieldFn σ} (hf : FGood f) (tag : Nat) (st : σ) :
    Good (fun b => groupLoop tag f (b.length + 1) st b) := by
  intro b v r h
  obtain ⟨c, hc, _, hs⟩ := groupLoop_gsteps hf _ _ _ _ _ h
  exact ⟨c, hc, fun t => groupLoop_of_gsteps hs t _ (by simp; omega)⟩

theorem groupLoop_strict {f : FieldFn σ} (hf : FGood f) {tag k : Nat} {st st' : σ} {b r : Bytes}
    (h : groupLoop tag f k st b = .ok (st', r)) : r.length < b.length := by
  obtain ⟨c, hc, hne, _⟩ := groupLoop_gsteps hf _ _ _ _ _ h
  have : 0 < c.length := List.length_pos_iff.2 hne
  rw [hc]; simp; omega

theorem groupLoop_noFuel {f : FieldFn σ} (hn : FNoFuel f) (hg : FGood f) (tag : Nat) :
    ∀ (k : Nat) (st : σ) (b : Bytes), b.length < k → groupLoop tag f k st b ≠ .error .fuel := by
  intro k
  induction k with
  | zero => intro st b h; omega
  | succ k ih =>
    intro st b hb h
    unfold groupLoop at h
    split at h
    · rename_i e he; cases h; exact noFuel_decodeKey _ he
    · rename_i n w rest hk
      obtain ⟨c, hne, hc, _, _⟩ := decodeKey_good hk
      have h2 : 0 < c.length := List.length_pos_iff.2 hne
      split at h
      · split at h <;> cases h
      · split at h
        · rename_i e he; cases h; exact hn _ _ _ _ he
        · rename_i st1 b1 he
          have := (hg _ _ _).le he
          refine ih st1 b1 ?_ h
          rw [hc] at hb; simp at hb; omega

theorem groupLoop_inv {f : FieldFn σ} {I : σ → Prop}
    (hI : ∀ st n w b st' b', 0 < n → n < 2 ^ 29 → I st → f st n w b = .ok (st', b') → I st')
    (tag : Nat) :
    ∀ (k : Nat) (st : σ) (b : Bytes) (st' : σ) (b' : Bytes), I st →
      groupLoop tag f k st b = .ok (st', b') → I st' := by
  intro k
  induction k with
  | zero => intro st b st' b' _ h; simp [groupLoop] at h
  | succ k ih =>
    intro st b st' b' hi h
    unfold groupLoop at h
    split at h
    · cases h
    · rename_i n w rest hk
      obtain ⟨_, _, _, _, hp, hlt⟩ := decodeKey_good hk
      split at h
      · split at h
        · cases h
        · cases h; exact hi
      · split at h
        · cases h
        · rename_i he
          exact ih _ _ _ _ (hI _ _ _ _ _ _ hp hlt hi he) h

theorem groupLoop_safe {f : FieldFn σ} {I : σ → Prop}
    (hI : ∀ st n w b st' b', 0 < n → n < 2 ^ 29 → I st → f st n w b = .ok (st', b') → I st')
    (hE : ∀ st n w b, 0 < n → n < 2 ^ 29 → I st → Safe (f st n w b)) (tag : Nat) :
    ∀ (k : Nat) (st : σ) (b : Bytes), I st → Safe (groupLoop tag f k st b) := by
  intro k
  induction k with
  | zero => intro st b _ e h; simp [groupLoop] at h; subst h; rfl
  | succ k ih =>
    intro st b hi e h
    unfold groupLoop at h
    split at h
    · rename_i he; cases h; exact decodeKey_safe _ _ he
    · rename_i n w rest hk
      obtain ⟨_, _, _, _, hp, hlt⟩ := decodeKey_good hk
      split at h
      · split at h
        · cases h; rfl
        · cases h
      · split at h
        · rename_i he; cases h; exact hE _ _ _ _ hp hlt hi _ he
        · rename_i he
          exact ih _ _ (hI _ _ _ _ _ _ hp hlt hi he) _ h

/-! #### Splitting the top-level loop -/

theorem loopTo_zero_append {body : σ → Bytes → R (σ × Bytes)} (hg : ∀ st, Good (body st))
    (hs : ∀ st, Strict (body st)) : ∀ (f : Nat) (st st1 : σ) (b1 b2 : Bytes),
    loopTo 0 body f st b1 = .ok (st1, []) →
    ∀ f', (b1 ++ b2).length < f' → ∃ f'', b2.length < f'' ∧
      loopTo 0 body f' st (b1 ++ b2) = loopTo 0 body f'' st1 b2 := by
  intro f
  induction f with
  | zero => intro st st1 b1 b2 h; simp [loopTo] at h
  | succ f ih =>
    intro st st1 b1 b2 h f' hf'
    unfold loopTo at h
    split at h
    · cases h
      exact ⟨f', by simpa using hf', rfl⟩
    · rename_i hb1
      split at h
      · cases h
      · rename_i st' b1' hbody
        obtain ⟨c, hc, hg'⟩ := hg _ _ _ _ hbody
        have hlt := hs _ _ _ _ hbody
        cases f' with
        | zero => omega
        | succ f' =>
          simp only [List.length_append] at hf'
          obtain ⟨f'', hf'', he⟩ := ih st' st1 b1' b2 h f' (by simp; omega)
          refine ⟨f'', hf'', ?_⟩
          rw [← he]
          conv => lhs; unfold loopTo
          rw [if_neg (by rw [List.length_append]; omega), hc, List.append_assoc, hg']

theorem loopTo_fuel_irrel {body : σ → Bytes → R (σ × Bytes)} 
    (hs : ∀ st, Strict (body st)) (limit : Nat) : ∀ (f f' : Nat) (st : σ) (b : Bytes),
    b.length < f → b.length < f' → loopTo limit body f st b = loopTo limit body f' st b := by
  intro f
  induction f with
  | zero => intro f' st b h; omega
  | succ f ih =>
    intro f' st b h h'
    cases f' with
    | zero => omega
    | succ f' =>
      unfold loopTo
      split
      · rfl
      · split
        · rfl
        · rename_i he
          have := hs _ _ _ _ he
          exact ih f' _ _ (by omega) (by omega)

theorem mergeAll_append {f : FieldFn σ} (hf : FGood f) {st st1 : σ} {b1 : Bytes}
    (h : mergeAll f st b1 = .ok (st1, [])) (b2 : Bytes) :
    mergeAll f st (b1 ++ b2) = mergeAll f st1 b2 := by
  unfold mergeAll at *
  obtain ⟨f'', hf'', he⟩ := loopTo_zero_append (fun st => keyThen_good hf st)
    (fun st => keyThen_strict hf st) _ _ _ _ b2 h ((b1 ++ b2).length + 1) (by omega)
  rw [he]
  exact loopTo_fuel_irrel (fun st => keyThen_strict hf st) _ _ _ _ _ hf'' (by omega)

/-- The top-level loop only stops at the end of the buffer. -/
theorem loopTo_zero_rest {body : σ → Bytes → R (σ × Bytes)} : ∀ (f : Nat) (st st' : σ) (b r : Bytes),
    loopTo 0 body f st b = .ok (st', r) → r = [] := by
  intro f
  induction f with
  | zero => intro st st' b r h; simp [loopTo] at h
  | succ f ih =>
    intro st st' b r h
    unfold loopTo at h
    split at h
    · rename_i hb
      cases h
      exact List.length_eq_zero_iff.1 (by omega)
    · split at h
      · cases h
      · exact ih _ _ _ _ h

theorem mergeAll_rest {f : FieldFn σ} {st st' : σ} {b r : Bytes}
    (h : mergeAll f st b = .ok (st', r)) : r = [] := loopTo_zero_rest _ _ _ _ _ h

theorem messageMerge_good {f : Option (FieldFn σ)} (hf : ∀ g, f = some g → FGood g) (w : WireType)
    (st : σ) : Good (messageMerge f w st) := by
  intro b v r h
  unfold messageMerge at h
  split at h
  · cases h
  · rename_i hw
    split at h
    · cases h
    · rename_i g
      have hg := hf g rfl
      obtain ⟨c, hc, ht⟩ := mergeLoop_good (fun st => keyThen_good hg st)
        (fun st => keyThen_strict hg st) st _ _ _ h
      refine ⟨c, hc, fun t => ?_⟩
      unfold messageMerge
      rw [if_neg hw]
      exact ht t

theorem messageMerge_strict {f : Option (FieldFn σ)} (hf : ∀ g, f = some g → FGood g)
    (w : WireType) (st : σ) : Strict (messageMerge f w st) := by
  intro b v r h
  unfold messageMerge at h
  split at h
  · cases h
  · split at h
    · cases h
    · rename_i g
      have hg := hf g rfl
      exact mergeLoop_strict (fun st => keyThen_good hg st) (fun st => keyThen_strict hg st) st _ _ _ h

theorem groupMerge_good {f : Option (FieldFn σ)} (hf : ∀ g, f = some g → FGood g) (tag : Nat)
    (w : WireType) (st : σ) : Good (groupMerge f tag w st) := by
  intro b v r h
  unfold groupMerge at h
  split at h
  · cases h
  · rename_i hw
    split at h
    · cases h
    · rename_i g
      obtain ⟨c, hc, ht⟩ := groupLoop_good (hf g rfl) tag st _ _ _ h
      refine ⟨c, hc, fun t => ?_⟩
      unfold groupMerge
      rw [if_neg hw]
      exact ht t

theorem groupMerge_strict {f : Option (FieldFn σ)} (hf : ∀ g, f = some g → FGood g) (tag : Nat)
    (w : WireType) (st : σ) : Strict (groupMerge f tag w st) := by
  intro b v r h
  unfold groupMerge at h
  split at h
  · cases h
  · split at h
    · cases h
    · rename_i g
      exact groupLoop_strict (hf g rfl) h

theorem messageMerge_noFuel {f : Option (FieldFn σ)} (hf : ∀ g, f = some g → FGood g)
    (hn : ∀ g, f = some g → FNoFuel g) (w : WireType) (st : σ) : NoFuel (messageMerge f w st) := by
  intro b h
  unfold messageMerge at h
  split at h
  · cases h
  · split at h
    · cases h
    · rename_i g
      exact mergeLoop_noFuel (fun st => keyThen_noFuel (hn g rfl) st)
        (fun st => keyThen_strict (hf g rfl) st) st _ h

theorem groupMerge_noFuel {f : Option (FieldFn σ)} (hf : ∀ g, f = some g → FGood g)
    (hn : ∀ g, f = some g → FNoFuel g) (tag : Nat) (w : WireType) (st : σ) :
    NoFuel (groupMerge f tag w st) := by
  intro b h
  unfold groupMerge at h
  split at h
  · cases h
  · split at h
    · cases h
    · rename_i g
      exact groupLoop_noFuel (hn g rfl) (hf g rfl) tag _ _ _ (by omega) h

theorem keyThen_inv {f : FieldFn σ} {I : σ → Prop}
    (hI : ∀ st n w b st' b', 0 < n → n < 2 ^ 29 → I st → f st n w b = .ok (st', b') → I st')
    {st : σ} {b : Bytes} {st' : σ} {b' : Bytes} (hi : I st)
    (h : keyThen f st b = .ok (st', b')) : I st' := by
  unfold keyThen at h
  split at h
  · cases h
  · rename_i hk
    obtain ⟨_, _, _, _, hp, hlt⟩ := decodeKey_good hk
    exact hI _ _ _ _ _ _ hp hlt hi h

theorem keyThen_safe {f : FieldFn σ} {I : σ → Prop}
    (hE : ∀ st n w b, 0 < n → n < 2 ^ 29 → I st → Safe (f st n w b))
    {st : σ} (b : Bytes) (hi : I st) : Safe (keyThen f st b) := by
  intro e h
  unfold keyThen at h
  split at h
  · rename_i he; cases h; exact decodeKey_safe _ _ he
  · rename_i hk
    obtain ⟨_, _, _, _, hp, hlt⟩ := decodeKey_good hk
    exact hE _ _ _ _ hp hlt hi _ h

end Verif.Wire
