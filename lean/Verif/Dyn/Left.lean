import Verif.Dyn.Conf
/-!
What a failing `merge` leaves in the message. The functions here mirror those of
`Dyn/Codec.lean`: each says what the place it was given holds when the function of the
same name has returned an error.

One thing is left open: `lost s w b` is the text prost's `string::merge` leaves in a
string field holding `s` when it fails (prost clears the string when the new content is
not UTF-8). Every other scalar is assigned only after it has been read in full.
-/
set_option autoImplicit false
namespace Verif.Wire

variable {σ : Type}

/-- `loopTo`: the body failed on some pass, everything before it stays. -/
def loopLeft (limit : Nat) (body : σ → Bytes → R (σ × Bytes)) (left : σ → Bytes → σ) :
    Nat → σ → Bytes → σ
  | 0, st, _ => st
  | k + 1, st, buf =>
    if buf.length ≤ limit then st
    else match body st buf with
      | .error _ => left st buf
      | .ok (st', buf') => loopLeft limit body left k st' buf'

/-- `merge_loop` (message.rs:340, 359): nothing is touched before the length is read;
after an overrun everything read stays. -/
def mergeLoopLeft (body : σ → Bytes → R (σ × Bytes)) (left : σ → Bytes → σ) (st : σ)
    (buf : Bytes) : σ :=
  match decodeVarint buf with
  | .error _ => st
  | .ok (len, rest) =>
    if len > rest.length then st
    else loopLeft (rest.length - len) body left (rest.length + 1) st rest

/-- What a failing `merge_field` leaves. -/
abbrev LeftFn (σ : Type) := σ → Nat → WireType → Bytes → σ

/-- `decode_key` then `merge_field`. -/
def keyThenLeft (l : LeftFn σ) (st : σ) (buf : Bytes) : σ :=
  match decodeKey buf with
  | .error _ => st
  | .ok (number, wt, rest) => l st number wt rest

/-- The loop of `group::merge` (message.rs:333). -/
def groupLoopLeft (f : FieldFn σ) (l : LeftFn σ) : Nat → σ → Bytes → σ
  | 0, st, _ => st
  | k + 1, st, buf =>
    match decodeKey buf with
    | .error _ => st
    | .ok (number, wt, rest) =>
      if wt = .endGroup then st
      else match f st number wt rest with
        | .error _ => l st number wt rest
        | .ok (st', buf') => groupLoopLeft f l k st' buf'

/-- `message::merge` (message.rs:335). -/
def messageLeft (nested : Option (FieldFn σ × LeftFn σ)) (wt : WireType) (st : σ)
    (buf : Bytes) : σ :=
  if wt ≠ .lengthDelimited then st
  else match nested with
    | none => st
    | some (f, l) => mergeLoopLeft (keyThen f) (keyThenLeft l) st buf

/-- `group::merge` (message.rs:333). -/
def groupLeft (nested : Option (FieldFn σ × LeftFn σ)) (wt : WireType) (st : σ)
    (buf : Bytes) : σ :=
  if wt ≠ .startGroup then st
  else match nested with
    | none => st
    | some (f, l) => groupLoopLeft f l (buf.length + 1) st buf

theorem loopLeft_inv {body : σ → Bytes → R (σ × Bytes)} {left : σ → Bytes → σ} {I : σ → Prop}
    (hI : ∀ st b st' b', I st → body st b = .ok (st', b') → I st')
    (hL : ∀ st b, I st → I (left st b)) (limit : Nat) :
    ∀ (k : Nat) (st : σ) (b : Bytes), I st → I (loopLeft limit body left k st b) := by
  intro k
  induction k with
  | zero => intro st b hi; exact hi
  | succ k ih =>
    intro st b hi
    unfold loopLeft
    split
    · exact hi
    · split
      · exact hL _ _ hi
      · rename_i he; exact ih _ _ (hI _ _ _ _ hi he)

theorem mergeLoopLeft_inv {body : σ → Bytes → R (σ × Bytes)} {left : σ → Bytes → σ} {I : σ → Prop}
    (hI : ∀ st b st' b', I st → body st b = .ok (st', b') → I st')
    (hL : ∀ st b, I st → I (left st b)) {st : σ} (hi : I st) (b : Bytes) :
    I (mergeLoopLeft body left st b) := by
  unfold mergeLoopLeft
  split
  · exact hi
  · split
    · exact hi
    · exact loopLeft_inv hI hL _ _ _ _ hi

theorem keyThenLeft_inv {l : LeftFn σ} {I : σ → Prop}
    (hL : ∀ st n w b, 0 < n → n < 2 ^ 29 → I st → I (l st n w b)) {st : σ} (b : Bytes) (hi : I st) :
    I (keyThenLeft l st b) := by
  unfold keyThenLeft
  split
  · exact hi
  · rename_i n w rest hk
    obtain ⟨_, _, _, _, h0, h1⟩ := decodeKey_good hk
    exact hL _ _ _ _ h0 h1 hi

theorem groupLoopLeft_inv {f : FieldFn σ} {l : LeftFn σ} {I : σ → Prop}
    (hI : ∀ st n w b st' b', 0 < n → n < 2 ^ 29 → I st → f st n w b = .ok (st', b') → I st')
    (hL : ∀ st n w b, 0 < n → n < 2 ^ 29 → I st → I (l st n w b)) :
    ∀ (k : Nat) (st : σ) (b : Bytes), I st → I (groupLoopLeft f l k st b) := by
  intro k
  induction k with
  | zero => intro st b hi; exact hi
  | succ k ih =>
    intro st b hi
    unfold groupLoopLeft
    split
    · exact hi
    · rename_i n w rest hk
      obtain ⟨_, _, _, _, h0, h1⟩ := decodeKey_good hk
      split
      · exact hi
      · split
        · exact hL _ _ _ _ h0 h1 hi
        · rename_i he; exact ih _ _ (hI _ _ _ _ _ _ h0 h1 hi he)

/-- A loop that fails: some passes succeed, then the body fails. -/
theorem loopTo_error {body : σ → Bytes → R (σ × Bytes)} (left : σ → Bytes → σ)
    (hg : ∀ st, Good (body st)) (hs : ∀ st, Strict (body st)) {e : Err} :
    ∀ (k : Nat) (st : σ) (b : Bytes), b.length < k → loopTo 0 body k st b = .error e →
      ∃ c r st1, b = c ++ r ∧ r ≠ [] ∧ Steps body st c st1 ∧ body st1 r = .error e ∧
        loopLeft 0 body left k st b = left st1 r := by
  intro k
  induction k with
  | zero => intro st b h; omega
  | succ k ih =>
    intro st b hk h
    unfold loopTo at h
    unfold loopLeft
    split at h
    · cases h
    · rename_i hlen
      rw [if_neg hlen]
      split at h
      · rename_i he
        cases h
        refine ⟨[], b, st, rfl, ?_, Steps.nil _, he, ?_⟩
        · rintro rfl; simp at hlen
        · simp only [he]
      · rename_i st1 b1 he
        have hlt := hs _ _ _ _ he
        obtain ⟨c, hc, hg0⟩ := hg _ _ _ _ he
        obtain ⟨c', r, st2, hb, hr, hst, hbad, hl⟩ := ih st1 b1 (by omega) h
        refine ⟨c ++ c', r, st2, by rw [hc, hb, List.append_assoc], hr, Steps.cons ?_ hg0 hst, hbad, ?_⟩
        · rintro rfl
          rw [hc] at hlt; simp at hlt
        · simp only [he]; exact hl

end Verif.Wire

namespace Verif.Dyn
open Verif.Wire

variable (lost : Bytes → WireType → Bytes → Bytes)

/-- A failing `Value::merge_field` on a value that is neither list nor map
(message.rs:282-337). -/
def singularLeft (nested : Option (FieldFn DynMsg × LeftFn DynMsg)) (f : FieldDesc) (v : Value)
    (wt : WireType) (buf : Bytes) : Value :=
  match v with
  | .msg d fs =>
    DynMsg.toValue (if f.group then groupLeft nested wt ⟨d, fs⟩ buf
      else messageLeft nested wt ⟨d, fs⟩ buf)
  | .str s => .str (lost s wt buf)
  | v => v

/-- The list case (message.rs:338-352): an element is pushed only once it has been read. -/
def listLeft (S : Schema) (nested : Option (FieldFn DynMsg)) (f : FieldDesc)
    (vs : List Value) (wt : WireType) (buf : Bytes) : List Value :=
  match kindDefault S f.kind with
  | none => vs
  | some v0 =>
    if wt = .lengthDelimited ∧ f.kind.packable = true then
      mergeLoopLeft (fun vs b =>
        mapV (fun v => vs ++ [v]) (singularMerge nested f v0 f.kind.wireType b)) (fun vs _ => vs) vs buf
    else vs

/-- A failing `Value::merge_field` (message.rs:272-382). The key and value of a map entry
are inserted only once the entry has been read (message.rs:374). -/
def valueLeft (S : Schema) (nested : Option (FieldFn DynMsg × LeftFn DynMsg)) (f : FieldDesc)
    (v : Value) (wt : WireType) (buf : Bytes) : Value :=
  match v with
  | .list vs => .list (listLeft S (nested.map (·.1)) f vs wt buf)
  | .map kvs => .map kvs
  | v => singularLeft lost nested f v wt buf

/-- `get_field_mut`/`get_extension_mut` followed by a failing `Value::merge_field`
(message.rs:46-54): the other members of the oneof are gone and the field is there. -/
def mergeIntoLeft (S : Schema) (nested : Option (FieldFn DynMsg × LeftFn DynMsg)) (sib : List Nat)
    (f : FieldDesc) (m : DynMsg) (wt : WireType) (buf : Bytes) : DynMsg :=
  match FieldSet.getMut S sib m.fields f with
  | none => m
  | some (fs, v) => ⟨m.desc, FieldSet.write f (valueLeft lost S nested f v wt buf) fs⟩

/-- A failing `DynamicMessage::merge_field` (message.rs:35-60): an unknown field is added
only once it has been read. -/
def fieldLeft (S : Schema) (nested : Option (FieldFn DynMsg × LeftFn DynMsg)) : LeftFn DynMsg :=
  fun m number wt buf =>
    match S.msg? m.desc with
    | none => m
    | some md =>
      match md.getField number with
      | some f => mergeIntoLeft lost S nested (siblings md f) f m wt buf
      | none =>
        match md.getExtension number with
        | some f => mergeIntoLeft lost S nested [] f m wt buf
        | none => m

/-- The same at a given recursion counter. -/
def msgLeft (S : Schema) : Nat → LeftFn DynMsg
  | 0 => fieldLeft lost S none
  | d + 1 => fieldLeft lost S (some (msgMerge S d, msgLeft S d))

/-- The message after a call of `Message::merge` on it, successful or not. -/
def mergeLeft (S : Schema) (m : DynMsg) (buf : Bytes) : DynMsg :=
  loopLeft 0 (keyThen (msgMerge S recursionLimit)) (keyThenLeft (msgLeft lost S recursionLimit))
    (buf.length + 1) m buf

/-- prost's `string::merge`: the string is cleared when anything goes wrong. -/
def prostLost : Bytes → WireType → Bytes → Bytes := fun _ _ _ => []

/-! ### Lemmas -/

theorem loopLeft_ok {σ : Type} {body : σ → Bytes → R (σ × Bytes)} {left : σ → Bytes → σ} {limit : Nat} :
    ∀ (k : Nat) (st : σ) (b : Bytes) (st' : σ) (b' : Bytes),
      loopTo limit body k st b = .ok (st', b') → loopLeft limit body left k st b = st' := by
  intro k
  induction k with
  | zero => intro st b st' b' h; simp [loopTo] at h
  | succ k ih =>
    intro st b st' b' h
    unfold loopTo at h
    unfold loopLeft
    split at h
    · rename_i hl; cases h; rw [if_pos hl]
    · rename_i hl
      rw [if_neg hl]
      split at h
      · cases h
      · rename_i he; simp only [he]; exact ih _ _ _ _ h

theorem mergeLeft_ok {S : Schema} {m m' : DynMsg} {b : Bytes} (h : merge S m b = .ok m') :
    mergeLeft lost S m b = m' := by
  unfold merge mergeAll at h
  split at h
  · cases h
  · rename_i he; cases h; exact loopLeft_ok _ _ _ _ _ he

/-- Strings in Rust are UTF-8 whatever happens. -/
def LostOk : Prop := ∀ s w b, utf8Valid s = true → utf8Valid (lost s w b) = true

/-- The nested level leaves conforming messages behind. -/
def NestedLeft (S : Schema) (nested : Option (FieldFn DynMsg × LeftFn DynMsg)) : Prop :=
  NestedOk S (nested.map (·.1)) ∧ ∀ g l, nested = some (g, l) → ∀ m n w b, 0 < n → n < 2 ^ 29 →
    confMsg S m = true → confMsg S (l m n w b) = true ∧ (l m n w b).desc = m.desc

section
variable {lost} {S : Schema} {nested : Option (FieldFn DynMsg × LeftFn DynMsg)}

theorem singularLeft_ok (hl : LostOk lost) (hn : NestedLeft S nested) (f : FieldDesc) {v : Value}
    (hv : confVal S f.elem v = true) (w : WireType) (b : Bytes) :
    confVal S f.elem (singularLeft lost nested f v w b) = true := by
  by_cases hk : f.kind.isMessage = true
  · cases hk' : f.kind with
    | message i =>
      obtain ⟨fs, rfl, hc⟩ := msg_of_confVal (f := f.elem) hk' elem_card hv
      unfold singularLeft
      simp only
      let I : DynMsg → Prop := fun m' => confMsg S m' = true ∧ m'.desc = i
      have h0 : I ⟨i, fs⟩ := ⟨hc, rfl⟩
      have hI : ∀ g l, nested = some (g, l) → ∀ (st : DynMsg) n w b st' b', 0 < n → n < 2 ^ 29 →
          I st → g st n w b = .ok (st', b') → I st' := by
        intro g l hg st n w b st' b' h0 h1 hi h
        have := (hn.1 g (by rw [hg]; rfl) st n w b h0 h1 hi.1).2 st' b' h
        exact ⟨this.1, this.2.trans hi.2⟩
      have hL : ∀ g l, nested = some (g, l) → ∀ (st : DynMsg) n w b, 0 < n → n < 2 ^ 29 →
          I st → I (l st n w b) := by
        intro g l hg st n w b h0 h1 hi
        have := hn.2 g l hg st n w b h0 h1 hi.1
        exact ⟨this.1, this.2.trans hi.2⟩
      have inner : I (if f.group then groupLeft nested w ⟨i, fs⟩ b
            else messageLeft nested w ⟨i, fs⟩ b) := by
        split
        · unfold groupLeft
          split
          · exact h0
          · split
            · exact h0
            · exact groupLoopLeft_inv (hI _ _ rfl) (hL _ _ rfl) _ _ _ h0
        · unfold messageLeft
          split
          · exact h0
          · split
            · exact h0
            · exact mergeLoopLeft_inv
                (fun st b st' b' hi h => keyThen_inv (I := I) (hI _ _ rfl) hi h)
                (fun st b hi => keyThenLeft_inv (hL _ _ rfl) b hi) h0 b
      exact confVal_msg (f := f.elem) elem_card (by rw [inner.2]; exact hk') inner.1
    | _ => rw [hk'] at hk; cases hk
  · have hk' : f.kind.isMessage = false := by simpa using hk
    have hs := scalarOk_of_confVal (f := f.elem) hk' elem_card hv
    cases v with
    | msg d fs =>
      exfalso
      have hval : (Value.msg d fs).isValid f.kind = true := scalarOk_isValid hs
      cases hkk : f.kind <;> rw [hkk] at hval hk' <;> simp [Value.isValid] at hval
      cases hk'
    | str s =>
      refine confVal_scalar (f := f.elem) elem_card ?_
      have hkk : f.elem.kind = f.kind := rfl
      rw [hkk] at hs ⊢
      cases hk2 : f.kind <;> rw [hk2] at hs <;> simp [scalarOk, Value.isValid] at hs ⊢
      exact hl _ _ _ hs
    | _ => exact hv

theorem listLeft_ok (hn : NestedOk S (nested.map (·.1))) {f : FieldDesc} (hf : FieldWf S f)
    {vs : List Value} (hv : confVals S f.elem vs = true) (w : WireType) (b : Bytes) :
    confVals S f.elem (listLeft S (nested.map (·.1)) f vs w b) = true := by
  obtain ⟨v0, h0, hc0⟩ := kindDefault_conf hf
  unfold listLeft
  simp only [h0]
  split
  · refine mergeLoopLeft_inv (I := fun vs' => confVals S f.elem vs' = true) ?_ (fun st b hi => hi) hv b
    intro st b st' b' hi h
    obtain ⟨x, hx, rfl⟩ := mapV_ok h
    have hcx := (singular_ok hn f hc0 _ _).2 _ _ hx
    rw [confVals_iff] at *
    intro y hy
    rcases List.mem_append.1 hy with hy | hy
    · exact hi y hy
    · rw [List.mem_singleton.1 hy]; exact hcx
  · exact hv

theorem valueLeft_ok (hl : LostOk lost) (hn : NestedLeft S nested) {f : FieldDesc}
    (hf : FieldWf S f) {v : Value} (hv : confVal S f v = true) (w : WireType) (b : Bytes) :
    confVal S f (valueLeft lost S nested f v w b) = true := by
  by_cases hc : f.card = .repeated
  · cases v with
    | list vs =>
      simp only [confVal, Bool.and_eq_true] at hv
      simp only [valueLeft, confVal, Bool.and_eq_true]
      exact ⟨hv.1, listLeft_ok hn.1 hf hv.2 w b⟩
    | map kvs => exact hv
    | _ => simp [confVal, hc] at hv
  · have h3 : isList S f = false := isList_of_ne hc
    have h5 : isMap S f = false := isMap_of_ne hc
    have heq : valueLeft lost S nested f v w b = singularLeft lost nested f v w b := by
      cases v with
      | list vs => simp only [confVal, h3, Bool.false_and] at hv; cases hv
      | map kvs => simp only [confVal, h5, Bool.false_and] at hv; cases hv
      | _ => rfl
    rw [heq]
    rw [← confVal_elem hc] at hv
    rw [← confVal_elem hc]
    exact singularLeft_ok hl hn f hv w b

theorem fieldLeft_ok (hS : S.wf = true) (hl : LostOk lost) (hn : NestedLeft S nested) (m : DynMsg)
    (n : Nat) (w : WireType) (b : Bytes) (hm : confMsg S m = true) :
    confMsg S (fieldLeft lost S nested m n w b) = true ∧ (fieldLeft lost S nested m n w b).desc = m.desc := by
  obtain ⟨md, hC⟩ := confMsg_iff.1 hm
  have hw := Schema.wf_msg hS hC.desc
  unfold fieldLeft
  simp only [hC.desc]
  cases hf : md.getField n with
  | some f =>
    simp only
    obtain ⟨fs, v, hg, hcv, hwr, _⟩ := getMut_field hS hC hf
    unfold mergeIntoLeft
    simp only [hg]
    refine ⟨?_, trivial⟩
    rw [hwr]
    exact confMsg_iff.2 ⟨md, hC.insert_field hS hf
      (valueLeft_ok hl hn (hw.fields f (getField_mem hf).1) hcv w b)⟩
  | none =>
    simp only
    cases he : md.getExtension n with
    | some f =>
      simp only
      obtain ⟨fs, v, hg, hcv, hwr, _⟩ := getMut_ext hS hC he
      unfold mergeIntoLeft
      simp only [hg]
      refine ⟨?_, trivial⟩
      rw [hwr]
      exact confMsg_iff.2 ⟨md, hC.insert_ext hS he
        (valueLeft_ok hl hn (hw.exts f (getExtension_mem he).1) hcv w b)⟩
    | none => exact ⟨hm, rfl⟩

theorem msgLeft_ok (hS : S.wf = true) (hl : LostOk lost) (d : Nat) : ∀ m n w b, 0 < n → n < 2 ^ 29 →
    confMsg S m = true →
    confMsg S (msgLeft lost S d m n w b) = true ∧ (msgLeft lost S d m n w b).desc = m.desc := by
  induction d with
  | zero =>
    intro m n w b _ _ hm
    refine fieldLeft_ok hS hl (nested := none) ⟨?_, ?_⟩ m n w b hm
    · intro g hg; cases hg
    · intro g l hg; cases hg
  | succ d ih =>
    intro m n w b _ _ hm
    refine fieldLeft_ok hS hl (nested := some (msgMerge S d, msgLeft lost S d)) ⟨?_, ?_⟩ m n w b hm
    · intro g hg; cases hg; exact msgMerge_ok hS d
    · intro g l hg; cases hg; exact ih

theorem mergeLeft_conf (hS : S.wf = true) (hl : LostOk lost) {m : DynMsg} (hm : confMsg S m = true)
    (b : Bytes) : confMsg S (mergeLeft lost S m b) = true ∧ (mergeLeft lost S m b).desc = m.desc := by
  let I : DynMsg → Prop := fun m' => confMsg S m' = true ∧ m'.desc = m.desc
  refine loopLeft_inv (I := I) ?_ ?_ _ _ _ _ ⟨hm, rfl⟩
  · intro st b st' b' hi h
    exact keyThen_inv (I := I) (fun st n w b st' b' h0 h1 hi h => by
        have := (msgMerge_ok hS _ st n w b h0 h1 hi.1).2 st' b' h
        exact ⟨this.1, this.2.trans hi.2⟩) hi h
  · intro st b hi
    exact keyThenLeft_inv (I := I) (fun st n w b h0 h1 hi => by
        have := msgLeft_ok hS hl recursionLimit st n w b h0 h1 hi.1
        exact ⟨this.1, this.2.trans hi.2⟩) b hi

end
end Verif.Dyn
