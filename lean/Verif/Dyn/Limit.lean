import Verif.Dyn.Codec
/-!
A lower recursion limit gives the same result or the error that says so.
-/
set_option autoImplicit false
namespace Verif.Dyn
open Verif.Wire

/-- The first run, with the lower limit, hits it, or both give the same. -/
def Lim {α : Type} (x y : R α) : Prop := x = .error .recursionLimit ∨ y = x

section
variable {α β σ : Type}

theorem Lim.refl (x : R α) : Lim x x := .inr rfl
theorem Lim.hit (y : R α) : Lim (.error .recursionLimit) y := .inl rfl

theorem Lim.trans {x y z : R α} (h : Lim x y) (h' : Lim y z) : Lim x z := by
  rcases h with h | rfl
  · exact .inl h
  · exact h'

theorem Lim.mapV {g : α → β} {x y : R (α × Bytes)} (h : Lim x y) : Lim (mapV g x) (mapV g y) := by
  rcases h with rfl | rfl
  · exact .inl rfl
  · exact .refl _

/-- Both field functions, at all arguments. -/
def FLim (f g : FieldFn σ) : Prop := ∀ st n w b, Lim (f st n w b) (g st n w b)

/-- Both nested levels; the lower one may be used up. -/
def NLim : Option (FieldFn σ) → Option (FieldFn σ) → Prop
  | none, _ => True
  | some f, some g => FLim f g
  | some _, none => False

theorem loopTo_lim {f g : σ → Bytes → R (σ × Bytes)} (h : ∀ st b, Lim (f st b) (g st b)) (limit : Nat) :
    ∀ k st b, Lim (loopTo limit f k st b) (loopTo limit g k st b)
  | 0, st, b => .refl _
  | k + 1, st, b => by
    simp only [loopTo]
    split
    · exact .refl _
    · rcases h st b with e | e
      · rw [e]; exact .hit _
      · rw [e]
        split
        · exact .refl _
        · exact loopTo_lim h limit k _ _

theorem mergeLoop_lim {f g : σ → Bytes → R (σ × Bytes)} (h : ∀ st b, Lim (f st b) (g st b)) (st : σ) (b : Bytes) :
    Lim (mergeLoop f st b) (mergeLoop g st b) := by
  unfold mergeLoop
  split
  · exact .refl _
  · next len rest _ =>
    split
    · exact .refl _
    · rcases loopTo_lim h (rest.length - len) (rest.length + 1) st rest with e | e
      · rw [e]; exact .hit _
      · rw [e]; exact .refl _

theorem keyThen_lim {f g : FieldFn σ} (h : FLim f g) (st : σ) (b : Bytes) : Lim (keyThen f st b) (keyThen g st b) := by
  unfold keyThen
  split
  · exact .refl _
  · exact h _ _ _ _

theorem groupLoop_lim {f g : FieldFn σ} (h : FLim f g) (tag : Nat) :
    ∀ k st b, Lim (groupLoop tag f k st b) (groupLoop tag g k st b)
  | 0, st, b => .refl _
  | k + 1, st, b => by
    simp only [groupLoop]
    split
    · exact .refl _
    · next n w r _ =>
      split
      · exact .refl _
      · rcases h st n w r with e | e
        · rw [e]; exact .hit _
        · rw [e]
          split
          · exact .refl _
          · exact groupLoop_lim h tag k _ _

theorem messageMerge_lim {nf ng : Option (FieldFn σ)} (h : NLim nf ng) (w : WireType) (st : σ) (b : Bytes) :
    Lim (messageMerge nf w st b) (messageMerge ng w st b) := by
  unfold messageMerge
  split
  · exact .refl _
  · cases nf with
    | none => exact .hit _
    | some f =>
      cases ng with
      | none => exact h.elim
      | some g => exact mergeLoop_lim (keyThen_lim h) st b

theorem groupMerge_lim {nf ng : Option (FieldFn σ)} (h : NLim nf ng) (tag : Nat) (w : WireType) (st : σ) (b : Bytes) :
    Lim (groupMerge nf tag w st b) (groupMerge ng tag w st b) := by
  unfold groupMerge
  split
  · exact .refl _
  · cases nf with
    | none => exact .hit _
    | some f =>
      cases ng with
      | none => exact h.elim
      | some g => exact groupLoop_lim h tag _ st b

theorem skipField_lim : ∀ d w n b, Lim (skipField d w n b) (skipField (d + 1) w n b)
  | 0, w, n, b => by simp only [skipField]; exact .hit _
  | d + 1, w, n, b => by
    have ih := skipField_lim d
    cases w with
    | startGroup =>
      rw [skipField, skipField]
      have key : ∀ f g : FieldFn Unit, FLim f g → Lim
          (match groupLoop n f (b.length + 1) () b with
            | .error e => .error e
            | .ok (_, rest) => .ok rest : R Bytes)
          (match groupLoop n g (b.length + 1) () b with
            | .error e => .error e
            | .ok (_, rest) => .ok rest) := by
        intro f g hfg
        rcases groupLoop_lim hfg n (b.length + 1) () b with e | e
        · rw [e]; exact .hit _
        · rw [e]; exact .refl _
      refine key _ _ fun _ n w b => ?_
      rcases ih w n b with e | e
      · simp only [e]; exact .hit _
      · simp only [e]; exact .refl _
    | _ => simp only [skipField]; exact .refl _

theorem decUValWith_lim {nf ng : Option (FieldFn USet)} (h : NLim nf ng) (n : Nat) (w : WireType) (b : Bytes) :
    Lim (decUValWith nf n w b) (decUValWith ng n w b) := by
  cases w with
  | startGroup =>
    simp only [decUValWith]
    rcases groupMerge_lim h n .startGroup [] b with e | e
    · rw [e]; exact .hit _
    · rw [e]; exact .refl _
  | _ => simp only [decUValWith]; exact .refl _

theorem decUVal_lim : ∀ d n w b, Lim (decUVal d n w b) (decUVal (d + 1) n w b)
  | 0, n, w, b => decUValWith_lim (nf := none) trivial n w b
  | d + 1, n, w, b => by
    have ih := decUVal_lim d
    refine decUValWith_lim (nf := some _) (ng := some _) (fun st n w b => ?_) n w b
    unfold pushUnknown
    rcases ih n w b with e | e
    · rw [e]; exact .hit _
    · rw [e]; exact .refl _

end

section
variable {nf ng : Option (FieldFn DynMsg)}

theorem singularMerge_lim (h : NLim nf ng) (f : FieldDesc) (v : Value) (w : WireType) (b : Bytes) :
    Lim (singularMerge nf f v w b) (singularMerge ng f v w b) := by
  unfold singularMerge
  split
  · split
    · refine Lim.mapV ?_
      split
      · exact groupMerge_lim h _ _ _ _
      · exact messageMerge_lim h _ _ _
    · exact .refl _
  · exact .refl _

theorem listMerge_lim (S : Schema) (h : NLim nf ng) (f : FieldDesc) (vs : List Value) (w : WireType) (b : Bytes) :
    Lim (listMerge S nf f vs w b) (listMerge S ng f vs w b) := by
  unfold listMerge
  split
  · exact .refl _
  · split
    · exact mergeLoop_lim (fun st b => (singularMerge_lim h _ _ _ _).mapV) _ _
    · exact (singularMerge_lim h _ _ _ _).mapV

theorem entryValueMerge_lim (S : Schema) (h : NLim nf ng) (f : FieldDesc) (v : Value) (w : WireType) (b : Bytes) :
    Lim (entryValueMerge S nf f v w b) (entryValueMerge S ng f v w b) := by
  unfold entryValueMerge
  split
  · split
    · exact (listMerge_lim S h _ _ _ _).mapV
    · exact .refl _
  · exact .refl _
  · exact singularMerge_lim h _ _ _ _

theorem entryField_lim (S : Schema) (d : Nat) (h : NLim nf ng) (kd vd : FieldDesc) :
    FLim (entryField S d nf kd vd) (entryField S (d + 1) ng kd vd) := by
  intro kv n w b
  unfold entryField
  split
  · exact .refl _
  · split
    · exact (entryValueMerge_lim S h _ _ _ _).mapV
    · rcases skipField_lim d w n b with e | e
      · rw [e]; exact .hit _
      · rw [e]; exact .refl _

theorem valueMerge_lim (S : Schema) (d : Nat) (h : NLim nf ng) (f : FieldDesc) (v : Value) (w : WireType) (b : Bytes) :
    Lim (valueMerge S d nf f v w b) (valueMerge S (d + 1) ng f v w b) := by
  unfold valueMerge
  split
  · split
    · exact (listMerge_lim S h _ _ _ _).mapV
    · exact .refl _
  · split
    · split
      · refine Lim.mapV ?_
        unfold mapMerge
        split
        · exact .refl _
        · split
          · exact (mergeLoop_lim (keyThen_lim (entryField_lim S d h _ _)) _ _).mapV
          · exact .refl _
      · exact .refl _
    · exact .refl _
  · exact singularMerge_lim h _ _ _ _

theorem mergeInto_lim (S : Schema) (d : Nat) (h : NLim nf ng) (sib : List Nat) (f : FieldDesc) (m : DynMsg)
    (w : WireType) (b : Bytes) : Lim (mergeInto S d nf sib f m w b) (mergeInto S (d + 1) ng sib f m w b) := by
  unfold mergeInto
  split
  · exact .refl _
  · exact (valueMerge_lim S d h _ _ _ _).mapV

theorem mergeField_lim (S : Schema) (d : Nat) (h : NLim nf ng) : FLim (mergeField S d nf) (mergeField S (d + 1) ng) := by
  intro m n w b
  unfold mergeField
  split
  · exact .refl _
  · split
    · exact mergeInto_lim S d h _ _ _ _ _
    · split
      · exact mergeInto_lim S d h _ _ _ _ _
      · rcases decUVal_lim d n w b with e | e
        · rw [e]; exact .hit _
        · rw [e]; exact .refl _

end

theorem msgMerge_lim (S : Schema) : ∀ d, FLim (msgMerge S d) (msgMerge S (d + 1))
  | 0 => mergeField_lim (nf := none) S 0 trivial
  | d + 1 => mergeField_lim (nf := some _) (ng := some _) S (d + 1) (msgMerge_lim S d)

end Verif.Dyn
