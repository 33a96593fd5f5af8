import Verif.Dyn.Total
/-!
The decoder: locality (a successful run only looks at the bytes it consumes), no
fuel exhaustion.
-/
set_option autoImplicit false
namespace Verif.Dyn
open Verif.Wire

/-- Field function one level down. -/
def nestedAt (S : Schema) : Nat → Option (FieldFn DynMsg)
  | 0 => none
  | d + 1 => some (msgMerge S d)

theorem msgMerge_eq (S : Schema) (d : Nat) : msgMerge S d = mergeField S d (nestedAt S d) := by
  cases d <;> rfl

theorem mapV_ok {α β γ : Type} {g : α → β} {x : R (α × γ)} {v : β} {r : γ}
    (h : mapV g x = .ok (v, r)) : ∃ a, x = .ok (a, r) ∧ v = g a := by
  cases x with
  | error e => cases h
  | ok p => obtain ⟨a, b⟩ := p; cases h; exact ⟨a, rfl, rfl⟩

theorem mapV_error {α β γ : Type} {g : α → β} {x : R (α × γ)} {e : Err}
    (h : mapV g x = .error e) : x = .error e := by
  cases x with
  | error e' => cases h; rfl
  | ok p => obtain ⟨a, b⟩ := p; cases h

theorem Good.map {α β : Type} {p : Bytes → R (α × Bytes)} (hp : Good p) (g : α → β) :
    Good (fun b => mapV g (p b)) := by
  intro b v r h
  obtain ⟨a, he, rfl⟩ := mapV_ok h
  obtain ⟨c, hc, ht⟩ := hp _ _ _ he
  exact ⟨c, hc, fun t => by simp only [ht t, mapV]⟩

theorem Strict.map {α β : Type} {p : Bytes → R (α × Bytes)} (hp : Strict p) (g : α → β) :
    Strict (fun b => mapV g (p b)) := by
  intro b v r h
  obtain ⟨a, he, rfl⟩ := mapV_ok h
  exact hp _ _ _ he

theorem NoFuel.map {α β : Type} {p : Bytes → R (α × Bytes)} (hp : NoFuel p) (g : α → β) :
    NoFuel (fun b => mapV g (p b)) := by
  intro b h
  exact hp _ (mapV_error h)

theorem good_error {α : Type} (e : Err) : Good (fun _ => (.error e : R (α × Bytes))) := by
  intro b v r h; cases h
theorem strict_error {α : Type} (e : Err) : Strict (fun _ => (.error e : R (α × Bytes))) := by
  intro b v r h; cases h
theorem noFuel_error {α : Type} {e : Err} (he : e ≠ .fuel) :
    NoFuel (fun _ => (.error e : R α)) := by
  intro b h; cases h; exact he rfl

variable {S : Schema} {nested : Option (FieldFn DynMsg)}

theorem good_singular (hn : ∀ g, nested = some g → FGood g) (f : FieldDesc) (v : Value)
    (w : WireType) : Good (singularMerge nested f v w) := by
  unfold singularMerge
  split
  · split
    · split
      · exact Good.map (groupMerge_good hn _ _ _) _
      · exact Good.map (messageMerge_good hn _ _) _
    · exact good_error _
  · split
    · exact good_scalarDec _ _
    · exact good_error _

theorem strict_singular (hn : ∀ g, nested = some g → FGood g) (f : FieldDesc) (v : Value)
    (w : WireType) : Strict (singularMerge nested f v w) := by
  unfold singularMerge
  split
  · split
    · split
      · exact Strict.map (groupMerge_strict hn _ _ _) _
      · exact Strict.map (messageMerge_strict hn _ _) _
    · exact strict_error _
  · split
    · exact strict_scalarDec _ _
    · exact strict_error _

theorem noFuel_singular (hg : ∀ g, nested = some g → FGood g)
    (hn : ∀ g, nested = some g → FNoFuel g) (f : FieldDesc) (v : Value)
    (w : WireType) : NoFuel (singularMerge nested f v w) := by
  unfold singularMerge
  split
  · split
    · split
      · exact NoFuel.map (groupMerge_noFuel hg hn _ _ _) _
      · exact NoFuel.map (messageMerge_noFuel hg hn _ _) _
    · exact noFuel_error (by decide)
  · split
    · exact noFuel_scalarDec _ _
    · exact noFuel_error (by decide)

theorem good_list (hn : ∀ g, nested = some g → FGood g) (f : FieldDesc) (vs : List Value)
    (w : WireType) : Good (listMerge S nested f vs w) := by
  unfold listMerge
  split
  · exact good_error _
  · split
    · refine mergeLoop_good ?_ ?_ _
      · intro vs; exact Good.map (good_singular hn _ _ _) _
      · intro vs; exact Strict.map (strict_singular hn _ _ _) _
    · exact Good.map (good_singular hn _ _ _) _

theorem noFuel_list (hg : ∀ g, nested = some g → FGood g)
    (hn : ∀ g, nested = some g → FNoFuel g) (f : FieldDesc) (vs : List Value)
    (w : WireType) : NoFuel (listMerge S nested f vs w) := by
  unfold listMerge
  split
  · exact noFuel_error (by decide)
  · split
    · refine mergeLoop_noFuel ?_ ?_ _
      · intro vs; exact NoFuel.map (noFuel_singular hg hn _ _ _) _
      · intro vs; exact Strict.map (strict_singular hg _ _ _) _
    · exact NoFuel.map (noFuel_singular hg hn _ _ _) _

theorem good_entryValue (hn : ∀ g, nested = some g → FGood g) (f : FieldDesc) (v : Value)
    (w : WireType) : Good (entryValueMerge S nested f v w) := by
  unfold entryValueMerge
  split
  · split
    · exact Good.map (good_list hn _ _ _) _
    · exact good_error _
  · exact good_error _
  · exact good_singular hn _ _ _

theorem noFuel_entryValue (hg : ∀ g, nested = some g → FGood g)
    (hn : ∀ g, nested = some g → FNoFuel g) (f : FieldDesc) (v : Value)
    (w : WireType) : NoFuel (entryValueMerge S nested f v w) := by
  unfold entryValueMerge
  split
  · split
    · exact NoFuel.map (noFuel_list hg hn _ _ _) _
    · exact noFuel_error (by decide)
  · exact noFuel_error (by decide)
  · exact noFuel_singular hg hn _ _ _

theorem good_key (f : FieldDesc) (k : MapKey) (w : WireType) : Good (keyMerge f k w) := by
  intro b v r h
  unfold keyMerge at h
  split at h
  · rename_i hv
    split at h
    · cases h
    · rename_i he
      split at h
      · rename_i hk
        cases h
        obtain ⟨c, hc, ht⟩ := good_scalarDec _ _ _ _ _ he
        exact ⟨c, hc, fun t => by simp only [keyMerge, hv, if_true, ht t, hk]⟩
      · cases h
  · cases h

theorem noFuel_key (f : FieldDesc) (k : MapKey) (w : WireType) : NoFuel (keyMerge f k w) := by
  intro b h
  unfold keyMerge at h
  split at h
  · split at h
    · rename_i he; cases h; exact noFuel_scalarDec _ _ _ he
    · split at h <;> cases h
  · cases h

theorem good_entryField (hn : ∀ g, nested = some g → FGood g) (d : Nat) (kd vd : FieldDesc) :
    FGood (entryField S d nested kd vd) := by
  intro kv n w
  unfold entryField
  split
  · exact Good.map (good_key _ _ _) _
  · split
    · exact Good.map (good_entryValue hn _ _ _) _
    · intro b v r h
      simp only at h ⊢
      split at h
      · cases h
      · rename_i he
        cases h
        have hp : skipP d w n b = .ok ((), r) := by simp [skipP, he]
        obtain ⟨c, hc, ht⟩ := good_skipP d w n _ _ _ hp
        refine ⟨c, hc, fun t => ?_⟩
        have := ht t
        unfold skipP at this
        split at this
        · cases this
        · rename_i h2; cases this; rw [h2]

theorem noFuel_entryField (hg : ∀ g, nested = some g → FGood g)
    (hn : ∀ g, nested = some g → FNoFuel g) (d : Nat) (kd vd : FieldDesc) :
    FNoFuel (entryField S d nested kd vd) := by
  intro kv n w
  unfold entryField
  split
  · exact NoFuel.map (noFuel_key _ _ _) _
  · split
    · exact NoFuel.map (noFuel_entryValue hg hn _ _ _) _
    · intro b h
      simp only at h
      split at h
      · rename_i he
        cases h
        exact noFuel_skipP d w n b (by simp [skipP, he])
      · cases h

theorem good_map (hn : ∀ g, nested = some g → FGood g) (d i : Nat) (kvs : List (MapKey × Value)) :
    Good (mapMerge S d nested i kvs) := by
  unfold mapMerge
  split
  · exact good_error _
  · split
    · refine Good.map (mergeLoop_good ?_ ?_ _) _
      · intro st; exact keyThen_good (good_entryField hn _ _ _) _
      · intro st; exact keyThen_strict (good_entryField hn _ _ _) _
    · exact good_error _

theorem noFuel_map (hg : ∀ g, nested = some g → FGood g)
    (hn : ∀ g, nested = some g → FNoFuel g) (d i : Nat) (kvs : List (MapKey × Value)) :
    NoFuel (mapMerge S d nested i kvs) := by
  unfold mapMerge
  split
  · exact noFuel_error (by decide)
  · split
    · refine NoFuel.map (mergeLoop_noFuel ?_ ?_ _) _
      · intro st; exact keyThen_noFuel (noFuel_entryField hg hn _ _ _) _
      · intro st; exact keyThen_strict (good_entryField hg _ _ _) _
    · exact noFuel_error (by decide)

theorem good_value (hn : ∀ g, nested = some g → FGood g) (d : Nat) (f : FieldDesc) (v : Value)
    (w : WireType) : Good (valueMerge S d nested f v w) := by
  unfold valueMerge
  split
  · split
    · exact Good.map (good_list hn _ _ _) _
    · exact good_error _
  · split
    · split
      · exact Good.map (good_map hn _ _ _) _
      · exact good_error _
    · exact good_error _
  · exact good_singular hn _ _ _

theorem noFuel_value (hg : ∀ g, nested = some g → FGood g)
    (hn : ∀ g, nested = some g → FNoFuel g) (d : Nat) (f : FieldDesc) (v : Value)
    (w : WireType) : NoFuel (valueMerge S d nested f v w) := by
  unfold valueMerge
  split
  · split
    · exact NoFuel.map (noFuel_list hg hn _ _ _) _
    · exact noFuel_error (by decide)
  · split
    · split
      · exact NoFuel.map (noFuel_map hg hn _ _ _) _
      · exact noFuel_error (by decide)
    · exact noFuel_error (by decide)
  · exact noFuel_singular hg hn _ _ _

theorem good_mergeInto (hn : ∀ g, nested = some g → FGood g) (d : Nat) (sib : List Nat)
    (f : FieldDesc) (m : DynMsg) (w : WireType) : Good (mergeInto S d nested sib f m w) := by
  unfold mergeInto
  split
  · exact good_error _
  · exact Good.map (good_value hn _ _ _ _) _

theorem noFuel_mergeInto (hg : ∀ g, nested = some g → FGood g)
    (hn : ∀ g, nested = some g → FNoFuel g) (d : Nat) (sib : List Nat)
    (f : FieldDesc) (m : DynMsg) (w : WireType) : NoFuel (mergeInto S d nested sib f m w) := by
  unfold mergeInto
  split
  · exact noFuel_error (by decide)
  · exact NoFuel.map (noFuel_value hg hn _ _ _ _) _

theorem good_mergeField (hn : ∀ g, nested = some g → FGood g) (d : Nat) :
    FGood (mergeField S d nested) := by
  intro m n w
  unfold mergeField
  split
  · exact good_error _
  · split
    · exact good_mergeInto hn _ _ _ _ _
    · split
      · exact good_mergeInto hn _ _ _ _ _
      · intro b v r h
        simp only at h ⊢
        split at h
        · cases h
        · rename_i u r' he
          cases hu : FieldSet.addUnknown m.fields n (n, u) with
          | none => rw [hu] at h; cases h
          | some fs =>
            rw [hu] at h
            cases h
            obtain ⟨c, hc, ht⟩ := good_decUVal d n w _ _ _ he
            exact ⟨c, hc, fun t => by simp only [ht t, hu]⟩

theorem noFuel_mergeField (hg : ∀ g, nested = some g → FGood g)
    (hn : ∀ g, nested = some g → FNoFuel g) (d : Nat) : FNoFuel (mergeField S d nested) := by
  intro m n w
  unfold mergeField
  split
  · exact noFuel_error (by decide)
  · split
    · exact noFuel_mergeInto hg hn _ _ _ _ _
    · split
      · exact noFuel_mergeInto hg hn _ _ _ _ _
      · intro b h
        simp only at h
        split at h
        · rename_i he; cases h; exact noFuel_decUVal d n w _ he
        · split at h <;> cases h

/-- Locality of `DynamicMessage::merge_field`. -/
theorem good_msgMerge (S : Schema) (d : Nat) : FGood (msgMerge S d) := by
  induction d with
  | zero => exact good_mergeField (by intro g h; cases h) 0
  | succ d ih => exact good_mergeField (by intro g h; cases h; exact ih) (d + 1)

theorem noFuel_msgMerge (S : Schema) (d : Nat) : FNoFuel (msgMerge S d) := by
  induction d with
  | zero => exact noFuel_mergeField (by intro g h; cases h) (by intro g h; cases h) 0
  | succ d ih =>
    exact noFuel_mergeField (by intro g h; cases h; exact good_msgMerge S d)
      (by intro g h; cases h; exact ih) (d + 1)

theorem good_nestedAt (S : Schema) (d : Nat) : ∀ g, nestedAt S d = some g → FGood g := by
  intro g h
  cases d with
  | zero => cases h
  | succ d => cases h; exact good_msgMerge S d

end Verif.Dyn
