import Verif.Json.Ends
/-!
Reading JSON: how deep the stack is does not matter, once it is deep enough.
-/
set_option autoImplicit false
namespace Verif.Json
open Verif.Wire Verif.Dyn Verif.Pool Verif.Text

theorem Lasts.cases {α : Type} {x y : Except JErr α} (h : Lasts x y) : x = .error .stack ∨ y = x :=
  (Classical.em (x = .error .stack)).imp_right h

theorem stdPairs_lasts {f g : Json → Except JErr Value} (h : ∀ j, Lasts (f j) (g j)) :
    ∀ (es : List (List Char × Json)) (acc : List (List Char × Value)), Lasts (stdPairs f acc es) (stdPairs g acc es) := by
  intro es
  induction es with
  | nil => intro acc; exact Lasts.refl _
  | cons p r ih =>
    obtain ⟨k, j⟩ := p
    intro acc
    simp only [stdPairs]
    rcases (h j).cases with hx | hx
    · rw [hx]; intro hc; exact absurd rfl hc
    · rw [hx]
      split
      · exact Lasts.refl _
      · exact ih _

theorem deStruct_lasts {f g : Json → Except JErr Value} (h : ∀ j, Lasts (f j) (g j)) (j : Json) :
    Lasts (deStruct f j) (deStruct g j) := by
  cases j with
  | obj es => exact (stdPairs_lasts h es []).map _
  | _ => exact Lasts.refl _

theorem deList_lasts {f g : Json → Except JErr Value} (h : ∀ j, Lasts (f j) (g j)) (j : Json) :
    Lasts (deList f j) (deList g j) := by
  cases j with
  | arr xs => exact (mapE_lasts h xs).map _
  | _ => exact Lasts.refl _

theorem deValue_lasts (env : JEnv) : ∀ (k : Nat) (j : Json), Lasts (deValue env k j) (deValue env (k + 1) j) := by
  intro k
  induction k with
  | zero => intro j h; exact absurd (by simp only [deValue]) h
  | succ k ih =>
    intro j
    cases j with
    | arr xs => simp only [deValue]; exact (deList_lasts ih _).map _
    | obj es => simp only [deValue]; exact (deStruct_lasts ih _).map _
    | _ => simp only [deValue]; exact Lasts.refl _

theorem deStd_lasts (env : JEnv) (k : Nat) (j : Json) (w : Wkt) : Lasts (deStd env k j w) (deStd env (k + 1) j w) := by
  cases w with
  | struct => exact deStruct_lasts (deValue_lasts env k) j
  | list => exact deList_lasts (deValue_lasts env k) j
  | value =>
    simp only [deStd]
    rcases (deValue_lasts env (k + 1) j).cases with hx | hx
    · rw [hx]; intro hc; exact absurd rfl hc
    · rw [hx]; exact Lasts.refl _
  | _ => exact Lasts.refl _

section
variable {S : Schema} {o : DOpts} {val val' : FieldDesc → Json → Except JErr (Option Value)}

theorem deOpt_lasts (h : ∀ f j, Lasts (val f j) (val' f j)) (f : FieldDesc) (j : Json) :
    Lasts (deOpt S val f j) (deOpt S val' f j) := by
  cases j with
  | null => exact Lasts.refl _
  | _ => exact h _ _

theorem deEntry_lasts (h : ∀ f j, Lasts (val f j) (val' f j)) (md : MsgDesc) (m : DynMsg) (key : Name) (j : Json) :
    Lasts (deEntry S o val md m key j) (deEntry S o val' md m key j) := by
  unfold deEntry
  split
  next f _ =>
    rcases (deOpt_lasts (S := S) h f j).cases with hx | hx
    · rw [hx]; intro hc; exact absurd rfl hc
    · rw [hx]; exact Lasts.refl _
  next =>
    split
    next f _ =>
      rcases (deOpt_lasts (S := S) h f j).cases with hx | hx
      · rw [hx]; intro hc; exact absurd rfl hc
      · rw [hx]; exact Lasts.refl _
    next => exact Lasts.refl _

theorem deEntries_lasts (h : ∀ f j, Lasts (val f j) (val' f j)) (md : MsgDesc) :
    ∀ (es : List (Name × Json)) (m : DynMsg), Lasts (deEntries S o val md m es) (deEntries S o val' md m es) := by
  intro es
  induction es with
  | nil => intro m; exact Lasts.refl _
  | cons p r ih =>
    obtain ⟨key, j⟩ := p
    intro m
    simp only [deEntries]
    rcases (deEntry_lasts (S := S) (o := o) h md m key j).cases with hx | hx
    · rw [hx]; intro hc; exact absurd rfl hc
    · rw [hx]
      split
      · exact Lasts.refl _
      · exact ih _

theorem anyPayload_lasts (env : JEnv) (h : ∀ f j, Lasts (val f j) (val' f j)) (n : Name) (d : Nat)
    (buf rest : List (List Char × Json)) :
    Lasts (anyPayload env S o val n d buf rest) (anyPayload env S o val' n d buf rest) := by
  unfold anyPayload
  split
  · split
    · exact Lasts.refl _
    next j _ _ =>
      rcases (h (plainField (.message d)) j).cases with hx | hx
      · rw [hx]; intro hc; exact absurd rfl hc
      · rw [hx]; exact Lasts.refl _
  · split
    · exact Lasts.refl _
    next md _ =>
      rcases (deEntries_lasts (S := S) (o := o) h md (env.order buf) (DynMsg.empty d)).cases with hx | hx
      · rw [hx]; intro hc; exact absurd rfl hc
      · rw [hx]
        split
        · exact Lasts.refl _
        · exact deEntries_lasts h md rest _

theorem deAny_lasts (env : JEnv) (h : ∀ f j, Lasts (val f j) (val' f j)) (j : Json) :
    Lasts (deAny env S o val j) (deAny env S o val' j) := by
  unfold deAny
  split
  · split
    next buf url rest _ =>
      split
      · exact Lasts.refl _
      next n _ =>
        split
        · exact Lasts.refl _
        next d _ =>
          rcases (anyPayload_lasts (S := S) (o := o) env h n d buf rest).cases with hx | hx
          · rw [hx]; intro hc; exact absurd rfl hc
          · rw [hx]; exact Lasts.refl _
    · exact Lasts.refl _
  · exact Lasts.refl _

theorem deMsg_lasts (env : JEnv) (k : Nat) (h : ∀ f j, Lasts (val f j) (val' f j)) (d : Nat) (j : Json) :
    Lasts (deMsg env S o k val d j) (deMsg env S o (k + 1) val' d j) := by
  unfold deMsg
  split
  · exact Lasts.refl _
  next md _ =>
    split
    · rcases (deAny_lasts (S := S) (o := o) env h j).cases with hx | hx
      · rw [hx]; intro hc; exact absurd rfl hc
      · rw [hx]; exact Lasts.refl _
    next w _ _ =>
      rcases (deStd_lasts env k j w).cases with hx | hx
      · rw [hx]; intro hc; exact absurd rfl hc
      · rw [hx]; exact Lasts.refl _
    next =>
      split
      · exact deEntries_lasts h md _ _
      · exact Lasts.refl _

theorem deKind_lasts (env : JEnv) (k : Nat) (h : ∀ f j, Lasts (val f j) (val' f j)) (kind : Kind) (j : Json) :
    Lasts (deKind env S o k val kind j) (deKind env S o (k + 1) val' kind j) := by
  cases kind with
  | message d => exact (deMsg_lasts env k h d j).map _
  | _ => exact Lasts.refl _
end

theorem deMap_lasts {key : List Char → Except JErr MapKey} {f g : Json → Except JErr (Option Value)}
    (h : ∀ j, Lasts (f j) (g j)) :
    ∀ (es : List (List Char × Json)) (acc : List (MapKey × Value)), Lasts (deMap key f acc es) (deMap key g acc es) := by
  intro es
  induction es with
  | nil => intro acc; exact Lasts.refl _
  | cons p r ih =>
    obtain ⟨s, j⟩ := p
    intro acc
    simp only [deMap]
    split
    · exact Lasts.refl _
    · rcases (h j).cases with hx | hx
      · rw [hx]; intro hc; exact absurd rfl hc
      · rw [hx]
        split
        · exact Lasts.refl _
        · exact ih _
        · exact ih _

theorem deVal_lasts (env : JEnv) (S : Schema) (o : DOpts) : ∀ (k : Nat) (f : FieldDesc) (j : Json),
    Lasts (deVal env S o k f j) (deVal env S o (k + 1) f j) := by
  intro k
  induction k with
  | zero => intro f j h; exact absurd (by simp only [deVal]) h
  | succ k ih =>
    intro f j
    unfold deVal
    split
    · split
      · exact (mapE_lasts (deKind_lasts env k ih f.kind) _).map _
      · exact Lasts.refl _
    · split
      · split
        · split
          · split
            · exact Lasts.refl _
            · exact (deMap_lasts (ih _) _ _).map _
          · exact Lasts.refl _
        · exact Lasts.refl _
      · exact deKind_lasts env k ih f.kind j

theorem fromJson_lasts (env : JEnv) (S : Schema) (o : DOpts) (d : Nat) (j : Json) {k k' : Nat} (h : k ≤ k') :
    Lasts (fromJson env S o k d j) (fromJson env S o k' d j) := by
  obtain ⟨n, rfl⟩ := Nat.exists_eq_add_of_le h
  clear h
  induction n with
  | zero => exact Lasts.refl _
  | succ n ih =>
    intro hc
    have h1 := ih hc
    rw [← h1] at hc ⊢
    exact deMsg_lasts env (k + n) (deVal_lasts env S o (k + n)) d j hc

end Verif.Json
