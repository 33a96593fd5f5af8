import Verif.Text.Parse
/-!
Parsing text: how deep the stack is does not matter, once it is deep enough.
-/
set_option autoImplicit false
namespace Verif.Text
open Verif.Wire Verif.Dyn

/-- The stack overflowed the first time, or the same comes out the second time. -/
def Steady {α : Type} (x y : Except TErr α) : Prop := x = .error .stack ∨ y = x

theorem Steady.refl {α : Type} (x : Except TErr α) : Steady x x := .inr rfl

theorem Steady.mapP {α β : Type} {x y : PR α} (h : Steady x y) (g : α → β) : Steady (mapP g x) (mapP g y) := by
  rcases h with h | h
  · rw [h]; exact .inl rfl
  · rw [h]; exact .inr rfl

theorem listTail_steady {pv pv' : List LTok → PR Value} (h : ∀ ts, Steady (pv ts) (pv' ts)) :
    ∀ (n : Nat) (ts : List LTok), Steady (listTail pv n ts) (listTail pv' n ts) := by
  intro n
  induction n with
  | zero => intro ts; exact .inr rfl
  | succ n ih =>
    intro ts
    unfold listTail
    split
    · exact Steady.refl _
    next r hn =>
      cases hn
      rcases h r with hx | hx
      · rw [hx]; exact .inl rfl
      · rw [hx]
        split
        · exact Steady.refl _
        next v r' _ =>
          rcases ih r' with hy | hy
          · rw [hy]; exact .inl rfl
          · rw [hy]; exact .inr rfl
    · exact Steady.refl _
    · exact Steady.refl _

theorem parseRep_steady {pv pv' : List LTok → PR Value} (h : ∀ ts, Steady (pv ts) (pv' ts)) (ts : List LTok) :
    Steady (parseRep pv ts) (parseRep pv' ts) := by
  unfold parseRep
  split
  · exact Steady.refl _
  next r _ =>
    rcases h r with hx | hx
    · rw [hx]; exact .inl rfl
    · rw [hx]
      split
      · exact Steady.refl _
      next v r' _ =>
        rcases listTail_steady h (r.length + 1) r' with hy | hy
        · rw [hy]; exact .inl rfl
        · rw [hy]; exact .inr rfl
  · exact (h _).mapP _

section
variable {env : TEnv} {S : Schema} {sub sub' : Nat → List LTok → PR FieldSet}

theorem parseVal_steady (h : ∀ i ts, Steady (sub i ts) (sub' i ts)) (kind : Kind) (ts : List LTok) :
    Steady (parseVal env S sub kind ts) (parseVal env S sub' kind ts) := by
  cases kind with
  | message i => exact (h i ts).mapP _
  | _ => exact Steady.refl _

theorem parseFieldValue_steady (h : ∀ i ts, Steady (sub i ts) (sub' i ts)) (sib : List Nat) (mem : List FieldDesc)
    (f : FieldDesc) (fs : FieldSet) (ts : List LTok) :
    Steady (parseFieldValue env S sub sib mem f fs ts) (parseFieldValue env S sub' sib mem f fs ts) := by
  unfold parseFieldValue
  split
  · rcases parseRep_steady (parseVal_steady (env := env) (S := S) h f.kind) ts with hx | hx
    · rw [hx]; exact .inl rfl
    · rw [hx]; exact .inr rfl
  split
  · rcases parseRep_steady (parseVal_steady (env := env) (S := S) h f.kind) ts with hx | hx
    · rw [hx]; exact .inl rfl
    · rw [hx]; exact .inr rfl
  · rcases parseVal_steady (env := env) (S := S) h f.kind ts with hx | hx
    · rw [hx]; exact .inl rfl
    · rw [hx]; exact .inr rfl

theorem parseNamed_steady (h : ∀ i ts, Steady (sub i ts) (sub' i ts)) (md : MsgDesc) (d : Nat) (name : FName)
    (fs : FieldSet) (ts : List LTok) :
    Steady (parseNamed env S sub md d name fs ts) (parseNamed env S sub' md d name fs ts) := by
  unfold parseNamed
  split
  · split
    · exact Steady.refl _
    · exact Steady.refl _
    · exact parseFieldValue_steady h _ _ _ _ _
  · split
    · exact Steady.refl _
    · exact parseFieldValue_steady h _ _ _ _ _
  · unfold parseAny
    split
    · exact Steady.refl _
    next i _ =>
      rcases h i ts with hx | hx
      · rw [hx]; exact .inl rfl
      · rw [hx]; exact .inr rfl

theorem parseField_steady (h : ∀ i ts, Steady (sub i ts) (sub' i ts)) (md : MsgDesc) (d : Nat) (fs : FieldSet)
    (ts : List LTok) : Steady (parseField env S sub md d fs ts) (parseField env S sub' md d fs ts) := by
  unfold parseField
  split
  · exact Steady.refl _
  next name r _ =>
    split
    · exact Steady.refl _
    next r' _ =>
      rcases parseNamed_steady (env := env) (S := S) h md d name fs r' with hx | hx
      · rw [hx]; exact .inl rfl
      · rw [hx]; exact .inr rfl
end

theorem bodyLoop_steady {pf pf' : FieldSet → List LTok → PR FieldSet} (h : ∀ fs ts, Steady (pf fs ts) (pf' fs ts))
    (term : Tok) : ∀ (n : Nat) (fs : FieldSet) (ts : List LTok),
    Steady (bodyLoop pf term n fs ts) (bodyLoop pf' term n fs ts) := by
  intro n
  induction n with
  | zero => intro fs ts; exact .inr rfl
  | succ n ih =>
    intro fs ts
    cases ts with
    | nil => exact .inr rfl
    | cons a r =>
      cases a with
      | tok t =>
        simp only [bodyLoop]
        split
        · rcases h fs (.tok t :: r) with hx | hx
          · rw [hx]; exact .inl rfl
          · rw [hx]
            split
            · exact Steady.refl _
            · exact ih _ _
        · exact Steady.refl _
      | _ => exact .inr rfl

theorem topLoop_steady {pf pf' : FieldSet → List LTok → PR FieldSet} (h : ∀ fs ts, Steady (pf fs ts) (pf' fs ts)) :
    ∀ (n : Nat) (fs : FieldSet) (ts : List LTok), Steady (topLoop pf n fs ts) (topLoop pf' n fs ts) := by
  intro n
  induction n with
  | zero => intro fs ts; cases ts <;> exact .inr rfl
  | succ n ih =>
    intro fs ts
    cases ts with
    | nil => exact .inr rfl
    | cons a r =>
      simp only [topLoop]
      rcases h fs (a :: r) with hx | hx
      · rw [hx]; exact .inl rfl
      · rw [hx]
        split
        · exact Steady.refl _
        · exact ih _ _

theorem parseMsg_steady (env : TEnv) (S : Schema) : ∀ (k i : Nat) (ts : List LTok),
    Steady (parseMsg env S k i ts) (parseMsg env S (k + 1) i ts) := by
  intro k
  induction k with
  | zero => intro i ts; exact .inl (by simp only [parseMsg])
  | succ k ih =>
    intro i ts
    unfold parseMsg
    split
    · exact Steady.refl _
    split
    · exact bodyLoop_steady (parseField_steady ih _ _) _ _ _ _
    · exact bodyLoop_steady (parseField_steady ih _ _) _ _ _ _
    · exact Steady.refl _

theorem mergeText_steady (env : TEnv) (S : Schema) (m : DynMsg) (text : List Char) {k k' : Nat} (h : k ≤ k') :
    Steady (mergeText env S k m text) (mergeText env S k' m text) := by
  obtain ⟨n, rfl⟩ := Nat.exists_eq_add_of_le h
  clear h
  induction n with
  | zero => exact Steady.refl _
  | succ n ih =>
    rcases ih with h1 | h1
    · exact .inl h1
    rw [← h1]
    unfold mergeText mergeToks
    split
    · exact Steady.refl _
    · next md _ =>
      rcases topLoop_steady (parseField_steady (env := env) (S := S) (parseMsg_steady env S (k + n)) md m.desc)
        (lex env.parse64 text).length m.fields (lex env.parse64 text) with hx | hx
      · rw [hx]; exact .inl rfl
      · rw [show k + (n + 1) = k + n + 1 from rfl, hx]; exact .inr rfl

end Verif.Text
