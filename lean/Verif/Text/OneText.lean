import Verif.Text.Format
/-!
The text of a message does not depend on how deep the stack is.
-/
set_option autoImplicit false
namespace Verif.Text
open Verif.Wire Verif.Dyn Verif.Pool

/-- What the first gives, the second gives. -/
def Gives {α : Type} (x y : Option α) : Prop := ∀ s, x = some s → y = some s

theorem Gives.refl {α : Type} (x : Option α) : Gives x x := fun _ h => h

theorem Gives.map {α β : Type} {x y : Option α} (h : Gives x y) (g : α → β) : Gives (x.map g) (y.map g) := by
  intro s hs
  obtain ⟨a, ha, rfl⟩ := Option.map_eq_some_iff.1 hs
  rw [h a ha]
  rfl

theorem fmtAll_gives {α : Type} {f g : α → Option (List Char)} (h : ∀ x, Gives (f x) (g x)) :
    ∀ xs, Gives (fmtAll f xs) (fmtAll g xs)
  | [] => Gives.refl _
  | x :: r => by
    intro s hs
    simp only [fmtAll] at hs ⊢
    split at hs
    · rename_i a b ha hb
      rw [h x a ha, fmtAll_gives h r b hb]
      exact hs
    · cases hs

theorem fmtDelimited_gives {α : Type} {o : FOpts} {ind : Nat} {f g : α → Option (List Char)}
    (h : ∀ x, Gives (f x) (g x)) (xs : List α) : Gives (fmtDelimited o ind f xs) (fmtDelimited o ind g xs) :=
  (fmtAll_gives h xs).map _

theorem fmtList_gives {α : Type} {o : FOpts} {f g : α → Option (List Char)}
    (h : ∀ x, Gives (f x) (g x)) (xs : List α) : Gives (fmtList o f xs) (fmtList o g xs) :=
  (fmtAll_gives h xs).map _

theorem braced_gives {o : FOpts} {ind : Nat} {f g : Nat → Option (List Char)} (h : ∀ i, Gives (f i) (g i)) :
    Gives (braced o ind f) (braced o ind g) := by
  unfold braced
  split
  · exact (h _).map _
  · exact (h _).map _

theorem fmtUnknown_gives (o : FOpts) : ∀ (k ind : Nat) (u : UField),
    Gives (fmtUnknown o k ind u) (fmtUnknown o (k + 1) ind u)
  | 0, _, _ => by intro s h; cases h
  | k + 1, ind, (n, u) => by
    have hset : ∀ us : USet, Gives
        ((if us.isEmpty then some ['{', '}']
          else braced o ind (fun ind => fmtDelimited o ind (fmtUnknown o k ind) us)).map (fun s => decDigits n ++ (pad o ++ s)))
        ((if us.isEmpty then some ['{', '}']
          else braced o ind (fun ind => fmtDelimited o ind (fmtUnknown o (k + 1) ind) us)).map
            (fun s => decDigits n ++ (pad o ++ s))) := by
      intro us
      apply Gives.map
      split
      · exact Gives.refl _
      · exact braced_gives (fun i => fmtDelimited_gives (fun x => fmtUnknown_gives o k i x) us)
    cases u with
    | varint v => exact Gives.refl _
    | thirtyTwo v => exact Gives.refl _
    | sixtyFour v => exact Gives.refl _
    | group us => unfold fmtUnknown; exact hset us
    | len b =>
      unfold fmtUnknown
      simp only
      cases (if b.isEmpty then none else decodeUSet b) with
      | none => exact Gives.refl _
      | some us => exact hset us

section
variable {S : Schema} {o : FOpts} {k ind : Nat} {val val' : Value → Option Kind → Option (List Char)}

theorem fmtItem_gives (h : ∀ v kd, Gives (val v kd) (val' v kd)) (it : Item) :
    Gives (fmtItem S o k ind val it) (fmtItem S o (k + 1) ind val' it) := by
  intro s hs
  cases it with
  | field f v =>
    simp only [fmtItem] at hs ⊢
    split at hs
    · rename_i a b ha hb
      rw [ha, h _ _ b hb]
      exact hs
    · cases hs
  | ext f v =>
    simp only [fmtItem] at hs ⊢
    split at hs
    · rename_i b hb
      rw [h _ _ b hb]
      exact hs
    · cases hs
  | unknown us =>
    simp only [fmtItem] at hs ⊢
    exact fmtDelimited_gives (fun x => fmtUnknown_gives o k ind x) us s hs

theorem fmtMsg_gives (h : ∀ v kd, Gives (val v kd) (val' v kd)) (md : MsgDesc) (d : Nat) (fs : FieldSet) :
    Gives (fmtMsg S o k ind val md d fs) (fmtMsg S o (k + 1) ind val' md d fs) := by
  intro s hs
  unfold fmtMsg at hs ⊢
  split at hs
  · cases hs
  · split at hs
    · rename_i b hb
      rw [h _ _ b hb]
      exact hs
    · cases hs
  · unfold fmtFields at hs ⊢
    split at hs
    · cases hs
    · exact fmtDelimited_gives (fun x => fmtItem_gives h x) _ s hs

theorem fmtEntry_gives {f g : Nat → Value → Option (List Char)} (h : ∀ i v, Gives (f i v) (g i v))
    (p : MapKey × Value) : Gives (fmtEntry o ind f p) (fmtEntry o ind g p) := by
  obtain ⟨key, v⟩ := p
  simp only [fmtEntry]
  split
  · exact (h _ _).map _
  · exact (h _ _).map _
end

theorem fmtVal_gives (env : TEnv) (S : Schema) (o : FOpts) : ∀ (k ind : Nat) (v : Value) (kind : Option Kind),
    Gives (fmtVal env S o k ind v kind) (fmtVal env S o (k + 1) ind v kind) := by
  intro k
  induction k with
  | zero => intro ind v kind s h; simp only [fmtVal] at h; cases h
  | succ k ih =>
    intro ind v kind s hs
    cases v with
    | msg d fs =>
      simp only [fmtVal] at hs ⊢
      split at hs
      · cases hs
      · split at hs
        · cases hs
        · split at hs
          · rename_i he
            rw [if_pos he]
            exact hs
          · rename_i he
            rw [if_neg he]
            exact braced_gives (fun i => fmtMsg_gives (fun v kd => ih i v kd) _ _ _) s hs
    | list vs =>
      simp only [fmtVal] at hs ⊢
      exact fmtList_gives (fun v => ih ind v kind) vs s hs
    | map kvs =>
      simp only [fmtVal] at hs ⊢
      split at hs
      · cases hs
      · exact fmtList_gives (fun p => fmtEntry_gives (fun i v => ih i v _) p) kvs s hs
    | _ =>
      simp only [fmtVal] at hs ⊢
      exact hs

theorem toText_gives (env : TEnv) (S : Schema) (o : FOpts) (m : DynMsg) {k k' : Nat} (h : k ≤ k') :
    Gives (toText env S o k m) (toText env S o k' m) := by
  obtain ⟨j, rfl⟩ := Nat.exists_eq_add_of_le h
  clear h
  induction j with
  | zero => exact Gives.refl _
  | succ j ih =>
    intro s hs
    have h1 := ih s hs
    unfold toText at h1 ⊢
    split at h1
    · cases h1
    · exact fmtMsg_gives (fun v kd => fmtVal_gives env S o (k + j) 0 v kd) _ _ _ s h1

theorem fmtVal_gives_le (env : TEnv) (S : Schema) (o : FOpts) (ind : Nat) (v : Value) (kind : Option Kind)
    {k k' : Nat} (h : k ≤ k') : Gives (fmtVal env S o k ind v kind) (fmtVal env S o k' ind v kind) := by
  obtain ⟨j, rfl⟩ := Nat.exists_eq_add_of_le h
  clear h
  induction j with
  | zero => exact Gives.refl _
  | succ j ih => exact fun s hs => fmtVal_gives env S o (k + j) ind v kind s (ih s hs)

theorem fmtUnknown_gives_le (o : FOpts) (ind : Nat) (u : UField) {k k' : Nat} (h : k ≤ k') :
    Gives (fmtUnknown o k ind u) (fmtUnknown o k' ind u) := by
  obtain ⟨j, rfl⟩ := Nat.exists_eq_add_of_le h
  clear h
  induction j with
  | zero => exact Gives.refl _
  | succ j ih => exact fun s hs => fmtUnknown_gives o (k + j) ind u s (ih s hs)

end Verif.Text
