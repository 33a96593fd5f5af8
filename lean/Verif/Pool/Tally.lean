import Verif.Pool.Batch
/-!
Consequences of the numbering: the callbacks of each kind are numbered without gaps or
repetitions.
-/
set_option autoImplicit false
namespace Verif.Pool
open Verif.Dyn

/-- `sel` picks the callbacks counted by `cnt`, with their index. -/
structure Tally (o : Offs) (sel : Event → Option Nat) (cnt : Cnt → Nat) : Prop where
  hit : ∀ c c' e i, c.step o e = some c' → sel e = some i → i = cnt c ∧ cnt c' = cnt c + 1
  miss : ∀ c c' e, c.step o e = some c' → sel e = none → cnt c' = cnt c

section
variable {o : Offs} {sel : Event → Option Nat} {cnt : Cnt → Nat}

theorem Tally.le (t : Tally o sel cnt) : ∀ {es : List Event} {c c' : Cnt},
    Cnt.run o c es = some c' → cnt c ≤ cnt c'
  | [], c, c', h => by simp only [Cnt.run, Option.some.injEq] at h; subst h; exact Nat.le_refl _
  | e :: es, c, c', h => by
    simp only [Cnt.run] at h
    cases hs : c.step o e with
    | none => simp [hs] at h
    | some c1 =>
      simp only [hs, Option.bind_some] at h
      have := t.le h
      cases hsel : sel e with
      | none => have := t.miss _ _ _ hs hsel; omega
      | some i => have := t.hit _ _ _ _ hs hsel; omega

theorem Tally.mem (t : Tally o sel cnt) : ∀ {es : List Event} {c c' : Cnt} {e : Event} {i : Nat},
    Cnt.run o c es = some c' → e ∈ es → sel e = some i → cnt c ≤ i ∧ i < cnt c'
  | [], _, _, _, _, _, he, _ => by simp at he
  | x :: es, c, c', e, i, h, he, hi => by
    simp only [Cnt.run] at h
    cases hs : c.step o x with
    | none => simp [hs] at h
    | some c1 =>
      simp only [hs, Option.bind_some] at h
      have hle := t.le h
      rcases List.mem_cons.mp he with rfl | he
      · have := t.hit _ _ _ _ hs hi; omega
      · have := t.mem h he hi
        cases hsel : sel x with
        | none => have := t.miss _ _ _ hs hsel; omega
        | some j => have := t.hit _ _ _ _ hs hsel; omega

theorem Tally.ex (t : Tally o sel cnt) : ∀ {es : List Event} {c c' : Cnt} {i : Nat},
    Cnt.run o c es = some c' → cnt c ≤ i → i < cnt c' → ∃ e ∈ es, sel e = some i
  | [], c, c', i, h, h1, h2 => by
    simp only [Cnt.run, Option.some.injEq] at h; subst h; omega
  | x :: es, c, c', i, h, h1, h2 => by
    simp only [Cnt.run] at h
    cases hs : c.step o x with
    | none => simp [hs] at h
    | some c1 =>
      simp only [hs, Option.bind_some] at h
      cases hsel : sel x with
      | none =>
        have := t.miss _ _ _ hs hsel
        obtain ⟨e, he, hi⟩ := t.ex h (by omega) h2
        exact ⟨e, List.mem_cons_of_mem _ he, hi⟩
      | some j =>
        have hh := t.hit _ _ _ _ hs hsel
        by_cases hij : i = j
        · exact ⟨x, by simp, by rw [hsel, hij]⟩
        · obtain ⟨e, he, hi⟩ := t.ex (i := i) h (by omega) h2
          exact ⟨e, List.mem_cons_of_mem _ he, hi⟩

theorem Tally.uniq (t : Tally o sel cnt) : ∀ {es : List Event} {c c' : Cnt} {e e' : Event} {i : Nat},
    Cnt.run o c es = some c' → e ∈ es → e' ∈ es → sel e = some i → sel e' = some i → e = e'
  | [], _, _, _, _, _, _, he, _, _, _ => by simp at he
  | x :: es, c, c', e, e', i, h, he, he', hi, hi' => by
    simp only [Cnt.run] at h
    cases hs : c.step o x with
    | none => simp [hs] at h
    | some c1 =>
      simp only [hs, Option.bind_some] at h
      rcases List.mem_cons.mp he with hx | hm <;> rcases List.mem_cons.mp he' with hx' | hm'
      · rw [hx, hx']
      · subst hx
        have := t.hit _ _ _ _ hs hi
        have := t.mem h hm' hi'
        omega
      · subst hx'
        have := t.hit _ _ _ _ hs hi'
        have := t.mem h hm hi
        omega
      · exact t.uniq h hm hm' hi hi'
end

def selFile : Event → Option Nat
  | .file _ i _ => some i
  | _ => none
def selMessage : Event → Option Nat
  | .message _ _ _ _ i _ => some i
  | _ => none
def selEnum : Event → Option Nat
  | .enum _ _ _ _ i _ => some i
  | _ => none
def selService : Event → Option Nat
  | .service _ _ _ i _ => some i
  | _ => none
def selExt : Event → Option Nat
  | .extension _ _ _ _ i _ => some i
  | _ => none
def selField (k : Nat) : Event → Option Nat
  | .field _ _ _ j i _ => if j = k then some i else none
  | _ => none
def selOneof (k : Nat) : Event → Option Nat
  | .oneof _ _ _ j i _ => if j = k then some i else none
  | _ => none
def selValue (k : Nat) : Event → Option Nat
  | .enumValue _ _ _ j i _ => if j = k then some i else none
  | _ => none
def selMethod (k : Nat) : Event → Option Nat
  | .method _ _ _ j i _ => if j = k then some i else none
  | _ => none

theorem tally_file (o : Offs) : Tally o selFile Cnt.file where
  hit c c' e i h hs := by
    cases e <;> simp only [selFile, Option.some.injEq, reduceCtorEq] at hs
    simp only [Cnt.step] at h; split at h <;> cases h; subst hs; simp_all
  miss c c' e h hs := by
    cases e <;> simp only [selFile, reduceCtorEq] at hs <;> simp only [Cnt.step] at h <;>
      split at h <;> cases h <;> rfl
theorem tally_message (o : Offs) : Tally o selMessage Cnt.message where
  hit c c' e i h hs := by
    cases e <;> simp only [selMessage, Option.some.injEq, reduceCtorEq] at hs
    simp only [Cnt.step] at h; split at h <;> cases h; subst hs; simp_all
  miss c c' e h hs := by
    cases e <;> simp only [selMessage, reduceCtorEq] at hs <;> simp only [Cnt.step] at h <;>
      split at h <;> cases h <;> rfl
theorem tally_enum (o : Offs) : Tally o selEnum Cnt.enum where
  hit c c' e i h hs := by
    cases e <;> simp only [selEnum, Option.some.injEq, reduceCtorEq] at hs
    simp only [Cnt.step] at h; split at h <;> cases h; subst hs; simp_all
  miss c c' e h hs := by
    cases e <;> simp only [selEnum, reduceCtorEq] at hs <;> simp only [Cnt.step] at h <;>
      split at h <;> cases h <;> rfl
theorem tally_service (o : Offs) : Tally o selService Cnt.service where
  hit c c' e i h hs := by
    cases e <;> simp only [selService, Option.some.injEq, reduceCtorEq] at hs
    simp only [Cnt.step] at h; split at h <;> cases h; subst hs; simp_all
  miss c c' e h hs := by
    cases e <;> simp only [selService, reduceCtorEq] at hs <;> simp only [Cnt.step] at h <;>
      split at h <;> cases h <;> rfl
theorem tally_ext (o : Offs) : Tally o selExt Cnt.extension where
  hit c c' e i h hs := by
    cases e <;> simp only [selExt, Option.some.injEq, reduceCtorEq] at hs
    simp only [Cnt.step] at h; split at h <;> cases h; subst hs; simp_all
  miss c c' e h hs := by
    cases e <;> simp only [selExt, reduceCtorEq] at hs <;> simp only [Cnt.step] at h <;>
      split at h <;> cases h <;> rfl
theorem tally_field (o : Offs) (k : Nat) : Tally o (selField k) (fun c => c.fields k) where
  hit c c' e i h hs := by
    cases e <;> simp only [selField, reduceCtorEq] at hs
    split at hs
    · next hj =>
      cases hs
      simp only [Cnt.step] at h; split at h
      · next hi => cases h; subst hj; exact ⟨hi.1, by simp [bump]⟩
      · cases h
    · cases hs
  miss c c' e h hs := by
    cases e <;> simp only [selField] at hs <;> simp only [Cnt.step] at h <;> split at h <;> cases h
    all_goals first
      | rfl
      | (split at hs
         · cases hs
         · next hj => simp only [bump]; rw [if_neg (fun hh => hj hh.symm)])
theorem tally_oneof (o : Offs) (k : Nat) : Tally o (selOneof k) (fun c => c.oneofs k) where
  hit c c' e i h hs := by
    cases e <;> simp only [selOneof, reduceCtorEq] at hs
    split at hs
    · next hj =>
      cases hs
      simp only [Cnt.step] at h; split at h
      · next hi => cases h; subst hj; exact ⟨hi.1, by simp [bump]⟩
      · cases h
    · cases hs
  miss c c' e h hs := by
    cases e <;> simp only [selOneof] at hs <;> simp only [Cnt.step] at h <;> split at h <;> cases h
    all_goals first
      | rfl
      | (split at hs
         · cases hs
         · next hj => simp only [bump]; rw [if_neg (fun hh => hj hh.symm)])
theorem tally_value (o : Offs) (k : Nat) : Tally o (selValue k) (fun c => c.values k) where
  hit c c' e i h hs := by
    cases e <;> simp only [selValue, reduceCtorEq] at hs
    split at hs
    · next hj =>
      cases hs
      simp only [Cnt.step] at h; split at h
      · next hi => cases h; subst hj; exact ⟨hi.1, by simp [bump]⟩
      · cases h
    · cases hs
  miss c c' e h hs := by
    cases e <;> simp only [selValue] at hs <;> simp only [Cnt.step] at h <;> split at h <;> cases h
    all_goals first
      | rfl
      | (split at hs
         · cases hs
         · next hj => simp only [bump]; rw [if_neg (fun hh => hj hh.symm)])
theorem tally_method (o : Offs) (k : Nat) : Tally o (selMethod k) (fun c => c.methods k) where
  hit c c' e i h hs := by
    cases e <;> simp only [selMethod, reduceCtorEq] at hs
    split at hs
    · next hj =>
      cases hs
      simp only [Cnt.step] at h; split at h
      · next hi => cases h; subst hj; exact ⟨hi.1, by simp [bump]⟩
      · cases h
    · cases hs
  miss c c' e h hs := by
    cases e <;> simp only [selMethod] at hs <;> simp only [Cnt.step] at h <;> split at h <;> cases h
    all_goals first
      | rfl
      | (split at hs
         · cases hs
         · next hj => simp only [bump]; rw [if_neg (fun hh => hj hh.symm)])

end Verif.Pool
