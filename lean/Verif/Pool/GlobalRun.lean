import Verif.Pool.GlobalLin
/-!
From every state, every call on the global pool can be brought to its end.
-/
set_option autoImplicit false
namespace Verif.Pool.Global
open Verif.Wire Verif.Pool

variable {W : World}

theorem Steps.trans {s s1 s2 : St} {a b : List Ev} (h : Steps W s a s1) (h' : Steps W s1 b s2) :
    Steps W s (a ++ b) s2 := by
  induction h' with
  | nil => rw [List.append_nil]; exact h
  | quiet _ h1 ih => exact .quiet ih h1
  | seen _ h1 ih => rw [← List.append_assoc]; exact .seen ih h1

/-- The thread that has the mutex gives it back, or ends the process. -/
theorem release {s : St} (hd : s.dead = false) {u : Nat} (hu : (s.pc u).inside) :
    ∃ s', Steps W s [] s' ∧ (s'.dead = true ∨ s'.dead = false ∧ s'.owner = none ∧ s'.once = s.once ∧
      (∃ c r, s'.pc u = .leaving c r) ∧ ∀ i, i ≠ u → s'.pc i = s.pc i) := by
  -- from `unlocking` and `failing` on
  have hun : ∀ (s1 : St) (c : Call) (r : Resp), Steps W s [] s1 → s1.dead = false → s1.pc u = .unlocking c r → s1.once = s.once →
      (∀ i, i ≠ u → s1.pc i = s.pc i) →
      ∃ s', Steps W s [] s' ∧ (s'.dead = true ∨ s'.dead = false ∧ s'.owner = none ∧ s'.once = s.once ∧
      (∃ c r, s'.pc u = .leaving c r) ∧ ∀ i, i ≠ u → s'.pc i = s.pc i) := by
    intro s1 c r h5 h1 h2 h3 h4
    exact ⟨_, h5.quiet (.unlock s1 u c r h1 h2), .inr ⟨h1, rfl, h3, ⟨c, r, at_same _ _ _⟩,
      fun i hi => (at_other _ _ hi).trans (h4 i hi)⟩⟩
  have hfa : ∀ (s1 : St) (c : Call), Steps W s [] s1 → s1.dead = false → s1.pc u = .failing c → s1.once = s.once →
      (∀ i, i ≠ u → s1.pc i = s.pc i) →
      ∃ s', Steps W s [] s' ∧ (s'.dead = true ∨ s'.dead = false ∧ s'.owner = none ∧ s'.once = s.once ∧
      (∃ c r, s'.pc u = .leaving c r) ∧ ∀ i, i ≠ u → s'.pc i = s.pc i) := by
    intro s1 c h5 h1 h2 h3 h4
    exact ⟨_, h5.quiet (.poison s1 u c h1 h2), .inr ⟨h1, rfl, h3, ⟨c, .panic, at_same _ _ _⟩,
      fun i hi => (at_other _ _ hi).trans (h4 i hi)⟩⟩
  have hwo : ∀ (s1 : St) (c : Call) (p : Pool), Steps W s [] s1 → s1.dead = false → s1.pc u = .working c p → s1.once = s.once →
      (∀ i, i ≠ u → s1.pc i = s.pc i) →
      ∃ s', Steps W s [] s' ∧ (s'.dead = true ∨ s'.dead = false ∧ s'.owner = none ∧ s'.once = s.once ∧
      (∃ c r, s'.pc u = .leaving c r) ∧ ∀ i, i ≠ u → s'.pc i = s.pc i) := by
    intro s1 c p h5 h1 h2 h3 h4
    cases he : exec W p c with
    | ret p' r =>
      exact hun _ c r (h5.quiet (.finish s1 u c p p' r h1 h2 he)) h1 (at_same _ _ _) h3
        (fun i hi => (at_other _ _ hi).trans (h4 i hi))
    | panic =>
      exact hfa _ c (h5.quiet (.panic s1 u c p h1 h2 he)) h1 (at_same _ _ _) h3
        (fun i hi => (at_other _ _ hi).trans (h4 i hi))
    | abort => exact ⟨_, h5.quiet (.abort s1 u c p h1 h2 he), .inl rfl⟩
  cases hp : s.pc u with
  | holding c =>
    cases hb : s.poisoned with
    | true =>
      exact hfa _ c ((Steps.nil s).quiet (.refuse s u c hd hp hb)) hd (at_same _ _ _) rfl (fun i hi => at_other _ _ hi)
    | false =>
      exact hwo _ c s.pool ((Steps.nil s).quiet (.enter s u c hd hp hb)) hd (at_same _ _ _) rfl
        (fun i hi => at_other _ _ hi)
  | working c p => exact hwo s c p (.nil s) hd hp rfl (fun _ _ => rfl)
  | unlocking c r => exact hun s c r (.nil s) hd hp rfl (fun _ _ => rfl)
  | failing c => exact hfa s c (.nil s) hd hp rfl (fun _ _ => rfl)
  | idle => rw [hp] at hu; exact hu.elim
  | called => rw [hp] at hu; exact hu.elim
  | initing => rw [hp] at hu; exact hu.elim
  | locking => rw [hp] at hu; exact hu.elim
  | leaving => rw [hp] at hu; exact hu.elim

/-- A call whose thread comes to its end, without new calls. -/
def Over (W : World) (s : St) (t : Nat) : Prop :=
  ∃ es s', Steps W s es s' ∧ (s'.dead = true ∨ s'.pc t = .idle) ∧ ∀ v ∈ es, ∃ u r, v = .ret u r

theorem Over.after {s s1 : St} {t : Nat} (h : Steps W s [] s1) : Over W s1 t → Over W s t :=
  fun ⟨_, s', h', k⟩ => ⟨_, s', h.trans h', k⟩

theorem leaving_ends {s : St} (hd : s.dead = false) {t : Nat} {c : Call} {r : Resp} (hp : s.pc t = .leaving c r) :
    Over W s t :=
  ⟨_, _, (Steps.nil s).seen (.ret s t c r hd hp), .inr (at_same _ _ _), fun v hv => ⟨t, r, List.mem_singleton.mp hv⟩⟩

theorem inside_ends {s : St} (hd : s.dead = false) {t : Nat} (hp : (s.pc t).inside) : Over W s t := by
  obtain ⟨s', h, h' | ⟨h1, _, _, ⟨c, r, h2⟩, _⟩⟩ := release (W := W) hd hp
  · exact ⟨_, s', h, .inl h', nofun⟩
  · exact .after h (leaving_ends h1 h2)

theorem free_ends {s : St} (hd : s.dead = false) {t : Nat} {c : Call} (hp : s.pc t = .locking c) (ho : s.owner = none) :
    Over W s t := by
  refine .after ((Steps.nil s).quiet (.acquire s t c hd hp ho)) (inside_ends (by exact hd) ?_)
  rw [at_same]
  trivial

theorem locking_ends {s : St} {L : List Lev} {g : Seq} (hS : Sim W s L g) (hd : s.dead = false) {t : Nat} {c : Call}
    (hp : s.pc t = .locking c) : Over W s t := by
  cases ho : s.owner with
  | none => exact free_ends hd hp ho
  | some u =>
    have hu := (hS.lock u).mpr ho
    have hne : t ≠ u := by
      rintro rfl
      rw [hp] at hu
      exact hu
    obtain ⟨s', h, h' | ⟨h1, h2, _, _, h3⟩⟩ := release (W := W) hd hu
    · exact ⟨_, s', h, .inl h', nofun⟩
    · exact .after h (free_ends h1 ((h3 t hne).trans hp) h2)

theorem initing_ends {s : St} (hd : s.dead = false) {t : Nat} {c : Call} (hp : s.pc t = .initing c) :
    Over W s t :=
  .after ((Steps.nil s).quiet (.init s t c hd hp)) (free_ends (by exact hd) (at_same _ _ _) rfl)

theorem all_end {s : St} {L : List Lev} {g : Seq} (hS : Sim W s L g) (t : Nat) : Over W s t := by
  cases hd : s.dead with
  | true => exact ⟨_, s, .nil s, .inl hd, nofun⟩
  | false =>
    cases hp : s.pc t with
    | idle => exact ⟨_, s, .nil s, .inr hp, nofun⟩
    | called c =>
      cases ho : s.once with
      | new => exact .after ((Steps.nil s).quiet (.start s t c hd hp ho)) (initing_ends (by exact hd) (at_same _ _ _))
      | ready =>
        have h1 := Step.ready (W := W) s t c hd hp ho
        obtain ⟨M, g', h2, _⟩ := hS.step h1
        exact .after ((Steps.nil s).quiet h1) (locking_ends h2 hd (at_same _ _ _))
      | running u =>
        have hu := (hS.once u).mpr ho
        cases hpu : s.pc u with
        | initing c' =>
          have hne : t ≠ u := by
            rintro rfl
            rw [hp] at hpu
            cases hpu
          have h1 := Step.init (W := W) s u c' hd hpu
          obtain ⟨M, g', h2, _⟩ := hS.step h1
          have h3 := Step.ready (W := W) ({ s with once := .ready, pool := W.first, owner := none, poisoned := false }.at u (.locking c')) t c (by exact hd) ((at_other _ _ hne).trans hp) rfl
          refine .after (((Steps.nil s).quiet h1).quiet h3) (free_ends (by exact hd) (at_same _ _ _) rfl)
        | _ => rw [hpu] at hu; exact hu.elim
    | initing c => exact initing_ends hd hp
    | locking c => exact locking_ends hS hd hp
    | holding c => exact inside_ends hd (by rw [hp]; trivial)
    | working c p => exact inside_ends hd (by rw [hp]; trivial)
    | unlocking c r => exact inside_ends hd (by rw [hp]; trivial)
    | failing c => exact inside_ends hd (by rw [hp]; trivial)
    | leaving c r => exact leaving_ends hd hp

end Verif.Pool.Global
