import Verif.Derive.Runs
/-!
From every state, every call of `descriptor()` can be brought to its end.
-/
set_option autoImplicit false
namespace Verif.Derive
open Verif.Wire Verif.Dyn Verif.Pool
open Verif.Pool.Global (World Call Resp)

variable {W : World} {T : Nat → Ty} {p0 : Pool}

theorem Steps.trans {s s1 s2 : St} {a b : List Ev} (h : Steps W T s a s1) (h' : Steps W T s1 b s2) :
    Steps W T s (a ++ b) s2 := by
  induction h' with
  | nil => rw [List.append_nil]; exact h
  | quiet _ h1 ih => exact .quiet ih h1
  | seen _ h1 ih => rw [← List.append_assoc]; exact .seen ih h1

theorem at_pc (s : St) (t : Nat) (x : Pc) : (s.at t x).pc t = x := if_pos rfl
theorem at_pc' (s : St) {t i : Nat} (x : Pc) (h : i ≠ t) : (s.at t x).pc i = s.pc i := if_neg h

/-- What an answer of the global pool makes of a thread. -/
inductive Next : Pc → Pc → Prop where
  | direct : Next .direct .idle
  | loaded (k : Nat) : Next (.loading k) (.loaded k)
  | failed (k : Nat) (o : Out) : Next (.loading k) (.leaving k o)
  | got (k : Nat) (o : Out) : Next (.getting k) (.leaving k o)

/-- The global pool moves on by itself. -/
structure Goes (s s' : St) : Prop where
  pc : ∀ i, s'.pc i = s.pc i ∨ Next (s.pc i) (s'.pc i)
  init : ∀ k, s'.init k = s.init k ∨ s'.init k = .complete ∨ s'.init k = .poisoned

theorem Goes.refl (s : St) : Goes s s := ⟨fun _ => .inl rfl, fun _ => .inl rfl⟩

theorem Next.once {x y z : Pc} (h : Next x y) (h' : Next y z) : False := by
  cases h <;> cases h'

theorem Goes.trans {s s1 s2 : St} (h : Goes s s1) (h' : Goes s1 s2) : Goes s s2 where
  pc i := by
    rcases h.pc i with e | e
    · rw [← e]; exact h'.pc i
    · rcases h'.pc i with e' | e'
      · rw [e']; exact .inr e
      · exact (e.once e').elim
  init k := by
    rcases h'.init k with e | e
    · rw [e]; exact h.init k
    · exact .inr e

/-- A step of the global pool that is no call is a step. -/
theorem lift {es : List Ev} {s : St} (h : Steps W T (start p0) es s) {o : Option Global.Ev} {g : Global.St}
    (hq : Global.Step W s.g o g) (ho : ∀ v, o = some v → ∃ u r, v = .ret u r) :
    ∃ es' s', Steps W T s es' s' ∧ s'.g = g ∧ Goes s s' := by
  have go : ∀ (t : Nat) (x : Pc) (ini : Nat → Init), Next (s.pc t) x →
      (∀ k, ini k = s.init k ∨ ini k = .complete ∨ ini k = .poisoned) →
      Goes s ⟨g, ini, fun i => if i = t then x else s.pc i⟩ := by
    intro t x ini hx hi
    refine ⟨fun i => ?_, hi⟩
    by_cases hit : i = t
    · subst hit
      simp only [if_pos]
      exact .inr hx
    · simp only [if_neg hit]
      exact .inl trivial
  cases o with
  | none => exact ⟨[], _, (Steps.nil s).quiet (.quiet s g hq), rfl, fun _ => .inl rfl, fun _ => .inl rfl⟩
  | some v =>
    obtain ⟨t, r, rfl⟩ := ho v rfl
    obtain ⟨hne, _, _⟩ := ret_pc hq
    have hpc := h.inv.pc t
    cases hp : s.pc t with
    | idle => rw [hp] at hpc; exact absurd hpc hne
    | direct => exact ⟨_, _, (Steps.nil s).seen (.back s t r g hp hq), rfl, go t _ _ (by rw [hp]; exact .direct) (fun _ => .inl rfl)⟩
    | entered k => rw [hp] at hpc; exact absurd hpc hne
    | starting k => rw [hp] at hpc; exact absurd hpc.1 hne
    | loading k =>
      have hset : ∀ x : Init, x = .complete ∨ x = .poisoned →
          ∀ i, (if i = k then x else s.init i) = s.init i ∨ (if i = k then x else s.init i) = .complete ∨
            (if i = k then x else s.init i) = .poisoned := by
        intro x hx i
        by_cases hi : i = k
        · rw [if_pos hi]; exact .inr hx
        · rw [if_neg hi]; exact .inl rfl
      have hr : r = .done [] ∨ r ≠ .done [] := Classical.em _
      rcases hr with rfl | hr
      · exact ⟨_, _, (Steps.nil s).seen (.ok s t k g hp hq), rfl, go t _ _ (by rw [hp]; exact .loaded k) (hset _ (.inl rfl))⟩
      · exact ⟨_, _, (Steps.nil s).seen (.bad s t k r g hp hr hq), rfl, go t _ _ (by rw [hp]; exact .failed k _) (hset _ (.inr rfl))⟩
    | loaded k => rw [hp] at hpc; exact absurd hpc.1 hne
    | getting k =>
      have hr : (∃ p, r = .pool p) ∨ ∀ p, r ≠ .pool p := by
        cases r with
        | pool p => exact .inl ⟨p, rfl⟩
        | done => exact .inr nofun
        | invalid => exact .inr nofun
        | panic => exact .inr nofun
      rcases hr with ⟨p, rfl⟩ | hr
      · exact ⟨_, _, (Steps.nil s).seen (.found s t k p g hp hq), rfl, go t _ _ (by rw [hp]; exact .got k _) (fun _ => .inl rfl)⟩
      · exact ⟨_, _, (Steps.nil s).seen (.lost s t k r g hp hr hq), rfl, go t _ _ (by rw [hp]; exact .got k _) (fun _ => .inl rfl)⟩
    | leaving k o => rw [hp] at hpc; exact absurd hpc.1 hne

theorem lifts {es : List Ev} {s : St} (h : Steps W T (start p0) es s) {G : List Global.Ev} {g0 g : Global.St}
    (hg : g0 = s.g) (hq : Global.Steps W g0 G g) (hG : ∀ v ∈ G, ∃ u r, v = .ret u r) :
    ∃ es' s', Steps W T s es' s' ∧ s'.g = g ∧ Goes s s' := by
  induction hq with
  | nil => exact ⟨[], s, .nil s, hg.symm, .refl s⟩
  | quiet _ h1 ih =>
    obtain ⟨es1, s1, k1, k2, k3⟩ := ih hG
    obtain ⟨es2, s2, j1, j2, j3⟩ := lift (h.trans k1) (by rw [k2]; exact h1) (fun v hv => by cases hv)
    exact ⟨_, s2, k1.trans j1, j2, k3.trans j3⟩
  | seen _ h1 ih =>
    obtain ⟨es1, s1, k1, k2, k3⟩ := ih (fun v hv => hG v (List.mem_append_left _ hv))
    obtain ⟨es2, s2, j1, j2, j3⟩ := lift (h.trans k1) (by rw [k2]; exact h1)
      (fun v hv => by cases hv; exact hG _ (List.mem_append_right _ (List.mem_singleton.mpr rfl)))
    exact ⟨_, s2, k1.trans j1, j2, k3.trans j3⟩

/-- A call on the global pool comes to its end. -/
theorem wait {es : List Ev} {s : St} (h : Steps W T (start p0) es s) (t : Nat) :
    ∃ es' s', Steps W T s es' s' ∧ (s'.g.dead = true ∨ s'.g.pc t = .idle) ∧ Goes s s' := by
  obtain ⟨L, q, hS, _⟩ := Global.Sim.steps h.global
  obtain ⟨G, g, k1, k2, k3⟩ := Global.all_end hS t
  obtain ⟨es', s', j1, j2, j3⟩ := lifts h rfl k1 k3
  exact ⟨es', s', j1, by rw [j2]; exact k2, j3⟩

/-- `descriptor()` comes to its end in thread `t`. -/
def Over (W : World) (T : Nat → Ty) (s : St) (t : Nat) : Prop :=
  ∃ es s', Steps W T s es s' ∧ (s'.g.dead = true ∨ s'.pc t = .idle)

theorem Over.after {s s1 : St} {es : List Ev} {t : Nat} (h : Steps W T s es s1) : Over W T s1 t → Over W T s t :=
  fun ⟨_, s', h', k⟩ => ⟨_, s', h.trans h', k⟩

theorem Over.dead {s : St} {t : Nat} (h : s.g.dead = true) : Over W T s t := ⟨[], s, .nil s, .inl h⟩

theorem leaving_ends {s : St} {t k : Nat} {o : Out} (hp : s.pc t = .leaving k o) : Over W T s t := by
  cases hd : s.g.dead with
  | true => exact .dead hd
  | false => exact ⟨_, _, (Steps.nil s).seen (.leave s t k o hd hp), .inr (at_pc _ _ _)⟩

theorem getting_ends {es : List Ev} {s : St} (h : Steps W T (start p0) es s) {t k : Nat} (hp : s.pc t = .getting k) :
    Over W T s t := by
  obtain ⟨es', s', k1, k2 | k2, k3⟩ := wait h t
  · exact .after k1 (.dead k2)
  · refine .after k1 ?_
    rcases k3.pc t with e | e
    · have := (h.trans k1).inv.pc t
      rw [e, hp] at this
      exact absurd k2 this.1
    · rw [hp] at e
      generalize hx : s'.pc t = x at e
      cases e with
      | got _ o => exact leaving_ends hx

theorem loaded_ends {es : List Ev} {s : St} (h : Steps W T (start p0) es s) {t k : Nat} (hp : s.pc t = .loaded k) :
    Over W T s t := by
  cases hd : s.g.dead with
  | true => exact .dead hd
  | false =>
    have hi := h.inv.pc t
    rw [hp] at hi
    have h1 := (Steps.nil (W := W) (T := T) s).seen (.get s t k _ hp (.call s.g t .get hd hi.1))
    exact .after h1 (getting_ends (h.trans h1) (at_pc _ _ _))

/-- The closure comes to its end. -/
theorem closure_ends {es : List Ev} {s : St} (h : Steps W T (start p0) es s) {t k : Nat} (hp : (s.pc t).runs k) :
    ∃ es' s', Steps W T s es' s' ∧ (s'.g.dead = true ∨
      ((s'.pc t = .loaded k ∨ ∃ o, s'.pc t = .leaving k o) ∧
        (∀ i k', s.pc i = .entered k' → s'.pc i = .entered k') ∧
        ∀ k, s'.init k = s.init k ∨ s'.init k = .complete ∨ s'.init k = .poisoned)) := by
  have hload : ∀ {es1 : List Ev} {s1 : St}, Steps W T (start p0) es1 s1 → s1.pc t = .loading k →
      ∃ es' s', Steps W T s1 es' s' ∧ (s'.g.dead = true ∨
      ((s'.pc t = .loaded k ∨ ∃ o, s'.pc t = .leaving k o) ∧
        (∀ i k', s1.pc i = .entered k' → s'.pc i = .entered k') ∧
        ∀ k, s'.init k = s1.init k ∨ s'.init k = .complete ∨ s'.init k = .poisoned)) := by
    intro es1 s1 h1 hp1
    obtain ⟨es', s', k1, k2 | k2, k3⟩ := wait h1 t
    · exact ⟨es', s', k1, .inl k2⟩
    · refine ⟨es', s', k1, .inr ⟨?_, fun i k' hi => ?_, k3.init⟩⟩
      · rcases k3.pc t with e | e
        · have := (h1.trans k1).inv.pc t
          rw [e, hp1] at this
          exact absurd k2 this.1
        · rw [hp1] at e
          generalize hx : s'.pc t = x at e
          cases e with
          | loaded => exact .inl rfl
          | failed _ o => exact .inr ⟨o, rfl⟩
      · rcases k3.pc i with e | e
        · rw [e]; exact hi
        · rw [hi] at e; cases e
  cases hd : s.g.dead with
  | true => exact ⟨[], s, .nil s, .inl hd⟩
  | false =>
    cases hx : s.pc t with
    | starting k' =>
      rw [hx] at hp
      obtain rfl : k = k' := (show k' = k from hp).symm
      have hi := h.inv.pc t
      rw [hx] at hi
      have h1 := (Steps.nil (W := W) (T := T) s).seen (.load s t k _ hx (.call s.g t _ hd hi.1))
      obtain ⟨es', s', k1, k2⟩ := hload (h.trans h1) (at_pc _ _ _)
      refine ⟨_, s', h1.trans k1, ?_⟩
      rcases k2 with k2 | ⟨k2, k3, k4⟩
      · exact .inl k2
      · refine .inr ⟨k2, fun i j hj => k3 i j ?_, k4⟩
        have hne : i ≠ t := fun e => by rw [e, hx] at hj; cases hj
        rw [at_pc' _ _ hne]
        exact hj
    | loading k' =>
      rw [hx] at hp
      cases (show k' = k from hp)
      exact hload h hx
    | idle => rw [hx] at hp; exact hp.elim
    | direct => rw [hx] at hp; exact hp.elim
    | entered => rw [hx] at hp; exact hp.elim
    | loaded => rw [hx] at hp; exact hp.elim
    | getting => rw [hx] at hp; exact hp.elim
    | leaving => rw [hx] at hp; exact hp.elim

theorem runs_ends {es : List Ev} {s : St} (h : Steps W T (start p0) es s) {t k : Nat} (hp : (s.pc t).runs k) :
    Over W T s t := by
  obtain ⟨es', s', k1, k2 | ⟨k2 | ⟨o, k2⟩, _⟩⟩ := closure_ends h hp
  · exact .after k1 (.dead k2)
  · exact .after k1 (loaded_ends (h.trans k1) k2)
  · exact .after k1 (leaving_ends k2)

/-- A thread before `call_once` when nobody runs the closure. -/
theorem entered_ends {es : List Ev} {s : St} (h : Steps W T (start p0) es s) {t k : Nat} (hp : s.pc t = .entered k)
    (hn : ∀ u, s.init k ≠ .running u) : Over W T s t := by
  cases hd : s.g.dead with
  | true => exact .dead hd
  | false =>
    cases hi : s.init k with
    | new =>
      have h1 := (Steps.nil (W := W) (T := T) s).quiet (.claim s t k hd hp hi)
      exact .after h1 (runs_ends (h.trans h1) (k := k) (by rw [at_pc]; rfl))
    | running u => exact absurd hi (hn u)
    | complete =>
      have h1 := (Steps.nil (W := W) (T := T) s).quiet (.fast s t k hd hp hi)
      exact .after h1 (loaded_ends (h.trans h1) (at_pc _ _ _))
    | poisoned =>
      have h1 := (Steps.nil (W := W) (T := T) s).quiet (.spoilt s t k hd hp hi)
      exact .after h1 (leaving_ends (at_pc _ _ _))

theorem all_end {es : List Ev} {s : St} (h : Steps W T (start p0) es s) (t : Nat) : Over W T s t := by
  cases hp : s.pc t with
  | idle => exact ⟨[], s, .nil s, .inr hp⟩
  | direct =>
    obtain ⟨es', s', k1, k2 | k2, k3⟩ := wait h t
    · exact .after k1 (.dead k2)
    · refine ⟨es', s', k1, .inr ?_⟩
      rcases k3.pc t with e | e
      · have := (h.trans k1).inv.pc t
        rw [e, hp] at this
        exact absurd k2 this
      · rw [hp] at e
        generalize hx : s'.pc t = x at e
        cases e with
        | direct => rfl
  | entered k =>
    by_cases hr : ∃ u, s.init k = .running u
    · obtain ⟨u, hu⟩ := hr
      obtain ⟨es', s', k1, k2 | ⟨k2, k3, k4⟩⟩ := closure_ends h (h.inv.run k u hu)
      · exact .after k1 (.dead k2)
      · refine .after k1 (entered_ends (h.trans k1) (k3 t k hp) fun v hv => ?_)
        rcases k4 k with e | e | e
        · have := (h.trans k1).inv.run k u (by rw [e]; exact hu)
          rcases k2 with k2 | ⟨o, k2⟩ <;> rw [k2] at this <;> exact this
        · rw [e] at hv; cases hv
        · rw [e] at hv; cases hv
    · exact entered_ends h hp (fun u hu => hr ⟨u, hu⟩)
  | starting k => exact runs_ends h (k := k) (by rw [hp]; rfl)
  | loading k => exact runs_ends h (k := k) (by rw [hp]; rfl)
  | loaded k => exact loaded_ends h hp
  | getting k => exact getting_ends h hp
  | leaving k o => exact leaving_ends hp

end Verif.Derive
