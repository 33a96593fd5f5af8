import Verif.Derive.Machine
/-!
The invariant of `Derive/Machine`.
-/
set_option autoImplicit false
namespace Verif.Derive
open Verif.Wire Verif.Dyn Verif.Pool
open Verif.Pool.Global (World Call Resp Sim Does at_same at_other)

variable {W : World} {T : Nat → Ty}

/-! ### Steps of the global pool -/

theorem quiet_idle {g g' : Global.St} (h : Global.Step W g none g') (i : Nat) : g'.pc i = .idle ↔ g.pc i = .idle := by
  have key : ∀ (g1 : Global.St) (t : Nat) (x : Global.Pc), g1.pc = g.pc → g.pc t ≠ .idle → x ≠ .idle →
      ((g1.at t x).pc i = .idle ↔ g.pc i = .idle) := by
    intro g1 t x h1 h2 h3
    by_cases hi : i = t
    · subst hi
      rw [at_same]
      exact iff_of_false h3 h2
    · rw [at_other _ _ hi, h1]
  cases h with
  | ready t c _ hp => exact key _ t _ rfl (by rw [hp]; nofun) nofun
  | start t c _ hp => exact key _ t _ rfl (by rw [hp]; nofun) nofun
  | init t c _ hp => exact key _ t _ rfl (by rw [hp]; nofun) nofun
  | acquire t c _ hp => exact key _ t _ rfl (by rw [hp]; nofun) nofun
  | refuse t c _ hp => exact key _ t _ rfl (by rw [hp]; nofun) nofun
  | enter t c _ hp => exact key _ t _ rfl (by rw [hp]; nofun) nofun
  | torn => exact Iff.rfl
  | finish t c p p' r _ hp => exact key _ t _ rfl (by rw [hp]; nofun) nofun
  | panic t c p _ hp => exact key _ t _ rfl (by rw [hp]; nofun) nofun
  | abort => exact Iff.rfl
  | unlock t c r _ hp => exact key _ t _ rfl (by rw [hp]; nofun) nofun
  | poison t c _ hp => exact key _ t _ rfl (by rw [hp]; nofun) nofun

theorem call_pc {g g' : Global.St} {t : Nat} {c : Call} (h : Global.Step W g (some (.call t c)) g') :
    g.pc t = .idle ∧ g'.pc t ≠ .idle ∧ ∀ i, i ≠ t → g'.pc i = g.pc i := by
  cases h with
  | call _ _ _ hp => exact ⟨hp, by rw [at_same]; nofun, fun i hi => at_other _ _ hi⟩

theorem ret_pc {g g' : Global.St} {t : Nat} {r : Resp} (h : Global.Step W g (some (.ret t r)) g') :
    g.pc t ≠ .idle ∧ g'.pc t = .idle ∧ ∀ i, i ≠ t → g'.pc i = g.pc i := by
  cases h with
  | ret _ c _ _ hp => exact ⟨by rw [hp]; nofun, by rw [at_same], fun i hi => at_other _ _ hi⟩

/-- What a call answers. -/
theorem answer {p0 : Pool} {G a m : List Global.Ev} {g g' : Global.St} {t : Nat} {c : Call} {r : Resp}
    (h : Global.Steps W (Global.start p0) G g) (hG : G = a ++ .call t c :: m) (hm : ∀ v ∈ m, v.thread ≠ t)
    (hr : Global.Step W g (some (.ret t r)) g') : ∃ g1 g2, Does W g1 c r g2 := by
  obtain ⟨L, s, hS, e⟩ := Sim.steps (h.seen hr)
  rw [hG] at e
  obtain ⟨l1, l2, l3, rfl, _⟩ := Global.cut (a := a) (b := m) (d := []) (t := t) (c := c) (r := r) ⟨_, hS.turn t⟩ (by rw [e]; simp) hm
  have := hS.serial
  simp only [List.filterMap_append, List.filterMap_cons, Global.Lev.effect] at this
  obtain ⟨g1, g2, _, h2, _⟩ := this.mid
  exact ⟨g1, g2, h2⟩

theorem exec_get {p p' : Pool} {r : Resp} (h : Global.exec W p .get = .ret p' r) : r = .pool p := by
  cases h
  rfl

/-! ### The invariant -/

theorem PcOk.frame {G l : List Global.Ev} {i : Nat} {ini ini' : Nat → Init} {x x' : Global.Pc} {y : Pc}
    (h : PcOk T G i ini x y) (hl : ∀ v ∈ l, v.thread ≠ i) (hx : x' = .idle ↔ x = .idle)
    (hi : ∀ k, ini k = .running i → ini' k = .running i) : PcOk T (G ++ l) i ini' x' y := by
  cases y with
  | idle => exact hx.mpr h
  | direct => exact fun e => h (hx.mp e)
  | entered k => exact hx.mpr h
  | starting k => exact ⟨hx.mpr h.1, hi k h.2⟩
  | loading k => exact ⟨fun e => h.1 (hx.mp e), h.2.1.more hl, hi k h.2.2⟩
  | loaded k => exact ⟨hx.mpr h.1, h.2.more l⟩
  | getting k => exact ⟨fun e => h.1 (hx.mp e), h.2.more hl⟩
  | leaving k o => exact ⟨hx.mpr h.1, h.2.more l⟩

/-- A step of thread `t`. -/
theorem Inv.move {G l : List Global.Ev} {s : St} (h : Inv T G s) {t : Nat} {g' : Global.St} {ini' : Nat → Init} {y : Pc}
    (hl : ∀ v ∈ l, v.thread = t) (hg : ∀ i, i ≠ t → g'.pc i = s.g.pc i)
    (hpc : PcOk T (G ++ l) t ini' (g'.pc t) y)
    (hini : ∀ i, i ≠ t → ∀ k, s.init k = .running i → ini' k = .running i)
    (hrun : ∀ k, ini' k = .running t → y.runs k)
    (hrun' : ∀ k i, i ≠ t → ini' k = .running i → s.init k = .running i)
    (hfull : ∀ k, ini' k = .complete → s.init k = .complete ∨ Loaded (T k).bytes (G ++ l))
    (hbad : ∀ k, ini' k = .poisoned → s.init k = .poisoned ∨ Failed (T k).bytes (G ++ l)) :
    Inv T (G ++ l) ⟨g', ini', fun i => if i = t then y else s.pc i⟩ where
  pc i := by
    by_cases hi : i = t
    · subst hi
      simp only [if_pos]
      exact hpc
    · simp only [if_neg hi]
      exact (h.pc i).frame (fun v hv e => hi (e.symm.trans (hl v hv))) (by rw [hg i hi]) (hini i hi)
  run k i e := by
    by_cases hi : i = t
    · subst hi
      simp only [if_pos]
      exact hrun k e
    · simp only [if_neg hi]
      exact h.run k i (hrun' k i hi e)
  full k e := by
    rcases hfull k e with h1 | h1
    · exact (h.full k h1).more l
    · exact h1
  bad k e := by
    rcases hbad k e with h1 | h1
    · exact (h.bad k h1).more l
    · exact h1

/-- The same when no `Once` changes and the thread is in no closure before and after. -/
theorem Inv.plain {G l : List Global.Ev} {s : St} (h : Inv T G s) {t : Nat} {g' : Global.St} {y : Pc}
    (hl : ∀ v ∈ l, v.thread = t) (hg : ∀ i, i ≠ t → g'.pc i = s.g.pc i)
    (hpc : PcOk T (G ++ l) t s.init (g'.pc t) y) (hno : ∀ k, (s.pc t).runs k → y.runs k) :
    Inv T (G ++ l) ⟨g', s.init, fun i => if i = t then y else s.pc i⟩ :=
  h.move hl hg hpc (fun _ _ _ e => e) (fun k e => hno k (h.run k t e)) (fun _ _ _ e => e) (fun _ e => .inl e)
    (fun _ e => .inl e)

theorem Inv.start (p : Pool) : Inv T [] (start p) where
  pc _ := rfl
  run _ _ e := by cases e
  full _ e := by cases e
  bad _ e := by cases e

theorem Inv.step {p0 : Pool} {G : List Global.Ev} {s s' : St} {o : Option Ev} (h : Inv T G s)
    (hG : Global.Steps W (Global.start p0) G s.g) (hs : Step W T s o s') :
    Inv T (G ++ (o.toList.filterMap (Ev.global T))) s' := by
  have self : ∀ {t : Nat} {v : Global.Ev}, v.thread = t → ∀ w ∈ [v], w.thread = t := by
    intro t v hv w hw
    rw [List.mem_singleton] at hw
    rw [hw, hv]
  cases hs with
  | quiet g hq =>
    show Inv T (G ++ []) _
    refine ⟨fun i => (h.pc i).frame nofun (quiet_idle hq i) (fun _ e => e), h.run, fun k e => (h.full k e).more _, ?_⟩
    intro k e
    rw [List.append_nil]
    exact h.bad k e
  | call t c g hp hq =>
    obtain ⟨_, k1, k2⟩ := call_pc hq
    exact h.plain (self rfl) k2 k1 (fun k e => by rw [hp] at e; exact e)
  | back t r g hp hq =>
    obtain ⟨_, k1, k2⟩ := ret_pc hq
    exact h.plain (self rfl) k2 k1 (fun k e => by rw [hp] at e; exact e)
  | enter t k hd hp =>
    have := h.pc t
    rw [hp] at this
    exact h.plain (l := []) nofun (fun _ _ => rfl) this (fun k e => by rw [hp] at e; exact e)
  | fast t k hd hp hc =>
    have := h.pc t
    rw [hp] at this
    exact h.plain (l := []) nofun (fun _ _ => rfl) ⟨this, (h.full k hc).more _⟩ (fun k e => by rw [hp] at e; exact e.elim)
  | spoilt t k hd hp hc =>
    have := h.pc t
    rw [hp] at this
    exact h.plain (l := []) nofun (fun _ _ => rfl) ⟨this, .inr (.inl ((h.bad k hc).more _))⟩
      (fun k e => by rw [hp] at e; exact e.elim)
  | claim t k hd hp hn =>
    have := h.pc t
    rw [hp] at this
    refine h.move (l := []) (ini' := fun i => if i = k then .running t else s.init i) nofun (fun _ _ => rfl)
      ⟨this, if_pos rfl⟩ (fun i hi k' e => ?_) (fun k' e => ?_) (fun k' i hi e => ?_) (fun k' e => ?_) (fun k' e => ?_)
    · have : k' ≠ k := by rintro rfl; rw [hn] at e; cases e
      simp only [if_neg this]
      exact e
    · split at e
      · next hk => exact hk.symm
      · have := h.run k' t e
        rw [hp] at this
        exact this.elim
    · split at e
      · cases e; exact absurd rfl hi
      · exact e
    · split at e
      · cases e
      · exact .inl e
    · split at e
      · cases e
      · exact .inl e
  | load t k g hp hq =>
    obtain ⟨_, k1, k2⟩ := call_pc hq
    have := h.pc t
    rw [hp] at this
    exact h.plain (self rfl) k2 ⟨k1, ⟨G, [], rfl, nofun⟩, this.2⟩ (fun k e => by rw [hp] at e; exact e)
  | ok t k g hp hq =>
    obtain ⟨_, k1, k2⟩ := ret_pc hq
    have hpc := h.pc t
    rw [hp] at hpc
    have hL := hpc.2.1.done
    refine h.move (l := [.ret t (.done [])]) (ini' := fun i => if i = k then .complete else s.init i) (self rfl) k2
      ⟨k1, hL⟩ (fun i hi k' e => ?_) (fun k' e => ?_) (fun k' i hi e => ?_) (fun k' e => ?_) (fun k' e => ?_)
    · have : k' ≠ k := by
        rintro rfl
        rw [hpc.2.2] at e
        cases e
        exact hi rfl
      simp only [if_neg this]
      exact e
    · split at e
      · cases e
      · next hk =>
        have := h.run k' t e
        rw [hp] at this
        exact absurd this.symm hk
    · split at e
      · cases e
      · exact e
    · split at e
      · next hk => rw [hk]; exact .inr hL
      · exact .inl e
    · split at e
      · cases e
      · exact .inl e
  | bad t k r g hp hr hq =>
    obtain ⟨_, k1, k2⟩ := ret_pc hq
    have hpc := h.pc t
    rw [hp] at hpc
    have hB := hpc.2.1.fail hr
    refine h.move (l := [.ret t r]) (ini' := fun i => if i = k then .poisoned else s.init i) (self rfl) k2
      ⟨k1, .inr (.inl hB)⟩ (fun i hi k' e => ?_) (fun k' e => ?_) (fun k' i hi e => ?_) (fun k' e => ?_) (fun k' e => ?_)
    · have : k' ≠ k := by
        rintro rfl
        rw [hpc.2.2] at e
        cases e
        exact hi rfl
      simp only [if_neg this]
      exact e
    · split at e
      · cases e
      · next hk =>
        have := h.run k' t e
        rw [hp] at this
        exact absurd this.symm hk
    · split at e
      · cases e
      · exact e
    · split at e
      · cases e
      · exact .inl e
    · split at e
      · next hk => rw [hk]; exact .inr hB
      · exact .inl e
  | get t k g hp hq =>
    obtain ⟨_, k1, k2⟩ := call_pc hq
    have := h.pc t
    rw [hp] at this
    exact h.plain (self rfl) k2 ⟨k1, this.2.get⟩ (fun k e => by rw [hp] at e; exact e.elim)
  | found t k p g hp hq =>
    obtain ⟨_, k1, k2⟩ := ret_pc hq
    have := h.pc t
    rw [hp] at this
    have hgot := this.2.got (p := p)
    refine h.plain (self rfl) k2 ⟨k1, ?_⟩ (fun k e => by rw [hp] at e; exact e.elim)
    unfold lookup
    cases hm : p.messageByName (T k).name with
    | some i => exact ⟨hgot, hm⟩
    | none => exact .inl ⟨p, hgot, hm⟩
  | lost t k r g hp hr hq =>
    obtain ⟨_, k1, k2⟩ := ret_pc hq
    have := h.pc t
    rw [hp] at this
    obtain ⟨a, t0, m, d, e, hGe, hm, he⟩ := this.2
    obtain ⟨g1, g2, hd⟩ := answer hG (a := a ++ .call t0 (.decode (T k).bytes) :: (m ++ .ret t0 (.done []) :: d))
      (c := .get) (m := e) (by rw [hGe]; simp) he hq
    have hrp : r = .panic := by
      cases hd with
      | ret h1 => exact absurd (exec_get h1) (hr _)
      | panic => rfl
      | refuse => rfl
    subst hrp
    exact h.plain (self rfl) k2 ⟨k1, .inr (.inr ⟨t, List.mem_append_right _ (List.mem_singleton.mpr rfl)⟩)⟩
      (fun k e => by rw [hp] at e; exact e.elim)
  | leave t k o hd hp =>
    have := h.pc t
    rw [hp] at this
    exact h.plain (l := []) nofun (fun _ _ => rfl) this.1 (fun k e => by rw [hp] at e; exact e.elim)

theorem Steps.inv {p : Pool} {es : List Ev} {s : St} (h : Steps W T (Derive.start p) es s) :
    Inv T (es.filterMap (Ev.global T)) s := by
  induction h with
  | nil => exact .start p
  | quiet h0 h1 ih =>
    have := ih.step h0.global h1
    rw [show (none : Option Ev).toList.filterMap (Ev.global T) = [] from rfl, List.append_nil] at this
    exact this
  | seen h0 h1 ih =>
    rw [List.filterMap_append]
    exact ih.step h0.global h1

/-- Whatever `descriptor()` answered, the trace accounts for it. -/
theorem Steps.sound {p : Pool} {es : List Ev} {s : St} (h : Steps W T (Derive.start p) es s) {t k : Nat} {o : Out}
    (ho : .leave t k o ∈ es) : Sound T (es.filterMap (Ev.global T)) k o := by
  induction h with
  | nil => cases ho
  | quiet _ _ ih => exact ih ho
  | @seen s1 s' es e h0 h1 ih =>
    rw [List.filterMap_append]
    rcases List.mem_append.mp ho with ho | ho
    · exact (ih ho).more _
    · rw [List.mem_singleton] at ho
      subst ho
      cases h1 with
      | leave _ _ _ _ hp =>
        have := h0.inv.pc t
        rw [hp] at this
        exact this.2.more _

end Verif.Derive
