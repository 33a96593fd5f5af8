import Verif.Pool.Global
/-!
Every interleaving of calls on the global pool takes effect one call after the other.
-/
set_option autoImplicit false
namespace Verif.Pool.Global
open Verif.Wire Verif.Pool

/-- A trace in which it is marked at which moment each call takes effect. -/
inductive Lev where
  | call (t : Nat) (c : Call)
  | lin (t : Nat) (c : Call) (r : Resp)
  | ret (t : Nat) (r : Resp)

/-- What can be seen from outside. -/
def Lev.seen : Lev → Option Ev
  | .call t c => some (.call t c)
  | .lin _ _ _ => none
  | .ret t r => some (.ret t r)

/-- What takes effect. -/
def Lev.effect : Lev → Option (Call × Resp)
  | .lin _ c r => some (c, r)
  | _ => none

def Lev.thread : Lev → Nat
  | .call t _ => t
  | .lin t _ _ => t
  | .ret t _ => t

/-- Where a thread is, seen from outside. -/
inductive Th where
  | idle
  | pending (c : Call)
  | done (c : Call) (r : Resp)

/-- What one thread does: it calls, the call takes effect once, it returns with what the effect gave, and
so on. -/
inductive Turn (t : Nat) : List Lev → Th → Prop where
  | nil : Turn t [] .idle
  | other {l : List Lev} {x : Th} (e : Lev) : Turn t l x → e.thread ≠ t → Turn t (l ++ [e]) x
  | call {l : List Lev} (c : Call) : Turn t l .idle → Turn t (l ++ [.call t c]) (.pending c)
  | lin {l : List Lev} {c : Call} (r : Resp) : Turn t l (.pending c) → Turn t (l ++ [.lin t c r]) (.done c r)
  | ret {l : List Lev} {c : Call} {r : Resp} : Turn t l (.done c r) → Turn t (l ++ [.ret t r]) .idle

def Pc.th : Pc → Th
  | .idle => .idle
  | .called c => .pending c
  | .initing c => .pending c
  | .locking c => .pending c
  | .holding c => .pending c
  | .working c _ => .pending c
  | .unlocking c r => .done c r
  | .failing c => .done c .panic
  | .leaving c r => .done c r

/-- The thread has the mutex. -/
def Pc.inside : Pc → Prop
  | .holding _ => True
  | .working _ _ => True
  | .unlocking _ _ => True
  | .failing _ => True
  | _ => False

/-- The thread is past `get_or_init`. -/
def Pc.past : Pc → Prop
  | .idle => False
  | .called _ => False
  | .initing _ => False
  | _ => True

def Pc.isIniting : Pc → Prop
  | .initing _ => True
  | _ => False

/-- The pool in the mutex is the one of the specification. -/
def Agree (s : St) (g : Seq) : Prop := g.poisoned = s.poisoned ∧ (s.poisoned = false → g.pool = s.pool)

/-- The same with a thread inside. -/
def AgreeIn (s : St) (g : Seq) : Pc → Prop
  | .working _ p => g = ⟨p, false⟩ ∧ s.poisoned = false
  | .failing _ => g.poisoned = true
  | _ => Agree s g

/-- The state and the marked trace belong together. -/
structure Sim (W : World) (s : St) (L : List Lev) (g : Seq) : Prop where
  turn : ∀ t, Turn t L (s.pc t).th
  serial : Serial W ⟨W.first, false⟩ (L.filterMap Lev.effect) g
  lock : ∀ t, (s.pc t).inside ↔ s.owner = some t
  ready : ∀ t, (s.pc t).past → s.once = .ready
  once : ∀ t, (s.pc t).isIniting ↔ s.once = .running t
  free : s.once = .ready → s.owner = none → Agree s g
  held : ∀ t, s.owner = some t → AgreeIn s g (s.pc t)
  fresh : s.once ≠ .ready → g = ⟨W.first, false⟩

theorem at_same (s : St) (t : Nat) (x : Pc) : (s.at t x).pc t = x := if_pos rfl
theorem at_other (s : St) {t i : Nat} (x : Pc) (h : i ≠ t) : (s.at t x).pc i = s.pc i := if_neg h

theorem Turn.quiet {s : St} {L : List Lev} (h : ∀ t, Turn t L (s.pc t).th) {t : Nat} {x : Pc}
    (hx : x.th = (s.pc t).th) (s' : St) (hs : s'.pc = s.pc) : ∀ i, Turn i L ((s'.at t x).pc i).th := by
  intro i
  by_cases hi : i = t
  · subst hi
    rw [at_same, hx]
    exact h i
  · rw [at_other _ _ hi, hs]
    exact h i

theorem Turn.event {s : St} {L : List Lev} (h : ∀ t, Turn t L (s.pc t).th) {t : Nat} {x : Pc} {e : Lev}
    (he : e.thread = t) (hx : Turn t (L ++ [e]) x.th) (s' : St) (hs : s'.pc = s.pc) :
    ∀ i, Turn i (L ++ [e]) ((s'.at t x).pc i).th := by
  intro i
  by_cases hi : i = t
  · subst hi
    rw [at_same]
    exact hx
  · rw [at_other _ _ hi, hs]
    exact .other e (h i) (by rw [he]; exact fun e => hi e.symm)

theorem Sim.start (W : World) (p : Pool) : Sim W (start p) [] ⟨W.first, false⟩ where
  turn t := .nil
  serial := .nil _
  lock t := ⟨fun h => h.elim, fun h => by cases h⟩
  ready t h := h.elim
  once t := ⟨fun h => h.elim, fun h => by cases h⟩
  free h := by cases h
  held t h := by cases h
  fresh _ := rfl

variable {W : World}

theorem Sim.ownerNone {s : St} {L : List Lev} {g : Seq} (h : Sim W s L g) (hr : s.once ≠ .ready) : s.owner = none := by
  cases ho : s.owner with
  | none => rfl
  | some t =>
    have hi := (h.lock t).mpr ho
    refine absurd (h.ready t ?_) hr
    cases hp : s.pc t <;> rw [hp] at hi <;> first | exact hi.elim | trivial

theorem Sim.step {s s' : St} {L : List Lev} {g : Seq} {o : Option Ev} (h : Sim W s L g) (hs : Step W s o s') :
    ∃ M g', Sim W s' (L ++ M) g' ∧ M.filterMap Lev.seen = o.toList := by
  have q0 : ∀ {s' : St}, Sim W s' L g → ∃ M g', Sim W s' (L ++ M) g' ∧ M.filterMap Lev.seen = none.toList :=
    fun h => ⟨[], g, by rwa [List.append_nil], rfl⟩
  -- what all quiet steps that change neither lock nor `OnceLock` share
  cases hs with
  | call t c _ hp =>
    refine ⟨[.call t c], g, ⟨?_, ?_, ?_, ?_, ?_, h.free, ?_, h.fresh⟩, rfl⟩
    · exact Turn.event h.turn rfl (.call c (by have := h.turn t; rwa [hp] at this)) s rfl
    · rw [List.filterMap_append]
      exact (List.append_nil _).symm ▸ h.serial
    · intro i
      by_cases hi : i = t
      · subst hi
        rw [at_same]
        have := h.lock i
        rw [hp] at this
        exact this
      · rw [at_other _ _ hi]; exact h.lock i
    · intro i
      by_cases hi : i = t
      · subst hi; rw [at_same]; exact fun h => h.elim
      · rw [at_other _ _ hi]; exact h.ready i
    · intro i
      by_cases hi : i = t
      · subst hi; rw [at_same]
        have := h.once i
        rw [hp] at this
        exact this
      · rw [at_other _ _ hi]; exact h.once i
    · intro i ho
      have hne : i ≠ t := by
        rintro rfl
        have := (h.lock i).mpr ho
        rw [hp] at this
        exact this
      rw [at_other _ _ hne]
      exact h.held i ho
  | ready t c _ hp hr =>
    refine q0 ⟨?_, h.serial, ?_, ?_, ?_, h.free, ?_, h.fresh⟩
    · exact Turn.quiet h.turn (by rw [hp]; rfl) s rfl
    · intro i
      by_cases hi : i = t
      · subst hi
        rw [at_same]
        have := h.lock i
        rw [hp] at this
        exact this
      · rw [at_other _ _ hi]; exact h.lock i
    · exact fun _ _ => hr
    · intro i
      by_cases hi : i = t
      · subst hi; rw [at_same]
        have := h.once i
        rw [hp] at this
        exact this
      · rw [at_other _ _ hi]; exact h.once i
    · intro i ho
      have hne : i ≠ t := by
        rintro rfl
        have := (h.lock i).mpr ho
        rw [hp] at this
        exact this
      rw [at_other _ _ hne]
      exact h.held i ho
  | start t c _ hp hn =>
    have hno : s.owner = none := h.ownerNone (by rw [hn]; simp)
    refine q0 ⟨?_, h.serial, ?_, ?_, ?_, ?_, ?_, ?_⟩
    · exact Turn.quiet h.turn (by rw [hp]; rfl) _ rfl
    · intro i
      by_cases hi : i = t
      · subst hi
        rw [at_same]
        have := h.lock i
        rw [hp] at this
        exact this
      · rw [at_other _ _ hi]; exact h.lock i
    · intro i
      by_cases hi : i = t
      · subst hi; rw [at_same]; exact fun h => h.elim
      · rw [at_other _ _ hi]
        intro hx
        have := h.ready i hx
        rw [hn] at this
        cases this
    · intro i
      by_cases hi : i = t
      · subst hi; rw [at_same]
        exact ⟨fun _ => rfl, fun _ => trivial⟩
      · rw [at_other _ _ hi]
        constructor
        · intro hx
          have := (h.once i).mp hx
          rw [hn] at this
          cases this
        · intro hx
          cases hx
          exact absurd rfl hi
    · intro hx; cases hx
    · intro i ho
      rw [show (({ s with once := .running t } : St).at t (.initing c)).owner = s.owner from rfl, hno] at ho
      cases ho
    · intro _
      exact h.fresh (by rw [hn]; simp)
  | init t c _ hp =>
    have hrun : s.once = .running t := (h.once t).mp (by rw [hp]; trivial)
    have hne : s.once ≠ .ready := by rw [hrun]; simp
    have hno : s.owner = none := h.ownerNone hne
    refine q0 ⟨?_, h.serial, ?_, ?_, ?_, ?_, ?_, ?_⟩
    · exact Turn.quiet h.turn (by rw [hp]; rfl) _ rfl
    · intro i
      refine ⟨fun hx => ?_, fun hx => by cases hx⟩
      by_cases hi : i = t
      · subst hi
        rw [at_same] at hx
        exact hx.elim
      · rw [at_other _ _ hi] at hx
        have := (h.lock i).mp hx
        rw [hno] at this
        cases this
    · exact fun _ _ => rfl
    · intro i
      by_cases hi : i = t
      · subst hi; rw [at_same]
        exact ⟨fun h => h.elim, fun h => by cases h⟩
      · rw [at_other _ _ hi]
        constructor
        · intro hx
          have := (h.once i).mp hx
          rw [hrun] at this
          cases this
          exact absurd rfl hi
        · intro hx; cases hx
    · intro _ _
      rw [h.fresh hne]
      exact ⟨rfl, fun _ => rfl⟩
    · intro i hx; cases hx
    · intro hx; exact absurd rfl hx
  | acquire t c _ hp hn =>
    have hr : s.once = .ready := h.ready t (by rw [hp]; trivial)
    refine q0 ⟨?_, h.serial, ?_, ?_, ?_, ?_, ?_, h.fresh⟩
    · exact Turn.quiet h.turn (by rw [hp]; rfl) _ rfl
    · intro i
      by_cases hi : i = t
      · subst hi
        rw [at_same]
        exact ⟨fun _ => rfl, fun _ => trivial⟩
      · rw [at_other _ _ hi]
        constructor
        · intro hx
          have := (h.lock i).mp hx
          rw [hn] at this
          cases this
        · intro hx
          cases hx
          exact absurd rfl hi
    · exact fun _ _ => hr
    · intro i
      by_cases hi : i = t
      · subst hi; rw [at_same]
        have := h.once i
        rw [hp] at this
        exact this
      · rw [at_other _ _ hi]; exact h.once i
    · intro _ hx; cases hx
    · intro i hx
      cases hx
      rw [at_same]
      exact h.free hr hn
  | refuse t c _ hp hpo =>
    have hr : s.once = .ready := h.ready t (by rw [hp]; trivial)
    have ho : s.owner = some t := (h.lock t).mp (by rw [hp]; trivial)
    have hg := h.held t ho
    rw [hp] at hg
    obtain ⟨q, b⟩ := g
    obtain ⟨hg1, _⟩ : Agree s ⟨q, b⟩ := hg
    have hb : b = true := hg1.trans hpo
    subst hb
    refine ⟨[.lin t c .panic], ⟨q, true⟩, ⟨?_, ?_, ?_, ?_, ?_, ?_, ?_, ?_⟩, rfl⟩
    · exact Turn.event h.turn rfl (.lin _ (by have := h.turn t; rwa [hp] at this)) s rfl
    · rw [List.filterMap_append]
      exact .snoc h.serial (.refuse q c)
    · intro i
      by_cases hi : i = t
      · subst hi
        rw [at_same]
        exact ⟨fun _ => ho, fun _ => trivial⟩
      · rw [at_other _ _ hi]; exact h.lock i
    · exact fun _ _ => hr
    · intro i
      by_cases hi : i = t
      · subst hi; rw [at_same]
        have := h.once i
        rw [hp] at this
        exact this
      · rw [at_other _ _ hi]; exact h.once i
    · intro _ hx
      rw [show (s.at t (.failing c)).owner = s.owner from rfl, ho] at hx
      cases hx
    · intro i hx
      rw [show (s.at t (.failing c)).owner = s.owner from rfl, ho] at hx
      cases hx
      rw [at_same]
      rfl
    · exact fun hx => absurd hr hx
  | enter t c _ hp hpo =>
    have hr : s.once = .ready := h.ready t (by rw [hp]; trivial)
    have ho : s.owner = some t := (h.lock t).mp (by rw [hp]; trivial)
    have hg := h.held t ho
    rw [hp] at hg
    obtain ⟨q, b⟩ := g
    obtain ⟨hg1, hg2⟩ : Agree s ⟨q, b⟩ := hg
    have hb : b = false := hg1.trans hpo
    have hq : q = s.pool := hg2 hpo
    refine q0 ⟨?_, h.serial, ?_, ?_, ?_, ?_, ?_, h.fresh⟩
    · exact Turn.quiet h.turn (by rw [hp]; rfl) _ rfl
    · intro i
      by_cases hi : i = t
      · subst hi
        rw [at_same]
        exact ⟨fun _ => ho, fun _ => trivial⟩
      · rw [at_other _ _ hi]; exact h.lock i
    · exact fun _ _ => hr
    · intro i
      by_cases hi : i = t
      · subst hi; rw [at_same]
        have := h.once i
        rw [hp] at this
        exact this
      · rw [at_other _ _ hi]; exact h.once i
    · intro _ hx
      rw [show (s.at t (.working c s.pool)).owner = s.owner from rfl, ho] at hx
      cases hx
    · intro i hx
      rw [show (s.at t (.working c s.pool)).owner = s.owner from rfl, ho] at hx
      cases hx
      rw [at_same]
      exact ⟨by rw [hb, hq], hpo⟩
  | torn t c p q _ hp =>
    have hr : s.once = .ready := h.ready t (by rw [hp]; trivial)
    have ho : s.owner = some t := (h.lock t).mp (by rw [hp]; trivial)
    have hg := h.held t ho
    rw [hp] at hg
    refine q0 ⟨h.turn, h.serial, h.lock, h.ready, h.once, ?_, ?_, h.fresh⟩
    · intro _ hx
      rw [show ({ s with pool := q } : St).owner = s.owner from rfl, ho] at hx
      cases hx
    · intro i hx
      rw [show ({ s with pool := q } : St).owner = s.owner from rfl, ho] at hx
      cases hx
      rw [show ({ s with pool := q } : St).pc = s.pc from rfl, hp]
      exact hg
  | finish t c p p' r _ hp he =>
    have hr : s.once = .ready := h.ready t (by rw [hp]; trivial)
    have ho : s.owner = some t := (h.lock t).mp (by rw [hp]; trivial)
    have hg := h.held t ho
    rw [hp] at hg
    obtain ⟨hg1, hg2⟩ : g = ⟨p, false⟩ ∧ s.poisoned = false := hg
    refine ⟨[.lin t c r], ⟨p', false⟩, ⟨?_, ?_, ?_, ?_, ?_, ?_, ?_, ?_⟩, rfl⟩
    · exact Turn.event h.turn rfl (.lin _ (by have := h.turn t; rwa [hp] at this)) _ rfl
    · rw [List.filterMap_append]
      have := h.serial
      rw [hg1] at this
      exact .snoc this (.ret he)
    · intro i
      by_cases hi : i = t
      · subst hi
        rw [at_same]
        exact ⟨fun _ => ho, fun _ => trivial⟩
      · rw [at_other _ _ hi]; exact h.lock i
    · exact fun _ _ => hr
    · intro i
      by_cases hi : i = t
      · subst hi; rw [at_same]
        have := h.once i
        rw [hp] at this
        exact this
      · rw [at_other _ _ hi]; exact h.once i
    · intro _ hx
      rw [show (({ s with pool := p' } : St).at t (.unlocking c r)).owner = s.owner from rfl, ho] at hx
      cases hx
    · intro i hx
      rw [show (({ s with pool := p' } : St).at t (.unlocking c r)).owner = s.owner from rfl, ho] at hx
      cases hx
      rw [at_same]
      exact ⟨hg2.symm, fun _ => rfl⟩
    · exact fun hx => absurd hr hx
  | panic t c p _ hp he =>
    have hr : s.once = .ready := h.ready t (by rw [hp]; trivial)
    have ho : s.owner = some t := (h.lock t).mp (by rw [hp]; trivial)
    have hg := h.held t ho
    rw [hp] at hg
    obtain ⟨hg1, hg2⟩ : g = ⟨p, false⟩ ∧ s.poisoned = false := hg
    refine ⟨[.lin t c .panic], ⟨s.pool, true⟩, ⟨?_, ?_, ?_, ?_, ?_, ?_, ?_, ?_⟩, rfl⟩
    · exact Turn.event h.turn rfl (.lin _ (by have := h.turn t; rwa [hp] at this)) _ rfl
    · rw [List.filterMap_append]
      have := h.serial
      rw [hg1] at this
      exact .snoc this (.panic _ he)
    · intro i
      by_cases hi : i = t
      · subst hi
        rw [at_same]
        exact ⟨fun _ => ho, fun _ => trivial⟩
      · rw [at_other _ _ hi]; exact h.lock i
    · exact fun _ _ => hr
    · intro i
      by_cases hi : i = t
      · subst hi; rw [at_same]
        have := h.once i
        rw [hp] at this
        exact this
      · rw [at_other _ _ hi]; exact h.once i
    · intro _ hx
      rw [show (s.at t (.failing c)).owner = s.owner from rfl, ho] at hx
      cases hx
    · intro i hx
      rw [show (s.at t (.failing c)).owner = s.owner from rfl, ho] at hx
      cases hx
      rw [at_same]
      rfl
    · exact fun hx => absurd hr hx
  | abort t c p _ hp he =>
    exact q0 ⟨h.turn, h.serial, h.lock, h.ready, h.once, h.free, fun i ho => by
      have := h.held i ho
      revert this
      cases s.pc i <;> exact id, h.fresh⟩
  | unlock t c r _ hp =>
    have hr : s.once = .ready := h.ready t (by rw [hp]; trivial)
    have ho : s.owner = some t := (h.lock t).mp (by rw [hp]; trivial)
    have hg := h.held t ho
    rw [hp] at hg
    refine q0 ⟨?_, h.serial, ?_, ?_, ?_, ?_, ?_, h.fresh⟩
    · exact Turn.quiet h.turn (by rw [hp]; rfl) _ rfl
    · intro i
      refine ⟨fun hx => ?_, fun hx => by cases hx⟩
      by_cases hi : i = t
      · subst hi
        rw [at_same] at hx
        exact hx.elim
      · rw [at_other _ _ hi] at hx
        have := (h.lock i).mp hx
        rw [ho] at this
        cases this
        exact absurd rfl hi
    · exact fun _ _ => hr
    · intro i
      by_cases hi : i = t
      · subst hi; rw [at_same]
        have := h.once i
        rw [hp] at this
        exact this
      · rw [at_other _ _ hi]; exact h.once i
    · intro _ _
      exact hg
    · intro i hx; cases hx
  | poison t c _ hp =>
    have hr : s.once = .ready := h.ready t (by rw [hp]; trivial)
    have ho : s.owner = some t := (h.lock t).mp (by rw [hp]; trivial)
    have hg := h.held t ho
    rw [hp] at hg
    refine q0 ⟨?_, h.serial, ?_, ?_, ?_, ?_, ?_, h.fresh⟩
    · exact Turn.quiet h.turn (by rw [hp]; rfl) _ rfl
    · intro i
      refine ⟨fun hx => ?_, fun hx => by cases hx⟩
      by_cases hi : i = t
      · subst hi
        rw [at_same] at hx
        exact hx.elim
      · rw [at_other _ _ hi] at hx
        have := (h.lock i).mp hx
        rw [ho] at this
        cases this
        exact absurd rfl hi
    · exact fun _ _ => hr
    · intro i
      by_cases hi : i = t
      · subst hi; rw [at_same]
        have := h.once i
        rw [hp] at this
        exact this
      · rw [at_other _ _ hi]; exact h.once i
    · intro _ _
      exact ⟨hg, fun hx => by cases hx⟩
    · intro i hx; cases hx
  | ret t c r _ hp =>
    have hr : s.once = .ready := h.ready t (by rw [hp]; trivial)
    refine ⟨[.ret t r], g, ⟨?_, ?_, ?_, ?_, ?_, h.free, ?_, h.fresh⟩, rfl⟩
    · exact Turn.event h.turn rfl (.ret (by have := h.turn t; rwa [hp] at this)) s rfl
    · rw [List.filterMap_append]
      exact (List.append_nil _).symm ▸ h.serial
    · intro i
      by_cases hi : i = t
      · subst hi
        rw [at_same]
        have := h.lock i
        rw [hp] at this
        exact this
      · rw [at_other _ _ hi]; exact h.lock i
    · exact fun _ _ => hr
    · intro i
      by_cases hi : i = t
      · subst hi; rw [at_same]
        have := h.once i
        rw [hp] at this
        exact this
      · rw [at_other _ _ hi]; exact h.once i
    · intro i ho
      have hne : i ≠ t := by
        rintro rfl
        have := (h.lock i).mpr ho
        rw [hp] at this
        exact this
      rw [at_other _ _ hne]
      exact h.held i ho

theorem Sim.steps {p : Pool} {s' : St} {es : List Ev} (hs : Steps W (Global.start p) es s') :
    ∃ L g, Sim W s' L g ∧ L.filterMap Lev.seen = es := by
  induction hs with
  | nil => exact ⟨[], _, Sim.start W p, rfl⟩
  | quiet _ h1 ih =>
    obtain ⟨L, g, h, e⟩ := ih
    obtain ⟨M, g', h', e'⟩ := h.step h1
    exact ⟨_, g', h', by rw [List.filterMap_append, e, e']; exact List.append_nil _⟩
  | seen _ h1 ih =>
    obtain ⟨L, g, h, e⟩ := ih
    obtain ⟨M, g', h', e'⟩ := h.step h1
    exact ⟨_, g', h', by rw [List.filterMap_append, e, e']; rfl⟩

/-- A trace in which every call takes effect at some moment between call and return, and the effects are
those of calls made one after the other. -/
def Linear (W : World) (es : List Ev) : Prop :=
  ∃ L g, L.filterMap Lev.seen = es ∧ (∀ t, ∃ x, Turn t L x) ∧
    Serial W ⟨W.first, false⟩ (L.filterMap Lev.effect) g

def Ev.thread : Ev → Nat
  | .call t _ => t
  | .ret t _ => t

/-! ### Cutting traces -/

theorem Turn.snoc_inv {t : Nat} {l : List Lev} {e : Lev} {x : Th} (h : Turn t (l ++ [e]) x) :
    ∃ y, Turn t l y ∧ ((e.thread ≠ t ∧ x = y) ∨ (∃ c, e = .call t c ∧ y = .idle ∧ x = .pending c) ∨
      (∃ c r, e = .lin t c r ∧ y = .pending c ∧ x = .done c r) ∨ (∃ c r, e = .ret t r ∧ y = .done c r ∧ x = .idle)) := by
  generalize hl : l ++ [e] = l' at h
  cases h with
  | nil => simp at hl
  | other e' h hne =>
    obtain ⟨rfl, e⟩ := List.append_inj' hl rfl
    cases e
    exact ⟨_, h, .inl ⟨hne, rfl⟩⟩
  | call c h =>
    obtain ⟨rfl, e⟩ := List.append_inj' hl rfl
    cases e
    exact ⟨_, h, .inr (.inl ⟨c, rfl, rfl, rfl⟩)⟩
  | lin r h =>
    obtain ⟨rfl, e⟩ := List.append_inj' hl rfl
    cases e
    exact ⟨_, h, .inr (.inr (.inl ⟨_, r, rfl, rfl, rfl⟩))⟩
  | ret h =>
    obtain ⟨rfl, e⟩ := List.append_inj' hl rfl
    cases e
    exact ⟨_, h, .inr (.inr (.inr ⟨_, _, rfl, rfl, rfl⟩))⟩

theorem Turn.prefix {t : Nat} : ∀ (m : List Lev) {l : List Lev} {x : Th}, Turn t (l ++ m) x → ∃ y, Turn t l y
  | [], _, _, h => ⟨_, by rwa [List.append_nil] at h⟩
  | e :: m, l, x, h => by
    obtain ⟨y, hy⟩ := Turn.prefix m (l := l ++ [e]) (by rwa [List.append_assoc])
    obtain ⟨z, hz, _⟩ := hy.snoc_inv
    exact ⟨z, hz⟩

theorem seen_thread {e : Lev} {v : Ev} (h : e.seen = some v) : v.thread = e.thread := by
  cases e <;> cases h <;> rfl

/-- Between call and return, the call takes effect. -/
theorem Turn.between {t : Nat} {c : Call} {l : List Lev} : ∀ (m : List Lev),
    (∀ v ∈ m.filterMap Lev.seen, v.thread ≠ t) → ∀ {x : Th}, Turn t (l ++ .call t c :: m) x →
    x = .pending c ∨ ∃ r, x = .done c r ∧ Lev.lin t c r ∈ m := by
  intro m
  induction hn : m.length generalizing m with
  | zero =>
    intro _ x h
    cases m with
    | cons => cases hn
    | nil =>
      obtain ⟨y, _, h1 | ⟨c', h1, _, h3⟩ | ⟨c', r, h1, _⟩ | ⟨c', r, h1, _⟩⟩ := h.snoc_inv
      · exact absurd rfl h1.1
      · cases h1
        exact .inl h3
      · cases h1
      · cases h1
  | succ n ih =>
    intro hm x h
    rcases List.eq_nil_or_concat m with rfl | ⟨k, e, rfl⟩
    · cases hn
    · rw [List.concat_eq_append] at *
      have hk : ∀ v ∈ k.filterMap Lev.seen, v.thread ≠ t := fun v hv =>
        hm v (by rw [List.filterMap_append]; exact List.mem_append_left _ hv)
      have he : ∀ v, e.seen = some v → v.thread ≠ t := fun v hv =>
        hm v (by
          rw [List.filterMap_append]
          exact List.mem_append_right _ (List.mem_filterMap.mpr ⟨e, List.mem_singleton.mpr rfl, hv⟩))
      have hlen : k.length = n := by simpa using hn
      rw [show l ++ .call t c :: (k ++ [e]) = (l ++ .call t c :: k) ++ [e] by simp] at h
      obtain ⟨y, hy, h1⟩ := h.snoc_inv
      have := ih k hlen hk hy
      rcases h1 with ⟨_, rfl⟩ | ⟨c', rfl, _⟩ | ⟨c', r, rfl, rfl, rfl⟩ | ⟨c', r, rfl, _⟩
      · rcases this with h | ⟨r, h, h'⟩
        · exact .inl h
        · exact .inr ⟨r, h, List.mem_append_left _ h'⟩
      · exact absurd rfl (he _ rfl)
      · rcases this with h | ⟨r, h, h'⟩
        · cases h
          exact .inr ⟨r, rfl, by simp⟩
        · cases h
      · exact absurd rfl (he _ rfl)

theorem cut_call {L : List Lev} {a b : List Ev} {t : Nat} {c : Call}
    (h : L.filterMap Lev.seen = a ++ .call t c :: b) :
    ∃ la lb, L = la ++ .call t c :: lb ∧ la.filterMap Lev.seen = a ∧ lb.filterMap Lev.seen = b := by
  obtain ⟨la, l2, rfl, rfl, h2⟩ := List.filterMap_eq_append_iff.mp h
  obtain ⟨l3, e, lb, rfl, h3, h4, rfl⟩ := List.filterMap_eq_cons_iff.mp h2
  cases e with
  | call t' c' =>
    cases h4
    refine ⟨la ++ l3, lb, by simp, ?_, rfl⟩
    rw [List.filterMap_append, List.filterMap_eq_nil_iff.mpr h3, List.append_nil]
  | lin => cases h4
  | ret => cases h4

theorem cut_ret {L : List Lev} {a b : List Ev} {t : Nat} {r : Resp}
    (h : L.filterMap Lev.seen = a ++ .ret t r :: b) :
    ∃ la lb, L = la ++ .ret t r :: lb ∧ la.filterMap Lev.seen = a ∧ lb.filterMap Lev.seen = b := by
  obtain ⟨la, l2, rfl, rfl, h2⟩ := List.filterMap_eq_append_iff.mp h
  obtain ⟨l3, e, lb, rfl, h3, h4, rfl⟩ := List.filterMap_eq_cons_iff.mp h2
  cases e with
  | ret t' c' =>
    cases h4
    refine ⟨la ++ l3, lb, by simp, ?_, rfl⟩
    rw [List.filterMap_append, List.filterMap_eq_nil_iff.mpr h3, List.append_nil]
  | lin => cases h4
  | call => cases h4

/-- A finished call in a trace: the effect lies between its two ends. -/
theorem cut {L : List Lev} {a b d : List Ev} {t : Nat} {c : Call} {r : Resp} (hT : ∃ x, Turn t L x)
    (h : L.filterMap Lev.seen = a ++ .call t c :: (b ++ .ret t r :: d)) (hb : ∀ v ∈ b, v.thread ≠ t) :
    ∃ l1 l2 l3, L = l1 ++ .lin t c r :: (l2 ++ .ret t r :: l3) ∧ l3.filterMap Lev.seen = d ∧
      ∃ l0 l0', l1 = l0 ++ .call t c :: l0' ∧ l0.filterMap Lev.seen = a := by
  obtain ⟨la, lb, rfl, h1, h2⟩ := cut_call h
  obtain ⟨lc, ld, rfl, h3, h4⟩ := cut_ret h2
  obtain ⟨x, hT⟩ := hT
  obtain ⟨y, hy⟩ := Turn.prefix ld (l := la ++ .call t c :: (lc ++ [.ret t r])) (x := x) (by simpa using hT)
  rw [show la ++ .call t c :: (lc ++ [Lev.ret t r]) = (la ++ .call t c :: lc) ++ [.ret t r] by simp] at hy
  obtain ⟨z, hz, h5⟩ := hy.snoc_inv
  have h6 := Turn.between lc (by rw [h3]; exact hb) hz
  rcases h5 with ⟨h5, _⟩ | ⟨c', h5, _⟩ | ⟨c', r', h5, _⟩ | ⟨c', r', h5, rfl, _⟩
  · exact absurd rfl h5
  · cases h5
  · cases h5
  · cases h5
    rcases h6 with h6 | ⟨r', h6, hm⟩
    · cases h6
    · cases h6
      obtain ⟨l2, l3, rfl⟩ := List.append_of_mem hm
      exact ⟨la ++ .call t c :: l2, l3, ld, by simp, h4, la, l2, rfl, h1⟩

theorem Serial.split : ∀ (m : List (Call × Resp)) {g g' : Seq} {l : List (Call × Resp)},
    Serial W g (l ++ m) g' → ∃ g1, Serial W g l g1 ∧ Serial W g1 m g' := by
  intro m
  induction hn : m.length generalizing m with
  | zero =>
    intro g g' l h
    cases m with
    | cons => cases hn
    | nil => exact ⟨g', by rwa [List.append_nil] at h, .nil _⟩
  | succ n ih =>
    intro g g' l h
    rcases List.eq_nil_or_concat m with rfl | ⟨k, e, rfl⟩
    · cases hn
    · rw [List.concat_eq_append] at *
      rw [← List.append_assoc] at h
      generalize hl : l ++ k ++ [e] = l' at h
      cases h with
      | nil => simp at hl
      | snoc h1 h2 =>
        obtain ⟨rfl, e⟩ := List.append_inj' hl rfl
        cases e
        obtain ⟨g1, h3, h4⟩ := ih k (by simpa using hn) h1
        exact ⟨g1, h3, .snoc h4 h2⟩

theorem Serial.of_nil {g g' : Seq} {l : List (Call × Resp)} (h : Serial W g l g') (hl : l = []) : g' = g := by
  cases h with
  | nil => rfl
  | snoc => simp at hl

theorem Serial.one {g g' : Seq} {c : Call} {r : Resp} (h : Serial W g [(c, r)] g') : Does W g c r g' := by
  generalize hl : [(c, r)] = l' at h
  cases h with
  | nil => cases hl
  | snoc h1 h2 =>
    obtain ⟨e1, e2⟩ := List.append_inj' (s₁ := []) (t₁ := [(c, r)]) hl rfl
    cases e2
    rw [h1.of_nil e1.symm] at h2
    exact h2

theorem Serial.mid {g g' : Seq} {l m : List (Call × Resp)} {c : Call} {r : Resp}
    (h : Serial W g (l ++ (c, r) :: m) g') : ∃ g1 g2, Serial W g l g1 ∧ Does W g1 c r g2 ∧ Serial W g2 m g' := by
  obtain ⟨g1, h1, h2⟩ := h.split
  obtain ⟨g2, h3, h4⟩ := Serial.split (l := [(c, r)]) m h2
  exact ⟨g1, g2, h1, h3.one, h4⟩

end Verif.Pool.Global
