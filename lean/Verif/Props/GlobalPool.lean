import Verif.Pool.GlobalRun
import Verif.Props.PoolNames
import Verif.Props.PoolTotal
/-!
C84: the global pool, used by any number of threads at the same time.
-/
set_option autoImplicit false
namespace Verif.Props
open Verif.Wire Verif.Pool Verif.Pool.Global

variable {W : World} {p0 : Pool} {es : List Ev} {s : Global.St}

/-- **C84.** Whatever the threads do and however their steps are interleaved, every call takes effect at
one moment between call and return, and the answers are those of calls made one after the other, in the
order of these moments, on a pool that begins with the well-known types. -/
theorem C84_linear (h : Steps W (start p0) es s) : Linear W es := by
  obtain ⟨L, g, h, e⟩ := Sim.steps h
  exact ⟨L, g, e, fun t => ⟨_, h.turn t⟩, h.serial⟩

/-- In a marked trace, what takes effect was called and what returned took effect. -/
theorem turn_called {t : Nat} {L : List Lev} {x : Th} (h : Turn t L x) :
    (∀ c r, .lin t c r ∈ L → .call t c ∈ L) ∧ (∀ r, .ret t r ∈ L → ∃ c, .lin t c r ∈ L) ∧
    (∀ c, x = .pending c → .call t c ∈ L) ∧ (∀ c r, x = .done c r → .lin t c r ∈ L) := by
  induction h with
  | nil => exact ⟨nofun, nofun, nofun, nofun⟩
  | other e _ hne ih =>
    obtain ⟨i1, i2, i3, i4⟩ := ih
    refine ⟨fun c r hm => ?_, fun r hm => ?_, fun c hc => List.mem_append_left _ (i3 c hc),
      fun c r hc => List.mem_append_left _ (i4 c r hc)⟩
    · rcases List.mem_append.mp hm with hm | hm
      · exact List.mem_append_left _ (i1 c r hm)
      · rw [List.mem_singleton] at hm
        subst hm
        exact absurd rfl hne
    · rcases List.mem_append.mp hm with hm | hm
      · obtain ⟨c, hc⟩ := i2 r hm
        exact ⟨c, List.mem_append_left _ hc⟩
      · rw [List.mem_singleton] at hm
        subst hm
        exact absurd rfl hne
  | call c _ ih =>
    obtain ⟨i1, i2, i3, i4⟩ := ih
    refine ⟨fun c r hm => ?_, fun r hm => ?_, fun c hc => ?_, nofun⟩
    · rcases List.mem_append.mp hm with hm | hm
      · exact List.mem_append_left _ (i1 c r hm)
      · rw [List.mem_singleton] at hm
        cases hm
    · rcases List.mem_append.mp hm with hm | hm
      · obtain ⟨c, hc⟩ := i2 r hm
        exact ⟨c, List.mem_append_left _ hc⟩
      · rw [List.mem_singleton] at hm
        cases hm
    · cases hc
      exact List.mem_append_right _ (List.mem_singleton.mpr rfl)
  | lin r _ ih =>
    obtain ⟨i1, i2, i3, i4⟩ := ih
    refine ⟨fun c r hm => ?_, fun r hm => ?_, nofun, fun c r hc => ?_⟩
    · rcases List.mem_append.mp hm with hm | hm
      · exact List.mem_append_left _ (i1 c r hm)
      · rw [List.mem_singleton] at hm
        cases hm
        exact List.mem_append_left _ (i3 _ rfl)
    · rcases List.mem_append.mp hm with hm | hm
      · obtain ⟨c, hc⟩ := i2 r hm
        exact ⟨c, List.mem_append_left _ hc⟩
      · rw [List.mem_singleton] at hm
        cases hm
    · cases hc
      exact List.mem_append_right _ (List.mem_singleton.mpr rfl)
  | ret _ ih =>
    obtain ⟨i1, i2, i3, i4⟩ := ih
    refine ⟨fun c r hm => ?_, fun r hm => ?_, nofun, nofun⟩
    · rcases List.mem_append.mp hm with hm | hm
      · exact List.mem_append_left _ (i1 c r hm)
      · rw [List.mem_singleton] at hm
        cases hm
    · rcases List.mem_append.mp hm with hm | hm
      · obtain ⟨c, hc⟩ := i2 r hm
        exact ⟨c, List.mem_append_left _ hc⟩
      · rw [List.mem_singleton] at hm
        cases hm
        exact ⟨_, List.mem_append_left _ (i4 _ _ rfl)⟩

/-- A call that returned before another one began also took effect before it. -/
theorem order (h : Steps W (start p0) es s) {t t' : Nat} {c c' : Call} {r r' : Resp} {a b d e f : List Ev}
    (he : es = a ++ .call t c :: (b ++ .ret t r :: (d ++ .call t' c' :: (e ++ .ret t' r' :: f))))
    (hb : ∀ v ∈ b, v.thread ≠ t) (hb' : ∀ v ∈ e, v.thread ≠ t') :
    ∃ l l' g1 g2 g3 g4, Serial W ⟨W.first, false⟩ l g1 ∧ Does W g1 c r g2 ∧ Serial W g2 l' g3 ∧ Does W g3 c' r' g4 ∧
      ∀ c ∈ (l ++ l').map (·.1), ∃ t, .call t c ∈ es := by
  obtain ⟨L, g, e1, hT, hS⟩ := C84_linear h
  rw [he] at e1
  have hTall := hT
  obtain ⟨l1, l2, l3, rfl, e2, _⟩ := cut (hT t) e1 hb
  -- the second call lies in the rest
  have hT' := hT t'
  have e1' : (l1 ++ .lin t c r :: (l2 ++ .ret t r :: l3)).filterMap Lev.seen
      = (a ++ .call t c :: (b ++ .ret t r :: d)) ++ .call t' c' :: (e ++ .ret t' r' :: f) := by
    rw [e1]; simp
  obtain ⟨la, lb, rfl, e3, e4⟩ := cut_call e2
  obtain ⟨lc, ld, rfl, e5, e6⟩ := cut_ret e4
  obtain ⟨x, hT'⟩ := hT'
  obtain ⟨y, hy⟩ := Turn.prefix ld (l := (l1 ++ .lin t c r :: (l2 ++ .ret t r :: la)) ++ .call t' c' :: (lc ++ [.ret t' r']))
    (x := x) (by simpa using hT')
  rw [show ∀ u : List Lev, u ++ .call t' c' :: (lc ++ [Lev.ret t' r']) = (u ++ .call t' c' :: lc) ++ [.ret t' r'] by simp] at hy
  obtain ⟨z, hz, h5⟩ := hy.snoc_inv
  have h6 := Turn.between lc (by rw [e5]; exact hb') hz
  have hm : Lev.lin t' c' r' ∈ lc := by
    rcases h5 with ⟨h5, _⟩ | ⟨c', h5, _⟩ | ⟨c', r', h5, _⟩ | ⟨c', r', h5, rfl, _⟩
    · exact absurd rfl h5
    · cases h5
    · cases h5
    · cases h5
      rcases h6 with h6 | ⟨r', h6, hm⟩
      · cases h6
      · cases h6
        exact hm
  obtain ⟨l4, l5, rfl⟩ := List.append_of_mem hm
  simp only [List.filterMap_append, List.filterMap_cons, Lev.effect] at hS
  obtain ⟨g1, g2, h7, h8, h9⟩ := hS.mid
  obtain ⟨g3, g4, h10, h11, _⟩ := Serial.mid
    (l := l2.filterMap Lev.effect ++ la.filterMap Lev.effect ++ l4.filterMap Lev.effect)
    (m := l5.filterMap Lev.effect ++ ld.filterMap Lev.effect) (by simpa using h9)
  refine ⟨_, _, g1, g2, g3, g4, h7, h8, h10, h11, fun c0 hc => ?_⟩
  have hsub : ∀ v ∈ l1.filterMap Lev.effect ++ (l2.filterMap Lev.effect ++ la.filterMap Lev.effect ++ l4.filterMap Lev.effect),
      v ∈ (l1 ++ .lin t c r :: (l2 ++ .ret t r :: (la ++ .call t' c' :: (l4 ++ .lin t' c' r' :: l5 ++ .ret t' r' :: ld)))).filterMap Lev.effect := by
    intro v hv
    simp only [List.filterMap_append, List.filterMap_cons, Lev.effect, List.mem_append, List.mem_cons, List.append_assoc,
      List.cons_append] at hv ⊢
    rcases hv with hv | hv | hv | hv <;> simp [hv]
  obtain ⟨⟨c1, r1⟩, hv, rfl⟩ := List.mem_map.mp hc
  obtain ⟨v, hv1, hv2⟩ := List.mem_filterMap.mp (hsub _ hv)
  cases v with
  | lin t0 c2 r2 =>
    cases hv2
    obtain ⟨y, hy⟩ := hTall t0
    refine ⟨t0, ?_⟩
    rw [he, ← e1]
    exact List.mem_filterMap.mpr ⟨_, (turn_called hy).1 _ _ hv1, rfl⟩
  | call => cases hv2
  | ret => cases hv2

/-! ### What the additions leave -/

/-- The call adds this file, if it is new. -/
def Adds (W : World) (c : Call) (x : FileP) : Prop :=
  c = .add x ∨ ∃ bytes fs, c = .decode bytes ∧ W.fds bytes = some fs ∧ x ∈ fs

/-- Work under the lock that returns goes on with the history of the pool. -/
theorem exec_hist {p p' : Pool} {c : Call} {r : Resp} {acc : List FileP} (h : exec W p c = .ret p' r)
    (hH : Hist W.env acc p) : ∃ acc', Hist W.env acc' p' ∧ acc <+: acc' ∧ ∀ x ∈ acc', x ∈ acc ∨ Adds W c x := by
  have hb : ∀ fs, build W p fs = .ret p' r → (∀ x ∈ fs, Adds W c x) →
      ∃ acc', Hist W.env acc' p' ∧ acc <+: acc' ∧ ∀ x ∈ acc', x ∈ acc ∨ Adds W c x := by
    intro fs h hA
    unfold build at h
    split at h
    · next b hb =>
      cases h
      obtain ⟨q, errs⟩ := b
      cases errs with
      | nil =>
        refine ⟨_, .accept _ _ _ _ hH hb, List.prefix_append _ _, fun x hx => ?_⟩
        rcases List.mem_append.mp hx with hx | hx
        · exact .inl hx
        · exact .inr (hA x (List.mem_filter.mp hx).1)
      | cons e es => exact ⟨_, .reject _ _ _ _ _ _ hH hb, List.prefix_rfl, fun _ hx => .inl hx⟩
    · cases h
    · cases h
  cases c with
  | get => cases h; exact ⟨acc, hH, List.prefix_rfl, fun _ hx => .inl hx⟩
  | add f => exact hb _ h (fun x hx => .inl (by rw [List.mem_singleton.mp hx]))
  | decode b =>
    simp only [exec] at h
    split at h
    · cases h; exact ⟨acc, hH, List.prefix_rfl, fun _ hx => .inl hx⟩
    · next fs hf => exact hb _ h (fun x hx => .inr ⟨b, fs, rfl, hf, hx⟩)

theorem does_hist {g g' : Seq} {c : Call} {r : Resp} {acc : List FileP} (h : Does W g c r g')
    (hg : g'.poisoned = false) (hH : Hist W.env acc g.pool) :
    g.poisoned = false ∧ ∃ acc', Hist W.env acc' g'.pool ∧ acc <+: acc' ∧ ∀ x ∈ acc', x ∈ acc ∨ Adds W c x := by
  cases h with
  | ret h => exact ⟨rfl, exec_hist h hH⟩
  | panic => cases hg
  | refuse => cases hg

theorem does_clean {g g' : Seq} {c : Call} {r : Resp} (h : Does W g c r g') (hg : g'.poisoned = false) :
    g.poisoned = false := by
  cases h with
  | ret h => rfl
  | panic => cases hg
  | refuse => cases hg

theorem serial_clean {g g' : Seq} {l : List (Call × Resp)} (h : Serial W g l g') (hg : g'.poisoned = false) :
    g.poisoned = false := by
  induction h with
  | nil => exact hg
  | snoc _ h1 ih => exact ih (does_clean h1 hg)

theorem serial_hist {g g' : Seq} {l : List (Call × Resp)} (h : Serial W g l g') (hg : g'.poisoned = false)
    {acc : List FileP} (hH : Hist W.env acc g.pool) :
    ∃ acc', Hist W.env acc' g'.pool ∧ acc <+: acc' ∧ ∀ x ∈ acc', x ∈ acc ∨ ∃ c ∈ l.map (·.1), Adds W c x := by
  induction h with
  | nil => exact ⟨acc, hH, List.prefix_rfl, fun _ hx => .inl hx⟩
  | snoc _ h1 ih =>
    obtain ⟨acc1, h2, h3, o1⟩ := ih (does_clean h1 hg)
    obtain ⟨_, acc2, h4, h5, o2⟩ := does_hist h1 hg h2
    refine ⟨acc2, h4, h3.trans h5, fun x hx => ?_⟩
    rcases o2 x hx with hx | hx
    · rcases o1 x hx with hx | ⟨c, hc, hx⟩
      · exact .inl hx
      · exact .inr ⟨c, by rw [List.map_append]; exact List.mem_append_left _ hc, hx⟩
    · exact .inr ⟨_, by rw [List.map_append]; exact List.mem_append_right _ (List.mem_singleton.mpr rfl), hx⟩

theorem does_get {g g' : Seq} {q : Pool} (h : Does W g .get (.pool q) g') : g = ⟨q, false⟩ ∧ g' = ⟨q, false⟩ := by
  cases h with
  | ret h => cases h; exact ⟨rfl, rfl⟩

theorem does_done {g g' : Seq} {c : Call} {errs : List ErrKind} (h : Does W g c (.done errs) g') :
    ∃ fs, (c = .get → False) ∧ (∀ f, c = .add f → fs = [f]) ∧ (∀ b, c = .decode b → W.fds b = some fs) ∧
      buildFiles W.env g.pool fs = .ok ⟨g'.pool, errs⟩ ∧ g'.poisoned = false := by
  have hb : ∀ p p' fs, build W p fs = .ret p' (.done errs) → buildFiles W.env p fs = .ok ⟨p', errs⟩ := by
    intro p p' fs h
    unfold build at h
    split at h
    · next b hb => cases h; exact hb
    · cases h
    · cases h
  cases h with
  | ret h =>
    cases c with
    | get => cases h
    | add f => exact ⟨[f], nofun, fun _ e => by cases e; rfl, nofun, hb _ _ _ h, rfl⟩
    | decode b =>
      simp only [exec] at h
      split at h
      · cases h
      · next fs hf => exact ⟨fs, nofun, nofun, fun _ e => by cases e; exact hf, hb _ _ _ h, rfl⟩

/-- **C84**, nothing is lost: once a thread was told that its files were added, every copy of the global
pool that any thread asks for later has all of them. -/
theorem C84_visible (hsr : SearchOk W.env.search) {acc : List FileP} (hW : Hist W.env acc W.first)
    (h : Steps W (start p0) es s) {t t' : Nat} {c : Call} {q : Pool} {a b d e f : List Ev}
    (he : es = a ++ .call t c :: (b ++ .ret t (.done []) :: (d ++ .call t' .get :: (e ++ .ret t' (.pool q) :: f))))
    (hb : ∀ v ∈ b, v.thread ≠ t) (hb' : ∀ v ∈ e, v.thread ≠ t') {x : FileP}
    (hx : c = .add x ∨ ∃ bytes fs, c = .decode bytes ∧ W.fds bytes = some fs ∧ x ∈ fs) :
    ∃ i, q.fileByName x.name = some i := by
  obtain ⟨l, l', g1, g2, g3, g4, h1, h2, h3, h4, _⟩ := order h he hb hb'
  obtain ⟨rfl, rfl⟩ := does_get h4
  obtain ⟨fs, _, k2, k3, k4, k5⟩ := does_done h2
  have hx' : x ∈ fs := by
    rcases hx with rfl | ⟨bytes, fs', rfl, hf, hm⟩
    · rw [k2 _ rfl]
      exact List.mem_singleton.mpr rfl
    · have := k3 _ rfl
      rw [hf] at this
      cases this
      exact hm
  obtain ⟨acc1, H1, _⟩ := serial_hist h1 (does_clean h2 k5) hW
  have H2 := Hist.accept _ _ _ _ H1 k4
  obtain ⟨acc3, H3, hp, _⟩ := serial_hist h3 rfl H2
  have hin : ∃ i : Nat, ∃ y, acc3[i]? = some y ∧ y.name = x.name := by
    by_cases hn : (lookupN g1.pool.fileNames x.name).isNone
    · obtain ⟨i, hi⟩ := List.getElem?_of_mem (hp.subset (List.mem_append_right _ (List.mem_filter.mpr ⟨hx', hn⟩)))
      exact ⟨i, x, hi, rfl⟩
    · cases hl : lookupN g1.pool.fileNames x.name with
      | none => rw [hl] at hn; exact absurd rfl hn
      | some i =>
        obtain ⟨y, hy, hn⟩ := (C18_file hsr H1 x.name i).mp hl
        obtain ⟨j, hj⟩ := List.getElem?_of_mem (hp.subset (List.mem_append_left _ (List.mem_of_getElem? hy)))
        exact ⟨j, y, hj, hn⟩
  obtain ⟨i, y, hi, hn⟩ := hin
  exact ⟨i, (C18_file hsr H3 x.name i).mpr ⟨y, hi, hn⟩⟩

/-- **C84**, copies grow: of two copies of the global pool, the one asked for after the other one was there
is that pool after further additions, if any. In particular it has all of its files. -/
theorem C84_grows {acc : List FileP} (hW : Hist W.env acc W.first)
    (h : Steps W (start p0) es s) {t t' : Nat} {p q : Pool} {a b d e f : List Ev}
    (he : es = a ++ .call t .get :: (b ++ .ret t (.pool p) :: (d ++ .call t' .get :: (e ++ .ret t' (.pool q) :: f))))
    (hb : ∀ v ∈ b, v.thread ≠ t) (hb' : ∀ v ∈ e, v.thread ≠ t') :
    ∃ acc1 acc2, Hist W.env acc1 p ∧ Hist W.env acc2 q ∧ acc <+: acc1 ∧ acc1 <+: acc2 := by
  obtain ⟨l, l', g1, g2, g3, g4, h1, h2, h3, h4, _⟩ := order h he hb hb'
  obtain ⟨rfl, rfl⟩ := does_get h2
  obtain ⟨rfl, rfl⟩ := does_get h4
  obtain ⟨acc1, H1, k1, _⟩ := serial_hist h1 rfl hW
  obtain ⟨acc2, H2, k2, _⟩ := serial_hist h3 rfl H1
  exact ⟨acc1, acc2, H1, H2, k1, k2⟩

theorem serial_poisoned {g g' : Seq} {l : List (Call × Resp)} (h : Serial W g l g') (hg : g.poisoned = true) :
    g'.poisoned = true := by
  induction h with
  | nil => exact hg
  | snoc _ h1 ih =>
    have := ih
    cases h1 with
    | ret => cases this
    | panic => cases this
    | refuse => rfl

/-- No call answers with a panic of its own accord. -/
theorem exec_panic {p p' : Pool} {c : Call} : exec W p c ≠ .ret p' .panic := by
  have hb : ∀ fs, build W p fs ≠ .ret p' .panic := by
    intro fs h
    unfold build at h
    split at h <;> cases h
  intro h
  cases c with
  | get => cases h
  | add f => exact hb _ h
  | decode b =>
    simp only [exec] at h
    split at h
    · cases h
    · exact hb _ h

/-- **C84**, a panic is for ever: once a call has panicked, every call that begins later panics. -/
theorem C84_poisoned (h : Steps W (start p0) es s) {t t' : Nat} {c c' : Call} {r : Resp} {a b d e f : List Ev}
    (he : es = a ++ .call t c :: (b ++ .ret t .panic :: (d ++ .call t' c' :: (e ++ .ret t' r :: f))))
    (hb : ∀ v ∈ b, v.thread ≠ t) (hb' : ∀ v ∈ e, v.thread ≠ t') : r = .panic := by
  obtain ⟨l, l', g1, g2, g3, g4, h1, h2, h3, h4, _⟩ := order h he hb hb'
  have hg : g2.poisoned = true := by
    cases h2 with
    | ret h => exact absurd h exec_panic
    | panic => rfl
    | refuse => rfl
  have hg3 := serial_poisoned h3 hg
  cases h4 with
  | ret => cases hg3
  | panic => cases hg3
  | refuse => rfl

theorem serial_first {g g' : Seq} {l : List (Call × Resp)} (h : Serial W g l g') (hg : g.poisoned = false)
    {acc : List FileP} (hH : Hist W.env acc g.pool)
    (hp : (∃ c, (c, Resp.panic) ∈ l) ∨ g'.poisoned = true) :
    ∃ c acc' p, c ∈ l.map (·.1) ∧ Hist W.env acc' p ∧ acc <+: acc' ∧ exec W p c = .panic := by
  induction h with
  | nil =>
    rcases hp with ⟨c, hc⟩ | hp
    · cases hc
    · rw [hg] at hp; cases hp
  | @snoc g1 g2 l c r h0 h1 ih =>
    by_cases hq : (∃ c, (c, Resp.panic) ∈ l) ∨ g1.poisoned = true
    · obtain ⟨c, acc', p, k1, k2⟩ := ih hq
      exact ⟨c, acc', p, by rw [List.map_append]; exact List.mem_append_left _ k1, k2⟩
    · have hq1 : g1.poisoned = false := by
        cases hb : g1.poisoned with
        | false => rfl
        | true => exact absurd (.inr hb) hq
      obtain ⟨acc', H, k, _⟩ := serial_hist h0 hq1 hH
      refine ⟨c, acc', g1.pool, by simp, H, k, ?_⟩
      cases h1 with
      | ret h =>
        exfalso
        rcases hp with ⟨c', hc⟩ | hp
        · rcases List.mem_append.mp hc with hc | hc
          · exact hq (.inl ⟨c', hc⟩)
          · rw [List.mem_singleton] at hc
            cases hc
            exact exec_panic h
        · cases hp
      | panic _ h => exact h
      | refuse => cases hq1

/-- **C84**, panics: a call panics only if some call that was made panics when it is made alone, on a pool
with the well-known types and more. So as long as additions do not panic (C24), nothing does. -/
theorem C84_panics {acc : List FileP} (hW : Hist W.env acc W.first) (h : Steps W (start p0) es s) {t : Nat}
    (hp : .ret t .panic ∈ es) :
    ∃ t' c acc' p, .call t' c ∈ es ∧ Hist W.env acc' p ∧ acc <+: acc' ∧ exec W p c = .panic := by
  obtain ⟨L, g, rfl, hT, hS⟩ := C84_linear h
  obtain ⟨e, he, hs⟩ := List.mem_filterMap.mp hp
  have : e = .ret t .panic := by cases e <;> cases hs <;> rfl
  subst this
  obtain ⟨x, hx⟩ := hT t
  obtain ⟨c, hc⟩ := (turn_called hx).2.1 _ he
  obtain ⟨c', acc', p, k1, k2, k3, k4⟩ := serial_first hS rfl hW (.inl ⟨c, List.mem_filterMap.mpr ⟨_, hc, rfl⟩⟩)
  obtain ⟨⟨c'', r⟩, k5, rfl⟩ := List.mem_map.mp k1
  obtain ⟨e, k6, k7⟩ := List.mem_filterMap.mp k5
  cases e with
  | lin t' c3 r' =>
    cases k7
    obtain ⟨y, hy⟩ := hT t'
    exact ⟨t', c'', acc', p, List.mem_filterMap.mpr ⟨_, (turn_called hy).1 _ _ k6, rfl⟩, k2, k3, k4⟩
  | call => cases k7
  | ret => cases k7

/-- **C84**, no deadlock: in whatever state the threads are, every call can still come to its end, unless a
stack overflow ends the process. -/
theorem C84_ends (h : Steps W (start p0) es s) (t : Nat) :
    ∃ es' s', Steps W s es' s' ∧ (s'.dead = true ∨ s'.pc t = .idle) := by
  obtain ⟨L, g, h, _⟩ := Sim.steps h
  obtain ⟨es', s', h1, h2, _⟩ := all_end h t
  exact ⟨es', s', h1, h2⟩

/-! ### The hypotheses can be met -/

/-- Nobody has the mutex. -/
structure Calm (s : Global.St) : Prop where
  dead : s.dead = false
  once : s.once = .ready
  owner : s.owner = none
  clean : s.poisoned = false

/-- A thread that is about to lock goes on without interruption. -/
theorem go {s0 s : Global.St} {es : List Ev} (h0 : Steps W s0 es s) {t : Nat} {c : Call} {p' : Pool} {r : Resp}
    (hs : Calm s) (hp : s.pc t = .locking c)
    (he : exec W s.pool c = .ret p' r) : ∃ s', Steps W s0 (es ++ [.ret t r]) s' ∧ Calm s' ∧ s'.pool = p' ∧ s'.pc t = .idle ∧
      ∀ i, i ≠ t → s'.pc i = s.pc i := by
  have h1 := h0.quiet (.acquire (W := W) s t c hs.dead hp hs.owner)
  have h2 := h1.quiet (.enter _ t c hs.dead (at_same _ _ _) hs.clean)
  have h3 := h2.quiet (.finish _ t c s.pool p' r hs.dead (at_same _ _ _) he)
  have h4 := h3.quiet (.unlock _ t c r hs.dead (at_same _ _ _))
  have h5 := h4.seen (.ret _ t c r hs.dead (at_same _ _ _))
  refine ⟨_, h5, ⟨hs.dead, hs.once, rfl, hs.clean⟩, rfl, at_same _ _ _, fun i hi => ?_⟩
  rw [at_other _ _ hi, at_other _ _ hi]
  show (if i = t then _ else if i = t then _ else if i = t then _ else s.pc i) = s.pc i
  rw [if_neg hi, if_neg hi, if_neg hi]

/-- One that panics. -/
theorem crash {s0 s : Global.St} {es : List Ev} (h0 : Steps W s0 es s) {t : Nat} {c : Call} (hs : Calm s) (hp : s.pc t = .locking c)
    (he : exec W s.pool c = .panic) : ∃ s', Steps W s0 (es ++ [.ret t .panic]) s' ∧ s'.dead = false ∧ s'.once = .ready ∧
      s'.owner = none ∧ s'.poisoned = true ∧ ∀ i, i ≠ t → s'.pc i = s.pc i := by
  have h1 := h0.quiet (.acquire (W := W) s t c hs.dead hp hs.owner)
  have h2 := h1.quiet (.enter _ t c hs.dead (at_same _ _ _) hs.clean)
  have h3 := h2.quiet (.panic _ t c s.pool hs.dead (at_same _ _ _) he)
  have h4 := h3.quiet (.poison _ t c hs.dead (at_same _ _ _))
  have h5 := h4.seen (.ret _ t c .panic hs.dead (at_same _ _ _))
  refine ⟨_, h5, hs.dead, hs.once, rfl, rfl, fun i hi => ?_⟩
  rw [at_other _ _ hi, at_other _ _ hi]
  show (if i = t then _ else if i = t then _ else if i = t then _ else s.pc i) = s.pc i
  rw [if_neg hi, if_neg hi, if_neg hi]

/-- Thread 1 asks for the pool, thread 0 adds files and makes the pool while thread 1 waits; both return;
then thread 2 asks for the pool. -/
theorem two_threads (W : World) {c : Call} {q : Pool} (he : exec W W.first c = .ret q (.done [])) :
    ∃ s, Steps W (start Pool.empty) [.call 1 .get, .call 0 c, .ret 0 (.done []), .ret 1 (.pool q), .call 2 .get,
      .ret 2 (.pool q)] s := by
  have h1 := (Steps.nil (W := W) (start Pool.empty)).seen (.call _ 1 .get rfl rfl)
  have h2 := h1.seen (.call _ 0 c rfl rfl)
  have h3 := h2.quiet (.start _ 0 c rfl rfl rfl)
  have h4 := h3.quiet (.init _ 0 c rfl rfl)
  have h5 := h4.quiet (.ready _ 1 .get rfl rfl rfl)
  obtain ⟨s6, h6, k6, e6, _, o6⟩ := go h5 (t := 0) (c := c) ⟨rfl, rfl, rfl, rfl⟩ rfl he
  obtain ⟨s8, h8, k8, e8, _, o8⟩ := go h6 (t := 1) (c := .get) k6 (by rw [o6 1 (by decide)]; rfl) rfl
  have h10 := h8.seen (.call _ 2 .get k8.dead (by rw [o8 2 (by decide), o6 2 (by decide)]; rfl))
  have h11 := h10.quiet (.ready _ 2 .get k8.dead rfl k8.once)
  obtain ⟨s12, h12, _⟩ := go h11 (t := 2) (c := .get) ⟨k8.dead, k8.once, k8.owner, k8.clean⟩ rfl rfl
  refine ⟨s12, ?_⟩
  have e : ((s8.at 2 (.called .get)).at 2 (.locking .get)).pool = q := e8.trans e6
  rw [e, e6] at h12
  exact h12

/-- Thread 0 makes an addition that panics while thread 1 waits, which then panics too. -/
theorem two_panics (W : World) {c : Call} (he : exec W W.first c = .panic) :
    ∃ s, Steps W (start Pool.empty) [.call 0 c, .call 1 .get, .ret 0 .panic, .ret 1 .panic, .call 2 .get, .ret 2 .panic] s := by
  have h1 := (Steps.nil (W := W) (start Pool.empty)).seen (.call _ 0 c rfl rfl)
  have h2 := h1.seen (.call _ 1 .get rfl rfl)
  have h3 := h2.quiet (.start _ 0 c rfl rfl rfl)
  have h4 := h3.quiet (.init _ 0 c rfl rfl)
  have h5 := h4.quiet (.ready _ 1 .get rfl rfl rfl)
  obtain ⟨s6, h6, d6, r6, w6, b6, o6⟩ := crash h5 (t := 0) (c := c) ⟨rfl, rfl, rfl, rfl⟩ rfl he
  have p6 : s6.pc 1 = .locking .get := by rw [o6 1 (by decide)]; rfl
  have p6' : s6.pc 2 = .idle := by rw [o6 2 (by decide)]; rfl
  have h7 := h6.quiet (.acquire _ 1 .get d6 p6 w6)
  have h8 := h7.quiet (.refuse _ 1 .get d6 (at_same _ _ _) b6)
  have h9 := h8.quiet (.poison _ 1 .get d6 (at_same _ _ _))
  have h10 := h9.seen (.ret _ 1 .get .panic d6 (at_same _ _ _))
  have h11 := h10.seen (.call _ 2 .get d6 p6')
  have h12 := h11.quiet (.ready _ 2 .get d6 (at_same _ _ _) r6)
  have h13 := h12.quiet (.acquire _ 2 .get d6 (at_same _ _ _) rfl)
  have h14 := h13.quiet (.refuse _ 2 .get d6 (at_same _ _ _) rfl)
  have h15 := h14.quiet (.poison _ 2 .get d6 (at_same _ _ _))
  exact ⟨_, h15.seen (.ret _ 2 .get .panic d6 (at_same _ _ _))⟩

/-- A world whose first pool has `fileA`. -/
theorem world_ex : ∃ (W : World) (acc : List FileP) (q : Pool), W.env = env0 ∧ Hist W.env acc W.first ∧
    acc = [fileA] ∧ exec W W.first (.add fileB) = .ret q (.done []) ∧ lookupN W.first.fileNames (nm "e.proto") = none := by
  have h : ∃ p q, buildFiles env0 Pool.empty [fileA] = .ok ⟨p, []⟩ ∧ buildFiles env0 p [fileB] = .ok ⟨q, []⟩ ∧
      lookupN p.fileNames (nm "e.proto") = none := by
    have hc : (match buildFiles env0 Pool.empty [fileA] with
      | .ok ⟨p, []⟩ => (match buildFiles env0 p [fileB] with
        | .ok ⟨_, []⟩ => (lookupN p.fileNames (nm "e.proto")).isNone
        | _ => false)
      | _ => false) = true := by decide +kernel
    split at hc
    · next p h1 =>
      split at hc
      · next q h2 => exact ⟨p, q, h1, h2, by simpa using hc⟩
      · cases hc
    · cases hc
  obtain ⟨p, q, h1, h2, h3⟩ := h
  refine ⟨⟨env0, fun _ => none, p⟩, [fileA], q, rfl, ?_, rfl, ?_, h3⟩
  · exact Hist.accept _ _ _ _ .empty h1
  · simp only [exec, build, h2]

/-- C84_visible and C84_grows: a run as they want it. -/
example : ∃ (W : World) (acc : List FileP) (q : Pool) (s : Global.St) (a d f : List Ev), SearchOk W.env.search ∧
    Hist W.env acc W.first ∧ Steps W (start Pool.empty)
      (a ++ .call 0 (.add fileB) :: ([] ++ .ret 0 (.done []) :: (d ++ .call 2 .get :: ([] ++ .ret 2 (.pool q) :: f)))) s ∧
    a ≠ [] ∧ d ≠ [] := by
  obtain ⟨W, acc, q, e, hH, _, he, _⟩ := world_ex
  obtain ⟨s, hs⟩ := two_threads W he
  exact ⟨W, acc, q, s, [.call 1 .get], [.ret 1 (.pool q)], [], by rw [e]; exact linearSearch_ok, hH, hs, by simp, by simp⟩

/-- **C84 is false for `global()`: it does not always return.** After one addition that panicked, such as of
a file with `syntax = "editions"` (C24_syntax_false), `global()` panics in every thread, and so does
`descriptor()` of the well-known types, which calls it. -/
theorem C84_false : ∃ (W : World) (acc : List FileP) (f : FileP) (s : Global.St), Hist W.env acc W.first ∧
    Steps W (start Pool.empty) [.call 0 (.add f), .call 1 .get, .ret 0 .panic, .ret 1 .panic, .call 2 .get, .ret 2 .panic] s := by
  obtain ⟨W, acc, q, e, hH, _, _, hn⟩ := world_ex
  have : exec W W.first (.add { name := nm "e.proto", syn := some (nm "editions") }) = .panic := by
    simp only [exec, build]
    rw [C24_syntax_false W.env W.first _ hn (by decide)]
  obtain ⟨s, hs⟩ := two_panics W this
  exact ⟨W, acc, _, s, hH, hs⟩

end Verif.Props
