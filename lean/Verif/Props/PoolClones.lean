import Verif.Pool.Heap
import Verif.Props.PoolExample
/-!
Clones of a pool are isolated (C28).

Handles are pools and descriptors alike; the handle of the global pool is one of them, which only
`add_global_file_descriptor_proto` and `decode_global_file_descriptor_set` act on, under a mutex
(global.rs:9-14), and which `DescriptorPool::global` clones.
-/
set_option autoImplicit false
namespace Verif.Props
open Verif.Pool Verif.Pool.Heap

variable {P : Type}

theorem run_inv {s s' : St P} {ops : List (Op P)} (h : Run s ops s') (hI : Inv s) : Inv s' := by
  induction h with
  | nil => exact hI
  | cons h1 _ ih =>
    obtain ⟨_, e, hd⟩ := step_did hI h1
    cases e
    exact ih hd.inv

theorem run_grows {s s' : St P} {ops : List (Op P)} (h : Run s ops s') (hI : Inv s) :
    s.handles.length ≤ s'.handles.length := by
  induction h with
  | nil => exact Nat.le_refl _
  | cons h1 _ ih =>
    obtain ⟨_, e, hd⟩ := step_did hI h1
    cases e
    exact Nat.le_trans hd.grows (ih hd.inv)

/-- **C28**, no crash: whatever was done with any number of handles, in any order, an action never
follows a dangling handle, and `Arc::get_mut(..).unwrap()` never panics, although other handles may be
cloned, changed and dropped while an addition is running. -/
theorem C28_safe {ops : List (Op P)} {s : St P} (h : Run St.init ops s) {op : Op P} {o : Out P}
    (hs : step s op = some o) : ∃ s', o = .ok s' := by
  obtain ⟨s', e, _⟩ := step_did (run_inv h Inv.init) hs
  exact ⟨s', e⟩

/-- **C28.** Whatever is done through other handles, in any order, a handle reports the same. -/
theorem C28_isolated {ops ops' : List (Op P)} {s s' : St P} (h : Run St.init ops s) (h' : Run s ops' s')
    {n : Nat} (hn : n < s.handles.length) (ho : ∀ op ∈ ops', op.on ≠ some n) : s'.view n = s.view n := by
  have hI := run_inv h Inv.init
  clear h
  induction h' with
  | nil => rfl
  | cons h1 _ ih =>
    obtain ⟨_, e, hd⟩ := step_did hI h1
    cases e
    rw [ih (Nat.lt_of_lt_of_le hn hd.grows) (fun op hop => ho op (List.mem_cons_of_mem _ hop)) hd.inv]
    exact hd.other n hn (ho _ List.mem_cons_self)

/-- **C28**, refinement: a handle behaves as if it had a pool of its own.  What it reports after any
interleaving is what its own actions make of what it reported before. -/
theorem C28_own {ops ops' : List (Op P)} {s s' : St P} (h : Run St.init ops s) (h' : Run s ops' s')
    {n : Nat} (hn : n < s.handles.length) :
    s'.view n = (ops'.filter (fun op => decide (op.on = some n))).foldl (fun v op => op.value v) (s.view n) := by
  have hI := run_inv h Inv.init
  clear h
  induction h' with
  | nil => rfl
  | @cons s s1 s2 op ops h1 _ ih =>
    obtain ⟨_, e, hd⟩ := step_did hI h1
    cases e
    rw [ih (Nat.lt_of_lt_of_le hn hd.grows) hd.inv]
    by_cases ho : op.on = some n
    · rw [List.filter_cons_of_pos (by simpa using ho), List.foldl_cons, hd.own n ho]
    · rw [List.filter_cons_of_neg (by simpa using ho), hd.other n hn ho]

/-- **C28**, clones: a clone reports what the original reports at that moment. -/
theorem C28_clone {ops : List (Op P)} {s s' : St P} (h : Run St.init ops s) {n : Nat}
    (hs : step s (.clone n) = some (.ok s')) : s'.view s.handles.length = s.view n ∧ (s.view n).isSome := by
  have hI := run_inv h Inv.init
  simp only [step] at hs
  split at hs
  · cases hs
  · next x e =>
    split at hs
    · cases hs
    · obtain ⟨c, hc, _⟩ := hI.cell e
      simp only [incr, hc, out] at hs
      cases hs
      constructor
      · unfold St.view
        rw [handle_append, if_pos rfl, e]
        simp [upd_same, hc]
      · rw [view_of e, hc]
        rfl

/-- **C28**, memory: a pool is kept exactly as long as some handle points to it. -/
theorem C28_freed {ops : List (Op P)} {s : St P} (h : Run St.init ops s) (c : Nat) :
    (s.cells c).isSome ↔ ∃ n x, s.handle n = some x ∧ x.cell = c := by
  have hI := run_inv h Inv.init
  constructor
  · intro hc
    have hcount := hI.count c
    cases e : s.cells c with
    | none => rw [e] at hc; cases hc
    | some x =>
      rw [e] at hcount
      have hpos : 0 < refs c s.handles := by omega
      have key : ∀ hs : List (Option Handle), 0 < refs c hs → ∃ n : Nat, ∃ y : Handle, hs[n]? = some (some y) ∧ y.cell = c := by
        intro hs
        induction hs with
        | nil => intro h; simp [refs] at h
        | cons z r ih =>
          intro hz
          by_cases hw : weight c z = 0
          · obtain ⟨n, y, h1, h2⟩ := ih (by simp only [refs] at hz; omega)
            exact ⟨n + 1, y, by simpa using h1, h2⟩
          · cases z with
            | none => exact absurd rfl hw
            | some y =>
              refine ⟨0, y, rfl, ?_⟩
              apply Classical.byContradiction
              intro hy
              simp [weight, hy] at hw
      obtain ⟨n, y, h1, h2⟩ := key _ hpos
      exact ⟨n, y, get_handle h1, h2⟩
  · rintro ⟨n, x, e, rfl⟩
    obtain ⟨y, hy, _⟩ := hI.cell e
    rw [hy]
    rfl

/-- **C28**, additions: adding files through a handle whose pool may be shared changes what this
handle reports just as `buildFiles` says, and what no other handle reports. -/
theorem C28_add {env : Env} {ops : List (Op Pool)} {s s' : St Pool} (h : Run St.init ops s) {n a : Nat}
    {fs : List FileP} {errs : List ErrKind} (ha : addFiles env s n a fs = some (s', errs)) :
    ∃ p b, s.view n = some p ∧ buildFiles env p fs = .ok b ∧ b.errors = errs ∧ s'.view n = some b.pool ∧
      ∀ n', n' ≠ n → n' < s.handles.length → s'.view n' = s.view n' := by
  have hI := run_inv h Inv.init
  unfold addFiles at ha
  split at ha
  · cases ha
  · next p hp =>
    split at ha
    · next hf =>
      cases ha
      refine ⟨p, ⟨p, []⟩, hp, ?_, rfl, hp, fun _ _ _ => rfl⟩
      unfold buildFiles
      exact if_pos hf
    · split at ha
      · cases ha
      · next b hb =>
        split at ha
        · next s1 h1 =>
          split at ha
          · next s2 h2 =>
            split at ha
            · next s3 h3 =>
              cases ha
              obtain ⟨_, e1, d1⟩ := step_did hI h1
              cases e1
              obtain ⟨_, e2, d2⟩ := step_did d1.inv h2
              cases e2
              obtain ⟨_, e3, d3⟩ := step_did d2.inv h3
              cases e3
              refine ⟨p, b, hp, hb, rfl, ?_, fun n' hn hl => ?_⟩
              · rw [d3.own n rfl, d2.own n rfl]
                rfl
              · have hne : ∀ op : Op Pool, op.on = some n → op.on ≠ some n' := by
                  intro op e1 e2
                  rw [e1] at e2
                  cases e2
                  exact hn rfl
                have l1 := d1.grows
                have l2 := d2.grows
                rw [d3.other n' (by omega) (hne _ rfl), d2.other n' (by omega) (hne _ rfl), d1.other n' hl (hne _ rfl)]
            · cases ha
          · cases ha
        · cases ha

/-- **C28**, additions are possible: through an idle handle, with a free address for a copy, an
addition that does not panic goes through. -/
theorem C28_add_runs {env : Env} {ops : List (Op Pool)} {s : St Pool} (h : Run St.init ops s) {n a : Nat} {x : Handle}
    (hx : s.handle n = some x) (hb : x.busy = false) (hfree : s.cells a = none) {fs : List FileP} {p : Pool} {b : Built}
    (hp : s.view n = some p) (hB : buildFiles env p fs = .ok b) : ∃ s', addFiles env s n a fs = some (s', b.errors) := by
  have hI := run_inv h Inv.init
  unfold addFiles
  rw [hp]
  simp only
  split
  · next hf =>
    unfold buildFiles at hB
    rw [if_pos hf] at hB
    cases hB
    exact ⟨s, rfl⟩
  · rw [hB]
    obtain ⟨c, hc, _⟩ := hI.cell hx
    have g1 : ∃ s1, step s (.begin n a) = some (.ok s1) ∧ ∃ c, s1.handle n = some ⟨c, true, 0⟩ := by
      by_cases hone : c.count = 1
      · have : step s (.begin n a) = some (.ok ⟨s.cells, s.handles.set n (some ⟨x.cell, true, 0⟩)⟩) := by
          simp only [step, hx, hb, hc, if_pos hone]
          rfl
        exact ⟨_, this, x.cell, by rw [handle_set hx, if_pos rfl]⟩
      · have hax : x.cell ≠ a := by rintro rfl; rw [hfree] at hc; cases hc
        have : ∃ cells, step s (.begin n a) = some (.ok ⟨cells, s.handles.set n (some ⟨a, true, 0⟩)⟩) := by
          simp only [step, hx, hb, hc, if_neg hone, hfree, decr, upd_other _ _ hax]
          exact ⟨_, rfl⟩
        obtain ⟨cells, this⟩ := this
        exact ⟨_, this, a, by rw [handle_set hx, if_pos rfl]⟩
    obtain ⟨s1, e1, c1, hc1⟩ := g1
    obtain ⟨_, e, d1⟩ := step_did hI e1
    cases e
    have g2 : ∃ s2, step s1 (.write n b.pool) = some (.ok s2) ∧ ∃ c, s2.handle n = some ⟨c, true, 0⟩ := by
      obtain ⟨d, hd, hcount, _⟩ := d1.inv.cell hc1
      have ho := d1.inv.owner n _ hc1 rfl
      have h1 : d.count = 1 := by simp only at hcount ho; omega
      have : step s1 (.write n b.pool) = some (.ok ⟨upd s1.cells c1 (some { d with pool := b.pool }), s1.handles⟩) := by
        simp only [step, hc1]
        rw [if_neg (by simp)]
        simp only [hd, if_pos h1]
      exact ⟨_, this, c1, hc1⟩
    obtain ⟨s2, e2, c2, hc2⟩ := g2
    have g3 : ∃ s3, step s2 (.finish n) = some (.ok s3) := by
      simp only [step, hc2]
      rw [if_neg (by simp)]
      exact ⟨_, rfl⟩
    obtain ⟨s3, e3⟩ := g3
    refine ⟨s3, ?_⟩
    simp only [e1, e2, e3]

/-! ### The hypotheses can be met -/

/-- Two threads share a pool; one adds to it while the other clones and drops, and adds to its own;
an address is used again. -/
def exOps : List (Op Nat) :=
  [.new 7 100, .clone 0, .begin 0 8, .clone 1, .tmp 0, .write 2 5, .drop 1, .untmp 0, .write 0 200, .begin 2 9,
    .write 2 300, .finish 0, .finish 2, .drop 0, .new 8 400]

/-- Runs the actions that are possible and skips the others. -/
def runAll (s : St Nat) : List (Op Nat) → St Nat
  | [] => s
  | op :: ops =>
    match step s op with
    | some (.ok s') => runAll s' ops
    | _ => runAll s ops

example : (runAll St.init exOps).handles.map (Option.map (·.cell)) = [none, none, some 7, some 8] := by decide
example : (List.range 5).map (runAll St.init exOps).view = [none, none, some 300, some 400, none] := by decide
example : ∃ s, Run (St.init : St Nat) [.new 7 100, .clone 0, .begin 0 8, .write 0 200] s ∧ s.view 0 = some 200 ∧
    s.view 1 = some 100 :=
  ⟨_, .cons rfl (.cons rfl (.cons rfl (.cons rfl (.nil _)))), rfl, rfl⟩

/-- Two handles on an empty pool. -/
def twoPools : St Pool := ⟨upd (fun _ => none) 7 (some ⟨2, Pool.empty⟩), [some ⟨7, false, 0⟩, some ⟨7, false, 0⟩]⟩
example : Run St.init [.new 7 Pool.empty, .clone 0] twoPools :=
  .cons rfl (.cons (by
    show some (Out.ok _) = _
    congr 3
    funext i
    simp only [upd]
    split <;> rfl) (.nil _))
example : ((addFiles env0 twoPools 0 8 [fileA, fileB]).map fun r => (r.2,
    (r.1.view 0).map fun p => p.messages.length, (r.1.view 1).map fun p => p.messages.length)) =
    some ([], some 3, some 0) := by decide +kernel

/-- Without the copy, the other handle would see the change: this is what the theorems rule out. -/
example : ∃ s : St Nat, ¬ Inv s := ⟨⟨fun _ => none, [some ⟨0, false, 0⟩]⟩, fun h => by
  obtain ⟨c, hc, _⟩ := h.cell (h := 0) (x := ⟨0, false, 0⟩) rfl
  cases hc⟩

end Verif.Props
