import Verif.Pool.HeapEq
import Verif.Props.PoolClones
/-!
C85: when descriptors are equal.
-/
set_option autoImplicit false
namespace Verif.Props
open Verif.Pool Verif.Pool.Heap

variable {P : Type}

/-- Pools that are there can be compared. -/
theorem same_some {s : St P} {n n' : Nat} {x y : Handle} (hx : s.handle n = some x) (hy : s.handle n' = some y) :
    s.same n n' = some (x.cell == y.cell) := by
  unfold St.same
  rw [hx, hy]

theorem same_inv {s : St P} {n n' : Nat} {b : Bool} (h : s.same n n' = some b) :
    ∃ x y, s.handle n = some x ∧ s.handle n' = some y ∧ b = (x.cell == y.cell) := by
  unfold St.same at h
  split at h
  · next x y hx hy => cases h; exact ⟨x, y, hx, hy, rfl⟩
  · cases h

/-- **C85.** Whatever was done with any number of pools and descriptors, in any order, two of them are equal
exactly if what they point to was made by the same action: a call that made a pool, or the beginning of an
addition. Addresses that are used again do not matter. -/
theorem C85_iff {ops : List (Op P)} {s : St P} (h : Run St.init ops s) {n n' : Nat} {b : Bool} (hs : s.same n n' = some b) :
    b = true ↔ (born ops)[n]? = (born ops)[n']? := by
  obtain ⟨x, y, hx, hy, rfl⟩ := same_inv hs
  rw [beq_iff_eq]
  exact (Born.init.run Inv.init h).iff n n' x y hx hy

/-- **C85**, equal descriptors are interchangeable: they have the same index and their pools show the same. -/
theorem C85_shows {s : St P} {n i n' i' : Nat} (hs : s.sameDesc n i n' i' = some true) :
    i = i' ∧ s.view n = s.view n' := by
  unfold St.sameDesc at hs
  split at hs
  · next b hb =>
    obtain ⟨x, y, hx, hy, rfl⟩ := same_inv hb
    simp only [Option.some.injEq, Bool.and_eq_true, beq_iff_eq] at hs
    refine ⟨hs.2, ?_⟩
    rw [view_of hx, view_of hy, hs.1]
  · cases hs

theorem handle_len {s : St P} {t : List Nat} {k n : Nat} {x : Handle} (hB : Born s t k) (e : s.handle n = some x) :
    n < t.length := by rw [hB.len]; exact handle_lt e

/-- **C85**, equality lasts: what is equal stays equal, as long as no addition is made through one of the two. -/
theorem C85_lasts {ops ops' : List (Op P)} {s s' : St P} (h : Run St.init ops s) (h' : Run s ops' s') {n n' : Nat}
    (hs : s.same n n' = some true) {b : Bool} (hs' : s'.same n n' = some b)
    (ho : ∀ op ∈ ops', ∀ a, op ≠ .begin n a ∧ op ≠ .begin n' a) : b = true := by
  have hI := run_inv h Inv.init
  have hB := Born.init.run Inv.init h
  obtain ⟨x, y, hx, hy, e⟩ := same_inv hs
  obtain ⟨x', y', hx', hy', rfl⟩ := same_inv hs'
  rw [beq_iff_eq, ((hB.run hI h').iff n n' x' y' hx' hy'),
    bornFrom_keeps (handle_len hB hx) (fun op hop a => (ho op hop a).1),
    bornFrom_keeps (handle_len hB hy) (fun op hop a => (ho op hop a).2)]
  exact (hB.iff n n' x y hx hy).mp (beq_iff_eq.mp e.symm)

/-- **C85**, difference is for ever: what is not equal never becomes equal. -/
theorem C85_apart {ops ops' : List (Op P)} {s s' : St P} (h : Run St.init ops s) (h' : Run s ops' s') {n n' : Nat}
    (hs : s.same n n' = some false) {b : Bool} (hs' : s'.same n n' = some b) : b = false := by
  have hI := run_inv h Inv.init
  have hB := Born.init.run Inv.init h
  obtain ⟨x, y, hx, hy, e⟩ := same_inv hs
  obtain ⟨x', y', hx', hy', rfl⟩ := same_inv hs'
  have hne := bornFrom_apart (ops := ops') (handle_len hB hx) (handle_len hB hy) hB.lt
    (fun hc => by
      have := (hB.iff n n' x y hx hy).mpr hc
      rw [beq_iff_eq.mpr this] at e
      cases e)
  cases hb : x'.cell == y'.cell with
  | false => rfl
  | true => exact absurd (((hB.run hI h').iff n n' x' y' hx' hy').mp (beq_iff_eq.mp hb)) hne

/-- **C85**, clones: a clone, and a descriptor taken from a pool, is equal to it. -/
theorem C85_clone {ops : List (Op P)} {s s' : St P} (h : Run St.init ops s) {n : Nat}
    (hs : step s (.clone n) = some (.ok s')) : s'.same s.handles.length n = some true := by
  have hI := run_inv h Inv.init
  simp only [step] at hs
  split at hs
  · cases hs
  · next x e =>
    split at hs
    · cases hs
    · obtain ⟨c, hc, _⟩ := hI.cell e
      simp only [incr, hc, out] at hs
      cases hs
      have hl := handle_lt e
      unfold St.same
      rw [handle_append, if_pos rfl, handle_append, if_neg (Nat.ne_of_lt hl), e]
      simp

/-- An addition of new files, as actions. -/
theorem addFiles_run {env : Env} {s s' : St Pool} {n a : Nat} {fs : List FileP} {errs : List ErrKind} {p : Pool}
    (hp : s.view n = some p) (ha : addFiles env s n a fs = some (s', errs))
    (hnew : ∃ f ∈ fs, lookupN p.fileNames f.name = none) :
    ∃ q, Run s [.begin n a, .write n q, .finish n] s' ∧ buildFiles env p fs = .ok ⟨q, errs⟩ := by
  unfold addFiles at ha
  rw [hp] at ha
  simp only at ha
  split at ha
  · next hf =>
    obtain ⟨f, hm, hn⟩ := hnew
    have : f ∈ fs.filter fun f => (lookupN p.fileNames f.name).isNone := List.mem_filter.mpr ⟨hm, by rw [hn]; rfl⟩
    rw [hf] at this
    cases this
  · split at ha
    · cases ha
    · next b hb =>
      split at ha
      · next s1 h1 =>
        split at ha
        · next s2 h2 =>
          split at ha
          · next s3 h3 =>
            cases ha
            exact ⟨_, .cons h1 (.cons h2 (.cons h3 (.nil _))), hb⟩
          · cases ha
        · cases ha
      · cases ha

/-- **C85**, additions: after an addition of a file that the pool did not have, accepted or not, the pool is
equal to no other pool and no descriptor that there was. -/
theorem C85_add {env : Env} {ops : List (Op Pool)} {s s' : St Pool} (h : Run St.init ops s) {n a : Nat} {fs : List FileP}
    {errs : List ErrKind} {p : Pool} (hp : s.view n = some p) (ha : addFiles env s n a fs = some (s', errs))
    (hnew : ∃ f ∈ fs, lookupN p.fileNames f.name = none) {n' : Nat} (hn : n' ≠ n) (hl : n' < s.handles.length)
    {b : Bool} (hs : s'.same n n' = some b) : b = false := by
  obtain ⟨q, hr, _⟩ := addFiles_run hp ha hnew
  have hI := run_inv h Inv.init
  have hB := Born.init.run Inv.init h
  obtain ⟨x, y, hx, hy, rfl⟩ := same_inv hs
  have hB' := hB.run hI hr
  have hlen : n < (bornFrom ([] : List Nat) 0 ops).length := by
    have : (s.handle n).isSome := by
      cases e : s.handle n with
      | none => unfold St.view at hp; rw [e] at hp; cases hp
      | some z => rfl
    obtain ⟨z, hz⟩ := Option.isSome_iff_exists.mp this
    exact handle_len hB hz
  cases hb : x.cell == y.cell with
  | false => rfl
  | true =>
    exfalso
    have := (hB'.iff n n' x y hx hy).mp (beq_iff_eq.mp hb)
    simp only [bornFrom, bornStep] at this
    rw [List.getElem?_set_self hlen, List.getElem?_set_ne (Ne.symm hn)] at this
    have := hB.lt _ (List.mem_of_getElem? this.symm)
    omega

/-- **C85**, additions of files that are known change nothing. -/
theorem C85_known {env : Env} {s s' : St Pool} {n a : Nat} {fs : List FileP}
    {errs : List ErrKind} {p : Pool} (hp : s.view n = some p) (ha : addFiles env s n a fs = some (s', errs))
    (hold : ∀ f ∈ fs, lookupN p.fileNames f.name ≠ none) : s' = s ∧ errs = [] := by
  unfold addFiles at ha
  rw [hp] at ha
  simp only at ha
  rw [if_pos (List.filter_eq_nil_iff.mpr fun f hf h => hold f hf (by simpa using h))] at ha
  cases ha
  exact ⟨rfl, rfl⟩

/-! ### The hypotheses can be met -/

theorem twoPools_run : Run St.init [.new 7 Pool.empty, .clone 0] twoPools :=
  .cons rfl (.cons (by
    show some (Out.ok _) = _
    congr 3
    funext i
    simp only [upd]
    split <;> rfl) (.nil _))

/-- C85_iff and C85_apart: in the run of C28, the address 8 is used again. -/
example : born (exOps.take 3) = [2, 0] ∧ (runAll St.init (exOps.take 3)).same 0 1 = some false ∧
    (runAll St.init (exOps.take 2)).same 0 1 = some true := by decide

/-- C85_lasts: a third handle is changed and dropped. -/
example : ∃ s s' : St Nat, Run St.init [.new 7 100, .clone 0] s ∧ s.same 0 1 = some true ∧
    Run s [.clone 0, .begin 2 8, .write 2 5, .finish 2, .drop 2] s' ∧ s'.same 0 1 = some true :=
  ⟨_, _, .cons rfl (.cons rfl (.nil _)), rfl,
    .cons rfl (.cons rfl (.cons rfl (.cons rfl (.cons rfl (.nil _))))), rfl⟩

/-- A file that imports one that is not there. -/
def lost : FileP := { name := nm "x.proto", deps := [nm "y.proto"] }

/-- **C85 is not what one expects of additions.** A pool and a clone of it are equal. After an addition that
was refused and left the pool as it was, they are not equal any more; so a descriptor taken before is not equal
to one taken afterwards, and messages made with one are not equal to messages made with the other. -/
theorem C85_failed_false : ∃ (ops : List (Op Pool)) (s s' : St Pool) (e : ErrKind) (es : List ErrKind),
    Run St.init ops s ∧ s.sameDesc 0 0 1 0 = some true ∧ addFiles env0 s 0 8 [lost] = some (s', e :: es) ∧
    s'.view 0 = s.view 0 ∧ s'.view 1 = s.view 1 ∧ s'.sameDesc 0 0 1 0 = some false := by
  have hb : ∃ q e es, buildFiles env0 Pool.empty [lost] = .ok ⟨q, e :: es⟩ ∧ q = Pool.empty := by
    have hc : (match buildFiles env0 Pool.empty [lost] with
      | .ok ⟨⟨[], [], [], [], [], [], []⟩, _ :: _⟩ => true
      | _ => false) = true := by decide +kernel
    split at hc
    · next e es h => exact ⟨_, e, es, h, rfl⟩
    · cases hc
  obtain ⟨q, e, es, hb, rfl⟩ := hb
  obtain ⟨s', ha⟩ := C28_add_runs (env := env0) twoPools_run (n := 0) (a := 8) (x := ⟨7, false, 0⟩) rfl rfl rfl
    (fs := [lost]) (p := Pool.empty) rfl hb
  obtain ⟨p, b, h1, h2, h3, h4, h5⟩ := C28_add twoPools_run ha
  cases (show some Pool.empty = some p from h1)
  rw [hb] at h2
  cases h2
  refine ⟨_, _, s', e, es, twoPools_run, rfl, ha, h4, h5 1 (by decide) (by decide), ?_⟩
  have hI := run_inv twoPools_run Inv.init
  obtain ⟨q, hr, _⟩ := addFiles_run (p := Pool.empty) rfl ha ⟨lost, List.mem_singleton.mpr rfl, rfl⟩
  have hI' := run_inv hr hI
  have hlive : ∀ n, s'.view n = some Pool.empty → ∃ x, s'.handle n = some x := by
    intro n hn
    cases hh : s'.handle n with
    | none => unfold St.view at hn; rw [hh] at hn; cases hn
    | some x => exact ⟨x, rfl⟩
  obtain ⟨x, hx⟩ := hlive 0 h4
  obtain ⟨y, hy⟩ := hlive 1 (h5 1 (by decide) (by decide))
  have hs := same_some hx hy
  have := C85_add twoPools_run (p := Pool.empty) rfl ha ⟨lost, List.mem_singleton.mpr rfl, rfl⟩ (n' := 1) (by decide)
    (by decide) hs
  unfold St.sameDesc
  rw [hs, this]
  rfl

/-- C85_add and C85_known: an addition that is accepted, and the same once more. -/
example : ((addFiles env0 twoPools 0 8 [fileA, fileB]).map fun r => (r.1.same 0 1, r.2.isEmpty,
    (addFiles env0 r.1 0 9 [fileB]).map fun r' => (r'.1.same 0 1, r'.2.isEmpty))) =
    some (some false, true, some (some false, true)) := by decide +kernel

end Verif.Props
