import Verif.Pool.Heap
/-!
Equality of pools and descriptors: `Arc::ptr_eq` of the pools (descriptor/api.rs:535-539) and equal
indices (the derived `PartialEq` of the descriptors, descriptor/mod.rs:174-313).
-/
set_option autoImplicit false
namespace Verif.Pool.Heap

variable {P : Type}

/-- `==` of two pools (api.rs:535-539); `none` if one of them is not there any more. -/
def St.same (s : St P) (n n' : Nat) : Option Bool :=
  match s.handle n, s.handle n' with
  | some x, some y => some (x.cell == y.cell)
  | _, _ => none

/-- `==` of two descriptors: a descriptor is a pool and an index (descriptor/mod.rs:174-313). -/
def St.sameDesc (s : St P) (n i n' i' : Nat) : Option Bool :=
  match s.same n n' with
  | some b => some (b && i == i')
  | none => none

/-! ### Where a handle comes from, without addresses -/

/-- One action: for each handle, the number of the action that made what it points to. A new pool is made,
a clone points to the same, and an addition makes something new. -/
def bornStep (t : List Nat) (k : Nat) : Op P → List Nat
  | .new _ _ => t ++ [k]
  | .clone h => t ++ (t[h]?).toList
  | .begin h _ => t.set h k
  | _ => t

/-- The same for a sequence of actions, the first of which has the number `k`. -/
def bornFrom (t : List Nat) (k : Nat) : List (Op P) → List Nat
  | [] => t
  | op :: ops => bornFrom (bornStep t k op) (k + 1) ops

/-- For each handle, the number of the action that made what it points to. -/
def born (ops : List (Op P)) : List Nat := bornFrom [] 0 ops

theorem bornFrom_append (t : List Nat) (k : Nat) (a b : List (Op P)) :
    bornFrom t k (a ++ b) = bornFrom (bornFrom t k a) (k + a.length) b := by
  induction a generalizing t k with
  | nil => rfl
  | cons op r ih =>
    simp only [List.cons_append, bornFrom, ih, List.length_cons]
    congr 1
    omega

/-- The numbers tell the cells apart. -/
structure Born (s : St P) (t : List Nat) (k : Nat) : Prop where
  len : t.length = s.handles.length
  lt : ∀ v ∈ t, v < k
  iff : ∀ n n' x y, s.handle n = some x → s.handle n' = some y → (x.cell = y.cell ↔ t[n]? = t[n']?)

theorem Born.init : Born (St.init : St P) [] 0 where
  len := rfl
  lt := nofun
  iff n n' x y h := by simp [St.init, St.handle] at h

theorem Born.get {s : St P} {t : List Nat} {k : Nat} (hB : Born s t k) {n : Nat} {x : Handle}
    (e : s.handle n = some x) : ∃ v, t[n]? = some v ∧ v < k := by
  have hl : n < t.length := by rw [hB.len]; exact handle_lt e
  exact ⟨t[n], List.getElem?_eq_getElem hl, hB.lt _ (List.getElem_mem hl)⟩

theorem Born.mono {s : St P} {t : List Nat} {k : Nat} (hB : Born s t k) : Born s t (k + 1) :=
  ⟨hB.len, fun v hv => Nat.lt_succ_of_lt (hB.lt v hv), hB.iff⟩

/-- The table keeps its cells, but some handles may be gone. -/
theorem Born.keep {s : St P} {t : List Nat} {k : Nat} (hB : Born s t k) {s' : St P}
    (hl : s'.handles.length = s.handles.length)
    (hk : ∀ n y, s'.handle n = some y → ∃ x, s.handle n = some x ∧ x.cell = y.cell) : Born s' t k where
  len := by rw [hl, hB.len]
  lt := hB.lt
  iff n n' x y h h' := by
    obtain ⟨x0, k1, k2⟩ := hk n x h
    obtain ⟨y0, k3, k4⟩ := hk n' y h'
    rw [← k2, ← k4]
    exact hB.iff n n' x0 y0 k1 k3

/-- A handle gets a cell that no other handle has. -/
theorem Born.fresh {s : St P} {t : List Nat} {k : Nat} (hB : Born s t k) {h : Nat} {x y : Handle} (e : s.handle h = some x)
    (cells : Nat → Option (Cell P)) (ha : ∀ n z, n ≠ h → s.handle n = some z → z.cell ≠ y.cell) :
    Born ⟨cells, s.handles.set h (some y)⟩ (t.set h k) (k + 1) where
  len := by simp [hB.len]
  lt v hv := by
    rcases List.mem_or_eq_of_mem_set hv with hv | rfl
    · exact Nat.lt_succ_of_lt (hB.lt v hv)
    · exact Nat.lt_succ_self _
  iff n n' u w hu hw := by
    have hl : h < t.length := by rw [hB.len]; exact handle_lt e
    rw [handle_set e] at hu hw
    by_cases h1 : n = h
    · subst h1
      rw [if_pos rfl] at hu
      cases hu
      by_cases h2 : n' = n
      · subst h2
        rw [if_pos rfl] at hw
        cases hw
        exact iff_of_true rfl rfl
      · rw [if_neg h2] at hw
        refine iff_of_false (fun hc => ha n' w h2 hw hc.symm) (fun hc => ?_)
        obtain ⟨v, hv, hlt⟩ := hB.get hw
        rw [List.getElem?_set_self hl, List.getElem?_set_ne (Ne.symm h2), hv] at hc
        cases hc
        omega
    · rw [if_neg h1] at hu
      by_cases h2 : n' = h
      · subst h2
        rw [if_pos rfl] at hw
        cases hw
        refine iff_of_false (fun hc => ha n u h1 hu hc) (fun hc => ?_)
        obtain ⟨v, hv, hlt⟩ := hB.get hu
        rw [List.getElem?_set_self hl, List.getElem?_set_ne (Ne.symm h1), hv] at hc
        cases hc
        omega
      · rw [if_neg h2] at hw
        rw [List.getElem?_set_ne (Ne.symm h1), List.getElem?_set_ne (Ne.symm h2)]
        exact hB.iff n n' u w hu hw

/-- A handle is added. -/
theorem Born.push {s : St P} {t : List Nat} {k v : Nat} (hB : Born s t k) (cells : Nat → Option (Cell P)) {y : Handle}
    (hv : v ≤ k) (hy : ∀ n x, s.handle n = some x → (x.cell = y.cell ↔ t[n]? = some v)) :
    Born ⟨cells, s.handles ++ [some y]⟩ (t ++ [v]) (k + 1) where
  len := by simp [hB.len]
  lt w hw := by
    rcases List.mem_append.mp hw with hw | hw
    · exact Nat.lt_succ_of_lt (hB.lt w hw)
    · rw [List.mem_singleton] at hw
      omega
  iff n n' u w hu hw := by
    have hnew : (t ++ [v])[s.handles.length]? = some v := by rw [← hB.len]; simp
    have hold : ∀ n x, s.handle n = some x → (t ++ [v])[n]? = t[n]? := fun n x hx =>
      List.getElem?_append_left (by rw [hB.len]; exact handle_lt hx)
    rw [handle_append] at hu hw
    by_cases h1 : n = s.handles.length
    · subst h1
      rw [if_pos rfl] at hu
      cases hu
      by_cases h2 : n' = s.handles.length
      · subst h2
        rw [if_pos rfl] at hw
        cases hw
        exact iff_of_true rfl rfl
      · rw [if_neg h2] at hw
        rw [hnew, hold _ _ hw]
        exact ⟨fun hc => ((hy _ _ hw).mp hc.symm).symm, fun hc => ((hy _ _ hw).mpr hc.symm).symm⟩
    · rw [if_neg h1] at hu
      by_cases h2 : n' = s.handles.length
      · subst h2
        rw [if_pos rfl] at hw
        cases hw
        rw [hnew, hold _ _ hu]
        exact hy _ _ hu
      · rw [if_neg h2] at hw
        rw [hold _ _ hu, hold _ _ hw]
        exact hB.iff n n' u w hu hw

/-- Each action keeps the numbers right. -/
theorem Born.step {s : St P} {t : List Nat} {k : Nat} (hB : Born s t k) (hI : Inv s) {op : Op P} {s' : St P}
    (hs : step s op = some (.ok s')) : Born s' (bornStep t k op) (k + 1) := by
  have keep1 : ∀ {h : Nat} {x y : Handle} (cells : Nat → Option (Cell P)), s.handle h = some x → y.cell = x.cell →
      Born ⟨cells, s.handles.set h (some y)⟩ t (k + 1) := by
    intro h x y cells e hy
    refine hB.mono.keep (by simp) fun n z hz => ?_
    rw [handle_set e] at hz
    split at hz
    · next hn =>
      cases hz
      exact ⟨x, by rw [hn]; exact e, hy.symm⟩
    · exact ⟨z, hz, rfl⟩
  cases op with
  | new a p =>
    simp only [Heap.step] at hs
    split at hs
    · cases hs
    · next ha =>
      cases hs
      refine hB.push _ (Nat.le_refl _) fun n x hx => iff_of_false (fun hc => ?_) (fun hc => ?_)
      · obtain ⟨c, h1, _⟩ := hI.cell hx
        rw [hc, ha] at h1
        cases h1
      · obtain ⟨v, hv, hlt⟩ := hB.get hx
        rw [hv] at hc
        cases hc
        omega
  | clone h =>
    simp only [Heap.step] at hs
    split at hs
    · cases hs
    · next x e =>
      split at hs
      · cases hs
      · obtain ⟨c, hc, _⟩ := hI.cell e
        simp only [incr, hc, out] at hs
        cases hs
        obtain ⟨v, hv, hlt⟩ := hB.get e
        simp only [bornStep, hv, Option.toList]
        refine hB.push _ (Nat.le_of_lt hlt) fun n z hz => ?_
        rw [← hv]
        exact hB.iff n h z x hz e
  | drop h =>
    simp only [Heap.step] at hs
    split at hs
    · cases hs
    · next x e =>
      split at hs
      · cases hs
      · obtain ⟨c, hc, _⟩ := hI.cell e
        simp only [decr, hc, out] at hs
        cases hs
        refine hB.mono.keep (by simp) fun n z hz => ?_
        rw [handle_set e] at hz
        split at hz
        · cases hz
        · exact ⟨z, hz, rfl⟩
  | begin h a =>
    simp only [Heap.step] at hs
    split at hs
    · cases hs
    · next x e =>
      split at hs
      · cases hs
      · next hb =>
        have hb : x.busy = false := by simpa using hb
        have ht := hI.idle h x e hb
        obtain ⟨c, hc, hcount, _⟩ := hI.cell e
        simp only [hc] at hs
        split at hs
        · next h1 =>
          cases hs
          exact hB.fresh e _ fun n z hn hz hzc => hn (hI.alone e hz hzc (by omega))
        · split at hs
          · cases hs
          · next ha =>
            have hax : a ≠ x.cell := by rintro rfl; rw [ha] at hc; cases hc
            simp only [decr, upd_other _ _ (Ne.symm hax), hc, out] at hs
            cases hs
            refine hB.fresh e _ fun n z hn hz hzc => ?_
            obtain ⟨d, hd, _⟩ := hI.cell hz
            rw [hzc, ha] at hd
            cases hd
  | write h q =>
    simp only [Heap.step] at hs
    split at hs
    · cases hs
    · next x e =>
      split at hs
      · cases hs
      · obtain ⟨c, hc, _⟩ := hI.cell e
        simp only [hc] at hs
        split at hs
        · cases hs
          exact hB.mono.keep rfl fun n z hz => ⟨z, hz, rfl⟩
        · cases hs
  | tmp h =>
    simp only [Heap.step] at hs
    split at hs
    · cases hs
    · next x e =>
      split at hs
      · obtain ⟨c, hc, _⟩ := hI.cell e
        simp only [incr, hc, out] at hs
        cases hs
        exact keep1 _ e rfl
      · cases hs
  | untmp h =>
    simp only [Heap.step] at hs
    split at hs
    · cases hs
    · next x e =>
      split at hs
      · cases hs
      · obtain ⟨c, hc, _⟩ := hI.cell e
        simp only [decr, hc, out] at hs
        cases hs
        exact keep1 _ e rfl
  | finish h =>
    simp only [Heap.step] at hs
    split at hs
    · cases hs
    · next x e =>
      split at hs
      · cases hs
      · cases hs
        exact keep1 _ e rfl

theorem Born.run {s s' : St P} {t : List Nat} {k : Nat} {ops : List (Op P)} (hB : Born s t k) (hI : Inv s)
    (h : Run s ops s') : Born s' (bornFrom t k ops) (k + ops.length) := by
  induction h generalizing t k with
  | nil => exact hB
  | cons h1 _ ih =>
    obtain ⟨_, e, hd⟩ := step_did hI h1
    cases e
    have := ih (hB.step hI h1) hd.inv
    rw [show k + 1 + _ = k + (_ + 1) from Nat.add_right_comm _ _ _] at this
    exact this

/-! ### How the numbers change -/

/-- A handle keeps its number until an addition through it begins. -/
theorem bornFrom_keeps {t : List Nat} {k n : Nat} {ops : List (Op P)} (hn : n < t.length)
    (ho : ∀ op ∈ ops, ∀ a, op ≠ .begin n a) : (bornFrom t k ops)[n]? = t[n]? := by
  induction ops generalizing t k with
  | nil => rfl
  | cons op r ih =>
    have h1 : n < (bornStep t k op).length ∧ (bornStep t k op)[n]? = t[n]? := by
      cases op with
      | new => simp only [bornStep]; exact ⟨by rw [List.length_append]; omega, List.getElem?_append_left hn⟩
      | clone => simp only [bornStep]; exact ⟨by rw [List.length_append]; omega, List.getElem?_append_left hn⟩
      | begin h a =>
        have : h ≠ n := fun e => ho _ List.mem_cons_self a (by rw [e])
        simp only [bornStep]
        exact ⟨by rw [List.length_set]; exact hn, List.getElem?_set_ne this⟩
      | drop => exact ⟨hn, rfl⟩
      | write => exact ⟨hn, rfl⟩
      | tmp => exact ⟨hn, rfl⟩
      | untmp => exact ⟨hn, rfl⟩
      | finish => exact ⟨hn, rfl⟩
    rw [bornFrom, ih h1.1 (fun op hop => ho op (List.mem_cons_of_mem _ hop)), h1.2]

/-- Different numbers stay different. -/
theorem bornFrom_apart {t : List Nat} {k n n' : Nat} {ops : List (Op P)} (hn : n < t.length) (hn' : n' < t.length)
    (hlt : ∀ v ∈ t, v < k) (hne : t[n]? ≠ t[n']?) : (bornFrom t k ops)[n]? ≠ (bornFrom t k ops)[n']? := by
  induction ops generalizing t k with
  | nil => exact hne
  | cons op r ih =>
    have hnn : n ≠ n' := fun e => hne (by rw [e])
    have app : ∀ l : List Nat, (∀ v ∈ l, v ≤ k) → (bornFrom (t ++ l) (k + 1) r)[n]? ≠ (bornFrom (t ++ l) (k + 1) r)[n']? := by
      intro l hl
      refine ih (by rw [List.length_append]; omega) (by rw [List.length_append]; omega) (fun v hv => ?_) ?_
      · rcases List.mem_append.mp hv with hv | hv
        · exact Nat.lt_succ_of_lt (hlt v hv)
        · exact Nat.lt_succ_of_le (hl v hv)
      · rw [List.getElem?_append_left hn, List.getElem?_append_left hn']
        exact hne
    have same : (bornFrom t (k + 1) r)[n]? ≠ (bornFrom t (k + 1) r)[n']? :=
      ih hn hn' (fun v hv => Nat.lt_succ_of_lt (hlt v hv)) hne
    cases op with
    | new => exact app [k] (fun v hv => by rw [List.mem_singleton] at hv; omega)
    | clone h =>
      refine app _ (fun v hv => ?_)
      rw [Option.mem_toList] at hv
      exact Nat.le_of_lt (hlt v (List.mem_of_getElem? hv))
    | begin h a =>
      refine ih (by simpa [bornStep] using hn) (by simpa [bornStep] using hn') (fun v hv => ?_) ?_
      · rcases List.mem_or_eq_of_mem_set hv with hv | rfl
        · exact Nat.lt_succ_of_lt (hlt v hv)
        · exact Nat.lt_succ_self _
      · simp only [bornStep]
        have hk : ∀ m, m < t.length → t[m]? ≠ some k := fun m hm e => by
          have := hlt k (List.mem_of_getElem? e)
          omega
        by_cases h1 : h = n
        · subst h1
          rw [List.getElem?_set_self hn, List.getElem?_set_ne hnn]
          exact fun e => hk n' hn' e.symm
        · rw [List.getElem?_set_ne h1]
          by_cases h2 : h = n'
          · subst h2
            rw [List.getElem?_set_self hn']
            exact hk n hn
          · rw [List.getElem?_set_ne h2]
            exact hne
    | drop => exact same
    | write => exact same
    | tmp => exact same
    | untmp => exact same
    | finish => exact same

end Verif.Pool.Heap
