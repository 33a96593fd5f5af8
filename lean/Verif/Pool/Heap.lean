import Verif.Pool.Build
/-!
Shared pools: `DescriptorPool { inner: Arc<DescriptorPoolInner> }` (descriptor/mod.rs:131-133).

A pool handle points to a reference-counted cell.  Every descriptor holds such a handle
(`FileDescriptor`, `MessageDescriptor`, ... all have a field `pool`, descriptor/mod.rs), so handles stand
for pools and descriptors alike.  The state is a store of cells and a table of handles; an
address may be used again once its cell was freed.

An addition (build/mod.rs:104-150) is split into steps, so that what other threads do with their
own handles may happen in between: `begin` is `Arc::make_mut` (build/mod.rs:133); `write` is a
mutation through the reference it gave, or through `Arc::get_mut(..).unwrap()` (build/mod.rs:118, 142;
options.rs:48); `tmp` and `untmp` are the clones that the third pass takes and drops while it reads
options through the pool itself; `finish` is the return, by value or by a panic, so nothing is
assumed about what was written.
-/
set_option autoImplicit false
namespace Verif.Pool.Heap

/-- What an `Arc` points to: the strong count and the contents. -/
structure Cell (P : Type) where
  count : Nat
  pool : P

/-- A live handle: the address it holds, whether an addition through it is running, and how many
temporary clones that addition holds. -/
structure Handle where
  cell : Nat
  busy : Bool
  temps : Nat
  deriving DecidableEq

/-- The store and the table of handles; a dropped handle leaves a hole. -/
structure St (P : Type) where
  cells : Nat → Option (Cell P)
  handles : List (Option Handle)

/-- One atomic action on a handle.  `a` is the address that the allocator returns. -/
inductive Op (P : Type) where
  /-- `DescriptorPool::new` and friends: `Arc::new` -/
  | new (a : Nat) (p : P)
  /-- `clone` of a pool or descriptor, or obtaining a descriptor from it -/
  | clone (h : Nat)
  | drop (h : Nat)
  | begin (h a : Nat)
  | write (h : Nat) (q : P)
  | tmp (h : Nat)
  | untmp (h : Nat)
  | finish (h : Nat)

variable {P : Type}

/-- A store with one cell changed. -/
def upd (s : Nat → Option (Cell P)) (a : Nat) (c : Option (Cell P)) : Nat → Option (Cell P) :=
  fun i => if i = a then c else s i

/-- `Arc::clone`: the count goes up.  A dangling address is undefined behaviour: `none`. -/
def incr (s : Nat → Option (Cell P)) (a : Nat) : Option (Nat → Option (Cell P)) :=
  match s a with
  | none => none
  | some c => some (upd s a (some { c with count := c.count + 1 }))

/-- `Drop for Arc`: the count goes down, the last one frees the cell. -/
def decr (s : Nat → Option (Cell P)) (a : Nat) : Option (Nat → Option (Cell P)) :=
  match s a with
  | none => none
  | some c => some (upd s a (if c.count ≤ 1 then none else some { c with count := c.count - 1 }))

/-- What an action did. -/
inductive Out (P : Type) where
  | ok (s : St P)
  /-- `unwrap` of a failed `Arc::get_mut` -/
  | panic
  /-- a dangling handle was followed -/
  | dangling

/-- The outcome of a change of the store. -/
def out (cells : Option (Nat → Option (Cell P))) (handles : List (Option Handle)) : Out P :=
  match cells with
  | none => .dangling
  | some c => .ok ⟨c, handles⟩

/-- The handle, if it is live. -/
def St.handle (s : St P) (h : Nat) : Option Handle :=
  match s.handles[h]? with
  | some (some x) => some x
  | _ => none

/-- What a handle shows. -/
def St.view (s : St P) (h : Nat) : Option P :=
  match s.handle h with
  | none => none
  | some x => (s.cells x.cell).map (·.pool)

/-- One action; `none` when the borrow checker or the allocator rules it out: the handle is not
live, or is borrowed mutably by a running addition, or the address is in use. -/
def step (s : St P) : Op P → Option (Out P)
  | .new a p =>
    match s.cells a with
    | some _ => none
    | none => some (.ok ⟨upd s.cells a (some ⟨1, p⟩), s.handles ++ [some ⟨a, false, 0⟩]⟩)
  | .clone h =>
    match s.handle h with
    | none => none
    | some x =>
      if x.busy then none
      else some (out (incr s.cells x.cell) (s.handles ++ [some ⟨x.cell, false, 0⟩]))
  | .drop h =>
    match s.handle h with
    | none => none
    | some x =>
      if x.busy then none
      else some (out (decr s.cells x.cell) (s.handles.set h none))
  | .begin h a =>
    match s.handle h with
    | none => none
    | some x =>
      if x.busy then none
      else
        match s.cells x.cell with
        | none => some .dangling
        | some c =>
          if c.count = 1 then some (.ok ⟨s.cells, s.handles.set h (some ⟨x.cell, true, 0⟩)⟩)
          else
            match s.cells a with
            | some _ => none
            | none => some (out (decr (upd s.cells a (some ⟨1, c.pool⟩)) x.cell)
                (s.handles.set h (some ⟨a, true, 0⟩)))
  | .write h q =>
    match s.handle h with
    | none => none
    | some x =>
      if x.busy = false ∨ x.temps ≠ 0 then none
      else
        match s.cells x.cell with
        | none => some .dangling
        | some c =>
          if c.count = 1 then some (.ok ⟨upd s.cells x.cell (some { c with pool := q }), s.handles⟩)
          else some .panic
  | .tmp h =>
    match s.handle h with
    | none => none
    | some x =>
      if x.busy then
        some (out (incr s.cells x.cell) (s.handles.set h (some { x with temps := x.temps + 1 })))
      else none
  | .untmp h =>
    match s.handle h with
    | none => none
    | some x =>
      if x.busy = false ∨ x.temps = 0 then none
      else some (out (decr s.cells x.cell) (s.handles.set h (some { x with temps := x.temps - 1 })))
  | .finish h =>
    match s.handle h with
    | none => none
    | some x =>
      if x.busy = false ∨ x.temps ≠ 0 then none
      else some (.ok ⟨s.cells, s.handles.set h (some { x with busy := false })⟩)

/-- Nothing allocated. -/
def St.init : St P := ⟨fun _ => none, []⟩

/-- Any interleaving of actions. -/
inductive Run : St P → List (Op P) → St P → Prop where
  | nil (s : St P) : Run s [] s
  | cons {s s' s'' : St P} {op : Op P} {ops : List (Op P)} :
      step s op = some (.ok s') → Run s' ops s'' → Run s (op :: ops) s''

/-- `build_files` on a handle, run without interruption: nothing happens if no file is new
(build/mod.rs:111-114, 128-130), otherwise the pool is made unique and changed.  `none`: the
addition panicked (`buildFiles` says when), or the action is not possible. -/
def addFiles (env : Env) (s : St Pool) (h a : Nat) (fs : List FileP) : Option (St Pool × List ErrKind) :=
  match s.view h with
  | none => none
  | some p =>
    if (fs.filter fun f => (lookupN p.fileNames f.name).isNone) = [] then some (s, [])
    else
      match buildFiles env p fs with
      | .error _ => none
      | .ok b =>
        match step s (.begin h a) with
        | some (.ok s1) =>
          match step s1 (.write h b.pool) with
          | some (.ok s2) =>
            match step s2 (.finish h) with
            | some (.ok s3) => some (s3, b.errors)
            | _ => none
          | _ => none
        | _ => none

/-! ### The invariant -/

/-- How many strong references a table entry accounts for. -/
def weight (c : Nat) : Option Handle → Nat
  | none => 0
  | some x => if x.cell = c then 1 + x.temps else 0

/-- The number of references to a cell. -/
def refs (c : Nat) : List (Option Handle) → Nat
  | [] => 0
  | x :: r => weight c x + refs c r

theorem refs_append (c : Nat) (a b : List (Option Handle)) : refs c (a ++ b) = refs c a + refs c b := by
  induction a with
  | nil => simp [refs]
  | cons x r ih => simp [refs, ih, Nat.add_assoc]

theorem refs_set {c : Nat} {hs : List (Option Handle)} {i : Nat} {x : Option Handle} (h : hs[i]? = some x)
    (y : Option Handle) : refs c (hs.set i y) + weight c x = refs c hs + weight c y := by
  induction hs generalizing i with
  | nil => simp at h
  | cons z r ih =>
    cases i with
    | zero => simp at h; subst h; simp [refs]; omega
    | succ i => simp at h; have := ih h; simp [refs]; omega

theorem refs_get {c : Nat} {hs : List (Option Handle)} {i : Nat} {x : Option Handle} (h : hs[i]? = some x) :
    weight c x ≤ refs c hs := by
  induction hs generalizing i with
  | nil => simp at h
  | cons z r ih =>
    cases i with
    | zero => simp at h; subst h; simp [refs]
    | succ i => simp at h; have := ih h; simp [refs]; omega

theorem refs_two {c : Nat} {hs : List (Option Handle)} {i j : Nat} {x y : Option Handle} (hx : hs[i]? = some x)
    (hy : hs[j]? = some y) (hij : i ≠ j) : weight c x + weight c y ≤ refs c hs := by
  have h1 := refs_set (c := c) hx none
  have h2 : (hs.set i none)[j]? = some y := by rw [List.getElem?_set_ne hij]; exact hy
  have := refs_get (c := c) h2
  simp only [show weight c none = 0 from rfl] at h1
  omega

/-- The counts are right, no cell is kept without a handle, and a running addition owns its
cell. -/
structure Inv (s : St P) : Prop where
  count : ∀ c, match s.cells c with
    | none => refs c s.handles = 0
    | some x => x.count = refs c s.handles ∧ 0 < x.count
  owner : ∀ h x, s.handle h = some x → x.busy = true → refs x.cell s.handles = 1 + x.temps
  idle : ∀ h x, s.handle h = some x → x.busy = false → x.temps = 0

theorem handle_get {s : St P} {h : Nat} {x : Handle} (e : s.handle h = some x) : s.handles[h]? = some (some x) := by
  unfold St.handle at e
  split at e
  · next h1 => cases e; exact h1
  · cases e

theorem get_handle {s : St P} {h : Nat} {x : Handle} (e : s.handles[h]? = some (some x)) : s.handle h = some x := by
  unfold St.handle
  rw [e]

theorem Inv.cell {s : St P} (hI : Inv s) {h : Nat} {x : Handle} (e : s.handle h = some x) :
    ∃ c, s.cells x.cell = some c ∧ c.count = refs x.cell s.handles ∧ 0 < c.count := by
  have := hI.count x.cell
  have hw := refs_get (c := x.cell) (handle_get e)
  simp only [weight, if_true] at hw
  cases hc : s.cells x.cell with
  | none => rw [hc] at this; simp only at this; omega
  | some c => rw [hc] at this; exact ⟨c, rfl, this⟩

theorem Inv.alone {s : St P} (hI : Inv s) {h h' : Nat} {x y : Handle} (e : s.handle h = some x)
    (e' : s.handle h' = some y) (hc : y.cell = x.cell) (hr : refs x.cell s.handles = 1 + x.temps) : h' = h := by
  apply Classical.byContradiction
  intro hne
  have := refs_two (c := x.cell) (handle_get e) (handle_get e') (Ne.symm hne)
  simp only [weight, if_true, hc] at this
  omega

theorem Inv.init : Inv (St.init : St P) where
  count c := by simp [St.init, refs]
  owner h x e := by simp [St.init, St.handle] at e
  idle h x e := by simp [St.init, St.handle] at e

theorem handle_set {s : St P} {h : Nat} {x : Handle} (e : s.handle h = some x) (cells : Nat → Option (Cell P))
    (y : Option Handle) (h' : Nat) :
    St.handle ⟨cells, s.handles.set h y⟩ h' = if h' = h then y else s.handle h' := by
  have hl : h < s.handles.length := (List.getElem?_eq_some_iff.1 (handle_get e)).1
  unfold St.handle
  by_cases hh : h' = h
  · subst hh
    rw [List.getElem?_set_self hl, if_pos rfl]
    cases y <;> rfl
  · rw [List.getElem?_set_ne (Ne.symm hh), if_neg hh]

theorem handle_append (s : St P) (cells : Nat → Option (Cell P)) (y : Handle) (h' : Nat) :
    St.handle ⟨cells, s.handles ++ [some y]⟩ h' = if h' = s.handles.length then some y else s.handle h' := by
  unfold St.handle
  by_cases hh : h' = s.handles.length
  · subst hh
    simp
  · rw [if_neg hh]
    by_cases hl : h' < s.handles.length
    · simp only [List.getElem?_append_left hl]
    · have h1 : s.handles[h']? = none := List.getElem?_eq_none (by omega)
      have h2 : (s.handles ++ [some y])[h']? = none := List.getElem?_eq_none (by simp; omega)
      simp only [h1, h2]

theorem handle_lt {s : St P} {h : Nat} {x : Handle} (e : s.handle h = some x) : h < s.handles.length :=
  (List.getElem?_eq_some_iff.1 (handle_get e)).1

/-- What an action leaves alone: every handle other than the one it acts on stays, with the same
contents. -/
structure Frame (s s' : St P) (h : Nat) : Prop where
  keeps : ∀ h' x, h' ≠ h → s.handle h' = some x → s'.handle h' = some x
  view : ∀ h', h' ≠ h → h' < s.handles.length → s'.view h' = s.view h'

theorem upd_same (s : Nat → Option (Cell P)) (a : Nat) (c : Option (Cell P)) : upd s a c a = c := if_pos rfl
theorem upd_other (s : Nat → Option (Cell P)) {a i : Nat} (c : Option (Cell P)) (h : i ≠ a) : upd s a c i = s i :=
  if_neg h

theorem Inv.new {s : St P} (hI : Inv s) {a : Nat} {p : P} (ha : s.cells a = none) :
    Inv ⟨upd s.cells a (some ⟨1, p⟩), s.handles ++ [some ⟨a, false, 0⟩]⟩ where
  count c := by
    have := hI.count c
    by_cases hc : c = a
    · subst hc
      rw [ha] at this
      simp only at this
      simp [upd_same, refs_append, refs, weight, this]
    · simp only [upd_other _ _ hc, refs_append, refs, weight, if_neg (Ne.symm hc)]
      cases h : s.cells c <;> rw [h] at this <;> simpa using this
  owner h x e hb := by
    rw [handle_append] at e
    split at e
    · cases e; cases hb
    · have h1 := hI.owner h x e hb
      have : x.cell ≠ a := by
        rintro rfl
        obtain ⟨c, hc, _⟩ := hI.cell e
        rw [ha] at hc
        cases hc
      simp only [refs_append, refs, weight, if_neg (Ne.symm this)]
      omega
  idle h x e hb := by
    rw [handle_append] at e
    split at e
    · cases e; rfl
    · exact hI.idle h x e hb

/-- A handle and the count of its cell change together. -/
theorem Inv.change {s : St P} (hI : Inv s) {h : Nat} {x : Handle} (e : s.handle h = some x) {c c' : Cell P}
    (hc : s.cells x.cell = some c) {y : Handle} (hy : y.cell = x.cell) (hcount : c'.count + x.temps = c.count + y.temps)
    (hown : y.busy = true → refs x.cell s.handles = 1 + x.temps)
    (hidle : y.busy = false → y.temps = 0) :
    Inv ⟨upd s.cells x.cell (some c'), s.handles.set h (some y)⟩ where
  count k := by
    have h0 := refs_set (c := k) (handle_get e) (some y)
    have := hI.count k
    by_cases hk : k = x.cell
    · subst hk
      rw [hc] at this
      simp only [weight, if_true, hy] at h0
      have hw := refs_get (c := x.cell) (handle_get e)
      simp only [weight, if_true] at hw
      simp only [upd_same]
      omega
    · simp only [weight, if_neg (Ne.symm hk), hy] at h0
      simp only [upd_other _ _ hk]
      have : refs k (s.handles.set h (some y)) = refs k s.handles := by omega
      rw [this]
      assumption
  owner h' z e' hb := by
    rw [handle_set e] at e'
    have h0 := fun k => refs_set (c := k) (handle_get e) (some y)
    split at e'
    · cases e'
      have h1 := h0 x.cell
      have h2 := hown hb
      simp only [weight, if_true, hy] at h1
      rw [hy]
      show refs x.cell (s.handles.set h (some y)) = _
      omega
    · next hne =>
      have h1 := hI.owner h' z e' hb
      have h2 : z.cell ≠ x.cell := fun hzc => hne (hI.alone e' e hzc.symm h1).symm
      have h3 := h0 z.cell
      simp only [weight, hy, if_neg (Ne.symm h2)] at h3
      show refs z.cell (s.handles.set h (some y)) = _
      omega
  idle h' z e' hb := by
    rw [handle_set e] at e'
    split at e'
    · cases e'; exact hidle hb
    · exact hI.idle h' z e' hb

theorem Inv.clone {s : St P} (hI : Inv s) {h : Nat} {x : Handle} (e : s.handle h = some x) (hb : x.busy = false)
    {c : Cell P} (hc : s.cells x.cell = some c) :
    Inv ⟨upd s.cells x.cell (some { c with count := c.count + 1 }), s.handles ++ [some ⟨x.cell, false, 0⟩]⟩ where
  count k := by
    have := hI.count k
    by_cases hk : k = x.cell
    · subst hk
      rw [hc] at this
      simp only [upd_same, refs_append, refs, weight, if_true]
      omega
    · simp only [upd_other _ _ hk, refs_append, refs, weight, if_neg (Ne.symm hk)]
      simpa using this
  owner h' z e' hz := by
    rw [handle_append] at e'
    split at e'
    · cases e'; cases hz
    · have h1 := hI.owner h' z e' hz
      have h2 : z.cell ≠ x.cell := by
        intro hzc
        have := hI.alone e' e hzc.symm h1
        subst this
        rw [e] at e'
        cases e'
        rw [hb] at hz
        cases hz
      simp only [refs_append, refs, weight, if_neg (Ne.symm h2)]
      omega
  idle h' z e' hz := by
    rw [handle_append] at e'
    split at e'
    · cases e'; rfl
    · exact hI.idle h' z e' hz

/-- A handle lets go of its cell. -/
theorem Inv.leave {s : St P} (hI : Inv s) {h : Nat} {x : Handle} (e : s.handle h = some x) (hb : x.busy = false)
    {c : Cell P} (hc : s.cells x.cell = some c) :
    Inv ⟨upd s.cells x.cell (if c.count ≤ 1 then none else some { c with count := c.count - 1 }),
      s.handles.set h none⟩ where
  count k := by
    have h0 := refs_set (c := k) (handle_get e) none
    have ht := hI.idle h x e hb
    have := hI.count k
    simp only [show weight k none = 0 from rfl] at h0
    by_cases hk : k = x.cell
    · subst hk
      rw [hc] at this
      simp only [weight, if_true, ht] at h0
      simp only [upd_same]
      by_cases h1 : c.count ≤ 1
      · rw [if_pos h1]
        show refs x.cell (s.handles.set h none) = 0
        omega
      · rw [if_neg h1]
        show c.count - 1 = refs x.cell (s.handles.set h none) ∧ 0 < c.count - 1
        omega
    · simp only [weight, if_neg (Ne.symm hk)] at h0
      simp only [upd_other _ _ hk]
      have : refs k (s.handles.set h none) = refs k s.handles := by omega
      rw [this]
      assumption
  owner h' z e' hz := by
    rw [handle_set e] at e'
    split at e'
    · cases e'
    · next hne =>
      have h1 := hI.owner h' z e' hz
      have h2 : z.cell ≠ x.cell := fun hzc => hne (hI.alone e' e hzc.symm h1).symm
      have h3 := refs_set (c := z.cell) (handle_get e) none
      simp only [show weight z.cell none = 0 from rfl] at h3
      simp only [weight, if_neg (Ne.symm h2)] at h3
      show refs z.cell (s.handles.set h none) = _
      omega
  idle h' z e' hz := by
    rw [handle_set e] at e'
    split at e'
    · cases e'
    · exact hI.idle h' z e' hz

/-- A handle moves to a cell of its own. -/
theorem Inv.move {s : St P} (hI : Inv s) {h : Nat} {x : Handle} (e : s.handle h = some x) (hb : x.busy = false)
    {c : Cell P} (hc : s.cells x.cell = some c) (hne : c.count ≠ 1) {a : Nat} (ha : s.cells a = none) (p : P) :
    Inv ⟨upd (upd s.cells a (some ⟨1, p⟩)) x.cell (if c.count ≤ 1 then none else some { c with count := c.count - 1 }),
      s.handles.set h (some ⟨a, true, 0⟩)⟩ := by
  have hax : a ≠ x.cell := by rintro rfl; rw [ha] at hc; cases hc
  have ht := hI.idle h x e hb
  have hra : refs a s.handles = 0 := by have := hI.count a; rw [ha] at this; exact this
  have h0 := fun k => refs_set (c := k) (handle_get e) (some ⟨a, true, 0⟩)
  refine ⟨fun k => ?_, fun h' z e' hz => ?_, fun h' z e' hz => ?_⟩
  · have := hI.count k
    have h0 := h0 k
    by_cases hk : k = x.cell
    · subst hk
      rw [hc] at this
      simp only [weight, if_true, ht, if_neg hax] at h0
      have h1 : ¬ c.count ≤ 1 := by omega
      simp only [upd_same, if_neg h1]
      show c.count - 1 = refs x.cell (s.handles.set h (some ⟨a, true, 0⟩)) ∧ 0 < c.count - 1
      omega
    · by_cases hka : k = a
      · subst hka
        simp only [weight, if_true, if_neg (Ne.symm hk)] at h0
        simp only [upd_other _ _ hk, upd_same]
        show 1 = refs k (s.handles.set h (some ⟨k, true, 0⟩)) ∧ 0 < 1
        omega
      · simp only [weight, if_neg (Ne.symm hk), if_neg (Ne.symm hka)] at h0
        simp only [upd_other _ _ hk, upd_other _ _ hka]
        have : refs k (s.handles.set h (some ⟨a, true, 0⟩)) = refs k s.handles := by omega
        rw [this]
        assumption
  · rw [handle_set e] at e'
    split at e'
    · cases e'
      have h1 := h0 a
      simp only [weight, if_true, if_neg (Ne.symm hax)] at h1
      show refs a (s.handles.set h (some ⟨a, true, 0⟩)) = 1 + 0
      omega
    · next hn =>
      have h1 := hI.owner h' z e' hz
      have h2 : z.cell ≠ x.cell := fun hzc => hn (hI.alone e' e hzc.symm h1).symm
      have h4 : z.cell ≠ a := by
        intro hza
        rw [hza] at h1
        omega
      have h3 := h0 z.cell
      simp only [weight, if_neg (Ne.symm h2), if_neg (Ne.symm h4)] at h3
      show refs z.cell (s.handles.set h (some ⟨a, true, 0⟩)) = _
      omega
  · rw [handle_set e] at e'
    split at e'
    · cases e'; cases hz
    · exact hI.idle h' z e' hz

/-- The handle an action is about. -/
def Op.on : Op P → Option Nat
  | .new _ _ => none
  | .clone _ => none
  | .drop h | .begin h _ | .write h _ | .tmp h | .untmp h | .finish h => some h

/-- What an action makes of the value that its handle shows. -/
def Op.value : Op P → Option P → Option P
  | .drop _, _ => none
  | .write _ q, _ => some q
  | _, v => v

/-- What happened to each handle that there was. -/
structure Did (s s' : St P) (op : Op P) : Prop where
  inv : Inv s'
  grows : s.handles.length ≤ s'.handles.length
  other : ∀ h, h < s.handles.length → op.on ≠ some h → s'.view h = s.view h
  own : ∀ h, op.on = some h → s'.view h = op.value (s.view h)

theorem view_of {s : St P} {h : Nat} {x : Handle} (e : s.handle h = some x) :
    s.view h = (s.cells x.cell).map (·.pool) := by
  unfold St.view
  rw [e]

/-- What a handle shows does not change when its cell keeps its contents. -/
theorem view_upd {s : St P} {hs : List (Option Handle)} {h a : Nat} {c : Cell P} {n : Nat} (hc : s.cells a = some c)
    (hh : St.handle ⟨upd s.cells a (some { c with count := n }), hs⟩ h = s.handle h) :
    St.view ⟨upd s.cells a (some { c with count := n }), hs⟩ h = s.view h := by
  unfold St.view
  rw [hh]
  cases e : s.handle h with
  | none => rfl
  | some x =>
    simp only [upd]
    split
    · next hx => rw [hx, hc]; rfl
    · rfl

theorem step_did {s : St P} (hI : Inv s) {op : Op P} {o : Out P} (hs : step s op = some o) :
    ∃ s', o = .ok s' ∧ Did s s' op := by
  cases op with
  | new a p =>
    simp only [step] at hs
    split at hs
    · cases hs
    · next ha =>
      cases hs
      refine ⟨_, rfl, hI.new ha, by simp, fun h hl _ => ?_, nofun⟩
      unfold St.view
      rw [handle_append, if_neg (by omega)]
      cases e : s.handle h with
      | none => rfl
      | some x =>
        obtain ⟨c, hc, _⟩ := hI.cell e
        have : x.cell ≠ a := by intro hx; rw [hx, ha] at hc; cases hc
        simp only [upd_other _ _ this]
  | clone h =>
    simp only [step] at hs
    split at hs
    · cases hs
    · next x e =>
      split at hs
      · cases hs
      · next hb =>
        obtain ⟨c, hc, _⟩ := hI.cell e
        simp only [incr, hc, out] at hs
        cases hs
        refine ⟨_, rfl, hI.clone e (by simpa using hb) hc, by simp, fun h hl _ => view_upd hc ?_, nofun⟩
        rw [handle_append, if_neg (by omega)]
  | drop h =>
    simp only [step] at hs
    split at hs
    · cases hs
    · next x e =>
      split at hs
      · cases hs
      · next hb =>
        obtain ⟨c, hc, hcount, _⟩ := hI.cell e
        simp only [decr, hc, out] at hs
        cases hs
        refine ⟨_, rfl, hI.leave e (by simpa using hb) hc, by simp, fun h' hl hn => ?_, fun h' hh => ?_⟩
        · have hn : h' ≠ h := fun hh => hn (by rw [hh]; rfl)
          unfold St.view
          rw [handle_set e, if_neg hn]
          cases e' : s.handle h' with
          | none => rfl
          | some z =>
            simp only [upd]
            split
            · next hz =>
              have h2 := refs_two (c := x.cell) (handle_get e) (handle_get e') (Ne.symm hn)
              simp only [weight, if_true, hz] at h2
              rw [if_neg (by omega), hz, hc]
              rfl
            · rfl
        · cases hh
          unfold St.view
          rw [handle_set e, if_pos rfl]
          rfl
  | begin h a =>
    simp only [step] at hs
    split at hs
    · cases hs
    · next x e =>
      split at hs
      · cases hs
      · next hb =>
        have hb : x.busy = false := by simpa using hb
        have ht := hI.idle h x e hb
        obtain ⟨c, hc, hcount, hpos⟩ := hI.cell e
        simp only [hc] at hs
        split at hs
        · next h1 =>
          cases hs
          have hup : s.cells = upd s.cells x.cell (some c) := by
            funext i
            simp only [upd]
            split
            · next hi => rw [hi, hc]
            · rfl
          have hview : ∀ h', St.view ⟨s.cells, s.handles.set h (some ⟨x.cell, true, 0⟩)⟩ h' = s.view h' := by
            intro h'
            unfold St.view
            rw [handle_set e]
            by_cases hh : h' = h
            · rw [if_pos hh, hh, e]
            · rw [if_neg hh]
          refine ⟨_, rfl, ?_, by simp, fun h' _ _ => hview h', fun h' _ => hview h'⟩
          have := hI.change e hc (c' := c) (y := ⟨x.cell, true, 0⟩) rfl (by rw [ht]) (fun _ => by omega) nofun
          rw [← hup] at this
          exact this
        · next h1 =>
          split at hs
          · cases hs
          · next ha =>
            have hax : a ≠ x.cell := by rintro rfl; rw [ha] at hc; cases hc
            have hd : decr (upd s.cells a (some ⟨1, c.pool⟩)) x.cell =
                some (upd (upd s.cells a (some ⟨1, c.pool⟩)) x.cell
                  (if c.count ≤ 1 then none else some { c with count := c.count - 1 })) := by
              simp only [decr, upd_other _ _ (Ne.symm hax), hc]
            rw [hd] at hs
            simp only [out] at hs
            cases hs
            refine ⟨_, rfl, hI.move e hb hc h1 ha _, by simp, fun h' hl hn => ?_, fun h' hh => ?_⟩
            · have hn : h' ≠ h := fun hh => hn (by rw [hh]; rfl)
              unfold St.view
              rw [handle_set e, if_neg hn]
              cases e' : s.handle h' with
              | none => rfl
              | some z =>
                obtain ⟨d, hd, _⟩ := hI.cell e'
                have hza : z.cell ≠ a := by intro hz; rw [hz, ha] at hd; cases hd
                show ((upd _ x.cell _) z.cell).map _ = (s.cells z.cell).map _
                by_cases hz : z.cell = x.cell
                · rw [hz, upd_same, if_neg (by omega), hc]
                  rfl
                · rw [upd_other _ _ hz, upd_other _ _ hza]
            · cases hh
              unfold St.view
              rw [handle_set e, if_pos rfl, e]
              show ((upd _ x.cell _) a).map _ = (s.cells x.cell).map _
              rw [upd_other _ _ hax, upd_same, hc]
              rfl
  | write h q =>
    simp only [step] at hs
    split at hs
    · cases hs
    · next x e =>
      split at hs
      · cases hs
      · next hb =>
        have hb1 : x.busy = true := by
          cases hx : x.busy
          · exact absurd (.inl hx) hb
          · rfl
        have ht : x.temps = 0 := Decidable.byContradiction fun h => hb (.inr h)
        obtain ⟨c, hc, hcount, hpos⟩ := hI.cell e
        have ho := hI.owner h x e hb1
        simp only [hc] at hs
        rw [if_pos (by omega)] at hs
        cases hs
        have hself : s.handles.set h (some x) = s.handles := by
          apply List.ext_getElem?
          intro i
          by_cases hi : h = i
          · subst hi
            rw [List.getElem?_set_self (handle_lt e), handle_get e]
          · rw [List.getElem?_set_ne hi]
        refine ⟨_, rfl, ?_, Nat.le_refl _, fun h' hl hn => ?_, fun h' hh => ?_⟩
        · have := hI.change e hc (c' := { c with pool := q }) (y := x) rfl rfl (fun _ => ho)
            (fun h => by rw [h] at hb1; cases hb1)
          rw [hself] at this
          exact this
        · have hn : h' ≠ h := fun hh => hn (by rw [hh]; rfl)
          unfold St.view
          have e1 : St.handle ⟨upd s.cells x.cell (some { c with pool := q }), s.handles⟩ h' = s.handle h' := rfl
          rw [e1]
          cases e' : s.handle h' with
          | none => rfl
          | some z =>
            have hz : z.cell ≠ x.cell := fun hz => hn (hI.alone e e' hz ho)
            simp only [upd_other _ _ hz]
        · cases hh
          unfold St.view
          have e1 : St.handle ⟨upd s.cells x.cell (some { c with pool := q }), s.handles⟩ h = s.handle h := rfl
          rw [e1, e]
          simp only [upd_same]
          rfl
  | tmp h =>
    simp only [step] at hs
    split at hs
    · cases hs
    · next x e =>
      split at hs
      · next hb =>
        obtain ⟨c, hc, hcount, hpos⟩ := hI.cell e
        have ho := hI.owner h x e hb
        simp only [incr, hc, out] at hs
        cases hs
        have hview : ∀ h', St.view ⟨upd s.cells x.cell (some { c with count := c.count + 1 }),
            s.handles.set h (some { x with temps := x.temps + 1 })⟩ h' = s.view h' := by
          intro h'
          unfold St.view
          rw [handle_set e]
          by_cases hh : h' = h
          · rw [if_pos hh, hh, e]; simp [upd_same, hc]
          · rw [if_neg hh]
            cases e' : s.handle h' with
            | none => rfl
            | some z =>
              have hz : z.cell ≠ x.cell := fun hz => hh (hI.alone e e' hz ho)
              simp only [upd_other _ _ hz]
        exact ⟨_, rfl, hI.change e hc (c' := { c with count := c.count + 1 }) (y := { x with temps := x.temps + 1 })
          rfl (by simp only; omega) (fun _ => ho) (fun h => by simp only at h; rw [h] at hb; cases hb), by simp,
          fun h' _ _ => hview h', fun h' _ => hview h'⟩
      · cases hs
  | untmp h =>
    simp only [step] at hs
    split at hs
    · cases hs
    · next x e =>
      split at hs
      · cases hs
      · next hb =>
        have hb1 : x.busy = true := by
          cases hx : x.busy
          · exact absurd (.inl hx) hb
          · rfl
        have ht : x.temps ≠ 0 := fun h => hb (.inr h)
        obtain ⟨c, hc, hcount, hpos⟩ := hI.cell e
        have ho := hI.owner h x e hb1
        simp only [decr, hc, out] at hs
        rw [if_neg (by omega)] at hs
        cases hs
        have hview : ∀ h', St.view ⟨upd s.cells x.cell (some { c with count := c.count - 1 }),
            s.handles.set h (some { x with temps := x.temps - 1 })⟩ h' = s.view h' := by
          intro h'
          unfold St.view
          rw [handle_set e]
          by_cases hh : h' = h
          · rw [if_pos hh, hh, e]; simp [upd_same, hc]
          · rw [if_neg hh]
            cases e' : s.handle h' with
            | none => rfl
            | some z =>
              have hz : z.cell ≠ x.cell := fun hz => hh (hI.alone e e' hz ho)
              simp only [upd_other _ _ hz]
        exact ⟨_, rfl, hI.change e hc (c' := { c with count := c.count - 1 }) (y := { x with temps := x.temps - 1 })
          rfl (by simp only; omega) (fun _ => ho) (fun h => by simp only at h; rw [h] at hb1; cases hb1), by simp,
          fun h' _ _ => hview h', fun h' _ => hview h'⟩
  | finish h =>
    simp only [step] at hs
    split at hs
    · cases hs
    · next x e =>
      split at hs
      · cases hs
      · next hb =>
        have ht : x.temps = 0 := Decidable.byContradiction fun h => hb (.inr h)
        obtain ⟨c, hc, hcount, hpos⟩ := hI.cell e
        cases hs
        have hup : s.cells = upd s.cells x.cell (some c) := by
          funext i
          simp only [upd]
          split
          · next hi => rw [hi, hc]
          · rfl
        have hview : ∀ h', St.view ⟨s.cells, s.handles.set h (some { x with busy := false })⟩ h' = s.view h' := by
          intro h'
          unfold St.view
          rw [handle_set e]
          by_cases hh : h' = h
          · rw [if_pos hh, hh, e]
          · rw [if_neg hh]
        refine ⟨_, rfl, ?_, by simp, fun h' _ _ => hview h', fun h' _ => hview h'⟩
        have := hI.change e hc (c' := c) (y := { x with busy := false }) rfl rfl nofun (fun _ => ht)
        rw [← hup] at this
        exact this

end Verif.Pool.Heap
