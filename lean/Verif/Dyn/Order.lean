import Verif.Dyn.ByField
/-!
Decoding slot by slot: what a field becomes depends on the fields with its number only, so the
order of fields with different numbers does not matter, unless they are members of one oneof.
-/
set_option autoImplicit false
namespace Verif.Dyn
open Verif.Wire

/-- Merging one field, given by number and value. -/
def stepU (S : Schema) (d : Nat) (m : DynMsg) (p : Nat × UVal) : R DynMsg :=
  match msgMerge S d m p.1 p.2.wireType (uPayload p.1 p.2) with
  | .error e => .error e
  | .ok (m', _) => .ok m'

/-- Merging fields one after the other. -/
def runU (S : Schema) (d : Nat) : DynMsg → USet → R DynMsg
  | m, [] => .ok m
  | m, p :: r =>
    match stepU S d m p with
    | .error e => .error e
    | .ok m' => runU S d m' r

theorem Parsed.wf {d : Nat} {b : Bytes} {x : USet} (h : Parsed d b x) :
    ∀ p ∈ x, ValidNumber p.1 ∧ p.2.Wf ∧ p.2.depth ≤ d := by
  induction h with
  | nil => nofun
  | cons hk hu h ih =>
    intro p hp
    rcases List.mem_cons.1 hp with rfl | hp
    · obtain ⟨_, _, _, _, hn, hn'⟩ := decodeKey_good hk
      have := decUVal_ok _ _ _ _ _ _ hu
      exact ⟨⟨hn, hn'⟩, this.1, this.2.1⟩
    · exact ih p hp

theorem step_of_merge {S : Schema} (hS : S.wf = true) {d : Nat} {m m' : DynMsg} {n : Nat} {w : WireType}
    {b r r' : Bytes} {u : UVal} (hm : confMsg S m = true) (hn : 0 < n) (hn' : n < 2 ^ 29)
    (hu : decUVal d n w b = .ok (u, r)) (hx : Delimited S m.desc n u)
    (h : msgMerge S d m n w b = .ok (m', r')) : r' = r ∧ stepU S d m (n, u) = .ok m' := by
  obtain ⟨h1, h2, h3⟩ := decUVal_ok _ _ _ _ _ _ hu
  have hp := decUVal_payload u d n [] h2 h1 ⟨hn, hn'⟩
  rw [h3, List.append_nil] at hp
  obtain ⟨e1, e2⟩ := lockAt hS d _ _ _ _ _ _ _ _ _ _ hm hn hn' hu hp hx h
  refine ⟨e1, ?_⟩
  unfold stepU
  simp only [h3, e2]

theorem merge_of_step {S : Schema} (hS : S.wf = true) {d : Nat} {m m' : DynMsg} {n : Nat} {w : WireType}
    {b r : Bytes} {u : UVal} (hm : confMsg S m = true) (hn : 0 < n) (hn' : n < 2 ^ 29)
    (hu : decUVal d n w b = .ok (u, r)) (hx : Delimited S m.desc n u)
    (h : stepU S d m (n, u) = .ok m') : msgMerge S d m n w b = .ok (m', r) := by
  obtain ⟨h1, h2, h3⟩ := decUVal_ok _ _ _ _ _ _ hu
  have hp := decUVal_payload u d n [] h2 h1 ⟨hn, hn'⟩
  rw [h3, List.append_nil] at hp
  unfold stepU at h
  simp only [h3] at h
  split at h
  · cases h
  · next m1 r1 hmm =>
    cases h
    exact (lockAt hS d _ _ _ _ _ _ _ _ _ _ hm hn hn' hp hu hx hmm).2

theorem step_conf {S : Schema} (hS : S.wf = true) {d : Nat} {m m' : DynMsg} {p : Nat × UVal}
    (hm : confMsg S m = true) (hn : ValidNumber p.1) (h : stepU S d m p = .ok m') :
    confMsg S m' = true ∧ m'.desc = m.desc := by
  unfold stepU at h
  split at h
  · cases h
  · next m1 r1 hmm =>
    cases h
    exact (msgMerge_ok hS d m p.1 _ _ hn.1 hn.2 hm).2 _ _ hmm

theorem run_of_loop {S : Schema} (hS : S.wf = true) {d : Nat} {b : Bytes} {x : USet} (hb : Parsed d b x) :
    ∀ (k : Nat) {m m' : DynMsg} {r : Bytes}, confMsg S m = true → DelimitedAll S m.desc x →
    loopTo 0 (keyThen (msgMerge S d)) k m b = .ok (m', r) → runU S d m x = .ok m' := by
  induction hb with
  | nil =>
    intro k m m' r _ _ h
    cases k with
    | zero => simp [loopTo] at h
    | succ k =>
      simp only [loopTo, List.length_nil, Nat.le_refl, if_true, Except.ok.injEq, Prod.mk.injEq] at h
      rw [← h.1]; rfl
  | @cons b b1 b2 n w u us hk hu hb ih =>
    intro k m m' r hm hx h
    cases k with
    | zero => simp [loopTo] at h
    | succ k =>
      simp only [DelimitedAll] at hx
      simp only [loopTo] at h
      split at h
      · next hl =>
        have : b = [] := List.length_eq_zero_iff.1 (by omega)
        subst this
        obtain ⟨y, hne, hy, -⟩ := decodeKey_good hk
        cases y with
        | nil => exact absurd rfl hne
        | cons _ _ => cases hy
      · simp only [keyThen, hk] at h
        split at h
        · cases h
        · next m1 b3 hs =>
          obtain ⟨_, _, _, _, hn, hn'⟩ := decodeKey_good hk
          obtain ⟨rfl, hs'⟩ := step_of_merge hS hm hn hn' hu hx.1 hs
          have hok := (msgMerge_ok hS d m n w b1 hn hn' hm).2 m1 b3 hs
          simp only [runU, hs']
          exact ih k hok.1 (by rw [hok.2]; exact hx.2) h

theorem loop_of_run {S : Schema} (hS : S.wf = true) {d : Nat} {b : Bytes} {x : USet} (hb : Parsed d b x) :
    ∀ (k : Nat) {m m' : DynMsg}, b.length < k → confMsg S m = true → DelimitedAll S m.desc x →
    runU S d m x = .ok m' → loopTo 0 (keyThen (msgMerge S d)) k m b = .ok (m', []) := by
  induction hb with
  | nil =>
    intro k m m' hk _ _ h
    cases k with
    | zero => omega
    | succ k =>
      simp only [runU, Except.ok.injEq] at h
      simp [loopTo, h]
  | @cons b b1 b2 n w u us hk hu hb ih =>
    intro k m m' hlt hm hx h
    cases k with
    | zero => omega
    | succ k =>
      simp only [DelimitedAll] at hx
      simp only [runU] at h
      split at h
      · cases h
      · next m1 hs =>
        obtain ⟨_, _, _, _, hn, hn'⟩ := decodeKey_good hk
        have hok := step_conf hS hm ⟨hn, hn'⟩ hs
        have hs' := merge_of_step hS hm hn hn' hu hx.1 hs
        obtain ⟨y, hne, rfl, -⟩ := decodeKey_good hk
        have h2 := (good_decUVal d n w).le hu
        have : 0 < y.length := List.length_pos_iff.2 hne
        simp only [List.length_append] at hlt
        simp only [loopTo, keyThen, hk, hs']
        rw [if_neg (by rw [List.length_append]; omega)]
        exact ih k (by omega) hok.1 (by rw [hok.2]; exact hx.2) h

/-- Merging bytes is merging their fields. -/
theorem merge_iff_run {S : Schema} (hS : S.wf = true) {m m' : DynMsg} {b : Bytes} {x : USet}
    (hm : confMsg S m = true) (hb : Parsed recursionLimit b x) (hx : DelimitedAll S m.desc x) :
    merge S m b = .ok m' ↔ runU S recursionLimit m x = .ok m' := by
  constructor
  · intro h
    unfold merge mergeAll at h
    split at h
    · cases h
    · next m1 r hl =>
      cases h
      exact run_of_loop hS hb _ hm hx hl
  · intro h
    unfold merge mergeAll
    rw [loop_of_run hS hb _ (Nat.lt_succ_self _) hm hx h]

/-- The value a field starts from. -/
def curOf (S : Schema) (f : FieldDesc) : Option Slot → Option Value
  | some (.val v) => some v
  | _ => fieldDefault S f

/-- What a field turns its slot into. -/
def slotStep (S : Schema) (d i : Nat) (p : Nat × UVal) (o : Option Slot) : R Slot :=
  match S.msg? i with
  | none => .error .panic
  | some md =>
    match (md.getField p.1).or (md.getExtension p.1) with
    | some f =>
      match curOf S f o with
      | none => .error .panic
      | some v =>
        match valueMerge S d (nestedAt S d) f v p.2.wireType (uPayload p.1 p.2) with
        | .error e => .error e
        | .ok (c, _) => .ok (.val c)
    | none =>
      match o with
      | some (.val _) => .error .panic
      | some (.unknown us) => .ok (.unknown (us ++ [p]))
      | _ => .ok (.unknown [p])

/-- The fields that field `n` pushes out. -/
def pushed (S : Schema) (i n : Nat) : List Nat :=
  match S.msg? i with
  | none => []
  | some md =>
    match md.getField n with
    | some f => siblings md f
    | none => []

theorem step_eq {S : Schema} (hS : S.wf = true) {d : Nat} {m : DynMsg} {p : Nat × UVal}
    (hm : confMsg S m = true) (hn : ValidNumber p.1) (hu : p.2.Wf) (hd : p.2.depth ≤ d) :
    stepU S d m p = match slotStep S d m.desc p (SMap.get? m.fields p.1) with
      | .error e => .error e
      | .ok s => .ok ⟨m.desc, SMap.insert p.1 s (FieldSet.clearAll (pushed S m.desc p.1) m.fields)⟩ := by
  obtain ⟨md, hC⟩ := confMsg_iff.1 hm
  have hw := Schema.wf_msg hS hC.desc
  obtain ⟨n, u⟩ := p
  simp only at hn hu hd ⊢
  unfold stepU slotStep pushed
  simp only [hC.desc]
  cases hf : md.getField n with
  | some f =>
    obtain ⟨hmem, hnum⟩ := getField_mem hf
    obtain ⟨v, hv, hcur, hmerge, -⟩ := field_place hS hC hf d
    subst hnum
    have hcur' : curOf S f (SMap.get? m.fields f.number) = some v := by
      unfold FieldSet.getValue at hcur
      rw [get?_clearAll _ _ hC.sorted, if_neg not_mem_siblings] at hcur
      unfold curOf
      rcases hcur with h | ⟨h, h'⟩
      · split at h <;> simp_all
      · split at h <;> simp_all
    simp only [hmerge, Option.some_or, hcur']
    cases valueMerge S d (nestedAt S d) f v u.wireType (uPayload f.number u) with
    | error e => rfl
    | ok q => rfl
  | none =>
    cases hx : md.getExtension n with
    | some f =>
      obtain ⟨hmem, hnum⟩ := getExtension_mem hx
      obtain ⟨v, hv, hcur, hmerge, -⟩ := ext_place hS hC hx d
      subst hnum
      have hcur' : curOf S f (SMap.get? m.fields f.number) = some v := by
        unfold FieldSet.getValue at hcur
        unfold curOf
        rcases hcur with h | ⟨h, h'⟩
        · split at h <;> simp_all
        · split at h <;> simp_all
      simp only [hmerge, Option.none_or, hcur']
      cases valueMerge S d (nestedAt S d) f v u.wireType (uPayload f.number u) with
      | error e => rfl
      | ok q => rfl
    | none =>
      have hp := decUVal_payload u d n [] hd hu hn
      rw [List.append_nil] at hp
      rw [msgMerge_eq]
      unfold mergeField FieldSet.addUnknown
      simp only [hC.desc, hf, hx, hp, Option.none_or]
      cases SMap.get? m.fields n with
      | none => rfl
      | some s => cases s <;> rfl

/-- Two numbers whose fields do not get in each other's way. -/
def Apart (S : Schema) (i n k : Nat) : Prop := n ≠ k ∧ n ∉ pushed S i k ∧ k ∉ pushed S i n

theorem step_swap {S : Schema} (hS : S.wf = true) {d : Nat} {m m1 m2 : DynMsg} {p q : Nat × UVal}
    (hm : confMsg S m = true) (hp : ValidNumber p.1 ∧ p.2.Wf ∧ p.2.depth ≤ d)
    (hq : ValidNumber q.1 ∧ q.2.Wf ∧ q.2.depth ≤ d) (ha : Apart S m.desc p.1 q.1)
    (h1 : stepU S d m p = .ok m1) (h2 : stepU S d m1 q = .ok m2) :
    ∃ m3, stepU S d m q = .ok m3 ∧ stepU S d m3 p = .ok m2 := by
  have hc1 := step_conf hS hm hp.1 h1
  obtain ⟨md, hC⟩ := confMsg_iff.1 hm
  have hs := hC.sorted
  rw [step_eq hS hm hp.1 hp.2.1 hp.2.2] at h1
  split at h1
  · cases h1
  · next s hs1 =>
    cases h1
    rw [step_eq hS hc1.1 hq.1 hq.2.1 hq.2.2] at h2
    simp only [SMap.get?_insert, if_neg (Ne.symm ha.1), get?_clearAll _ _ hs, if_neg ha.2.2] at h2
    split at h2
    · cases h2
    · next t ht =>
      cases h2
      have e3 : stepU S d m q = .ok ⟨m.desc, SMap.insert q.1 t (FieldSet.clearAll (pushed S m.desc q.1) m.fields)⟩ := by
        rw [step_eq hS hm hq.1 hq.2.1 hq.2.2, ht]
      have hc3 := step_conf hS hm hq.1 e3
      refine ⟨_, e3, ?_⟩
      rw [step_eq hS hc3.1 hp.1 hp.2.1 hp.2.2]
      simp only [SMap.get?_insert, if_neg ha.1, get?_clearAll _ _ hs, if_neg ha.2.1, hs1]
      congr 2
      have a1 := SMap.sorted_insert (a := s) hp.1.1 (sorted_clearAll (pushed S m.desc p.1) _ hs)
      have a2 := SMap.sorted_insert (a := t) hq.1.1 (sorted_clearAll (pushed S m.desc q.1) _ hs)
      apply SMap.sorted_ext
      · exact SMap.sorted_insert hp.1.1 (sorted_clearAll _ _ a2)
      · exact SMap.sorted_insert hq.1.1 (sorted_clearAll _ _ a1)
      · intro j
        rw [SMap.get?_insert, SMap.get?_insert, get?_clearAll _ _ a1, get?_clearAll _ _ a2,
          SMap.get?_insert, SMap.get?_insert, get?_clearAll _ _ hs, get?_clearAll _ _ hs]
        obtain ⟨x1, x2, x3⟩ := ha
        by_cases hj : j = p.1
        · subst hj; simp [x1, x2]
        · by_cases hj' : j = q.1
          · subst hj'; simp [hj, x3]
          · simp only [if_neg hj, if_neg hj']
            split <;> split <;> rfl

/-- Reorderings that keep fields with the same number, and members of one oneof, in order. -/
inductive Shuffled (S : Schema) (i : Nat) : USet → USet → Prop
  | refl (x : USet) : Shuffled S i x x
  | cons (p : Nat × UVal) {x y : USet} (h : Shuffled S i x y) : Shuffled S i (p :: x) (p :: y)
  | swap {p q : Nat × UVal} (x : USet) (h : Apart S i p.1 q.1) : Shuffled S i (p :: q :: x) (q :: p :: x)
  | trans {x y z : USet} (h : Shuffled S i x y) (h' : Shuffled S i y z) : Shuffled S i x z

theorem Shuffled.mem {S : Schema} {i : Nat} {x y : USet} (h : Shuffled S i x y) : ∀ p, p ∈ y → p ∈ x := by
  induction h with
  | refl => exact fun _ h => h
  | cons p h ih =>
    intro q hq
    rcases List.mem_cons.1 hq with rfl | hq
    · exact List.mem_cons_self
    · exact List.mem_cons_of_mem _ (ih q hq)
  | swap x h => intro r hr; simp only [List.mem_cons] at hr ⊢; grind
  | trans h h' ih ih' => exact fun p hp => ih p (ih' p hp)

theorem run_shuffled {S : Schema} (hS : S.wf = true) {d i : Nat} {x y : USet} (h : Shuffled S i x y) :
    ∀ {m m' : DynMsg}, confMsg S m = true → m.desc = i →
      (∀ p ∈ x, ValidNumber p.1 ∧ p.2.Wf ∧ p.2.depth ≤ d) →
      runU S d m x = .ok m' → runU S d m y = .ok m' := by
  induction h with
  | refl => exact fun _ _ _ h => h
  | cons p h ih =>
    intro m m' hm hi hx h
    simp only [runU] at h ⊢
    split at h
    · cases h
    · next m1 h1 =>
      have hc := step_conf hS hm (hx p List.mem_cons_self).1 h1
      exact ih hc.1 (hc.2.trans hi) (fun q hq => hx q (List.mem_cons_of_mem _ hq)) h
  | @swap p q x ha =>
    intro m m' hm hi hx h
    subst hi
    simp only [runU] at h ⊢
    split at h
    · cases h
    · next m1 h1 =>
      split at h
      · cases h
      · next m2 h2 =>
        obtain ⟨m3, h3, h4⟩ := step_swap hS hm (hx p (by simp)) (hx q (by simp)) ha h1 h2
        rw [h3]
        simp only
        rw [h4]
        exact h
  | trans h h' ih ih' =>
    intro m m' hm hi hx hr
    exact ih' hm hi (fun p hp => hx p (h.mem p hp)) (ih hm hi hx hr)

theorem shuffled_front {S : Schema} {i : Nat} {a : Nat × UVal} : ∀ (p s : USet),
    (∀ q ∈ p, Apart S i a.1 q.1) → Shuffled S i (a :: (p ++ s)) (p ++ a :: s)
  | [], _, _ => .refl _
  | q :: p, s, h => .trans (.swap (p ++ s) (h q List.mem_cons_self))
      (.cons q (shuffled_front p s (fun r hr => h r (List.mem_cons_of_mem _ hr))))

/-- Sequences with the same fields of every number are reorderings of each other, if no two
members of one oneof occur. -/
theorem shuffled_of_filter {S : Schema} {i : Nat} : ∀ (x y : USet),
    (∀ n, y.filter (·.1 == n) = x.filter (·.1 == n)) →
    (∀ p ∈ x, ∀ q ∈ x, p.1 ≠ q.1 → Apart S i p.1 q.1) → Shuffled S i x y
  | [], y, h, _ => by
    cases y with
    | nil => exact .refl _
    | cons q y => have := h q.1; simp at this
  | a :: x, y, h, ha => by
    have h1 := h a.1
    simp only [List.filter_cons, beq_self_eq_true, if_true] at h1
    have hmem : ∀ q ∈ y, q ∈ a :: x := by
      intro q hq
      have : q ∈ y.filter (·.1 == q.1) := List.mem_filter.2 ⟨hq, by simp⟩
      rw [h q.1] at this
      exact (List.mem_filter.1 this).1
    obtain ⟨p, s, hy, hp, hs⟩ : ∃ p s, y = p ++ a :: s ∧ (∀ q ∈ p, q.1 ≠ a.1) ∧
        s.filter (·.1 == a.1) = x.filter (·.1 == a.1) := by
      obtain ⟨p, s, rfl, hp, ha, hs⟩ := List.filter_eq_cons_iff.1 h1
      exact ⟨p, s, rfl, fun q hq e => by simpa [e] using hp q hq, hs⟩
    subst hy
    refine .trans (.cons a (shuffled_of_filter x (p ++ s) ?_ ?_)) (shuffled_front p s ?_)
    · intro n
      by_cases hn : n = a.1
      · subst hn
        rw [List.filter_append, hs]
        have : p.filter (·.1 == a.1) = [] := by
          rw [List.filter_eq_nil_iff]
          intro q hq
          simpa using hp q hq
        rw [this, List.nil_append]
      · have := h n
        simp only [List.filter_append, List.filter_cons] at this ⊢
        have hne : (a.1 == n) = false := by simpa using Ne.symm hn
        simpa [hne] using this
    · exact fun q hq r hr => ha q (List.mem_cons_of_mem _ hq) r (List.mem_cons_of_mem _ hr)
    · intro q hq
      exact ha a List.mem_cons_self q (hmem q (by simp [hq])) (Ne.symm (hp q hq))

end Verif.Dyn
