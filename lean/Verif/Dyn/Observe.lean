import Verif.Dyn.Iter
import Verif.Dyn.Api
import Verif.Dyn.Conf
/-!
Lemmas about the observers, the iterators and the draining iterators.
-/
set_option autoImplicit false
namespace Verif.Dyn
open Verif.Wire

/-! ### A common shape of `iter_fields` and `iter_extensions` -/

/-- `iter_fields`/`iter_extensions` for a given descriptor look-up. -/
def iterBy (S : Schema) (look : Nat → Option FieldDesc) : FieldSet → Option (List (FieldDesc × Value))
  | [] => some []
  | (n, .val v) :: r =>
    match look n with
    | none => iterBy S look r
    | some f =>
      match hasVal S f v, iterBy S look r with
      | some true, some items => some ((f, v) :: items)
      | some false, some items => some items
      | _, _ => none
  | (_, .taken) :: r => iterBy S look r
  | (_, .unknown _) :: r => iterBy S look r

theorem iterFields_eq {S : Schema} {md : MsgDesc} : ∀ fs : FieldSet,
    iterFields S md fs = iterBy S md.getField fs
  | [] => rfl
  | (n, .val v) :: r => by
    simp only [iterFields, iterBy, iterFields_eq r]
    cases md.getField n with
    | none => rfl
    | some f => cases hasVal S f v with
      | none => rfl
      | some b => cases b <;> cases iterBy S md.getField r <;> rfl
  | (n, .taken) :: r => by simp only [iterFields, iterBy, iterFields_eq r]
  | (n, .unknown u) :: r => by simp only [iterFields, iterBy, iterFields_eq r]

theorem iterExtensions_eq {S : Schema} {md : MsgDesc} : ∀ fs : FieldSet,
    iterExtensions S md fs = iterBy S md.getExtension fs
  | [] => rfl
  | (n, .val v) :: r => by
    simp only [iterExtensions, iterBy, iterExtensions_eq r]
    cases md.getExtension n with
    | none => rfl
    | some f => cases hasVal S f v with
      | none => rfl
      | some b => cases b <;> cases iterBy S md.getExtension r <;> rfl
  | (n, .taken) :: r => by simp only [iterExtensions, iterBy, iterExtensions_eq r]
  | (n, .unknown u) :: r => by simp only [iterExtensions, iterBy, iterExtensions_eq r]

/-- The iterator yields exactly the present entries. -/
theorem mem_iterBy {S : Schema} {look : Nat → Option FieldDesc} :
    ∀ {fs : FieldSet} {l : List (FieldDesc × Value)}, iterBy S look fs = some l →
      ∀ f v, (f, v) ∈ l ↔ ∃ n, (n, Slot.val v) ∈ fs ∧ look n = some f ∧ hasVal S f v = some true := by
  intro fs
  induction fs with
  | nil => intro l h f v; simp only [iterBy, Option.some.injEq] at h; subst h; simp
  | cons p r ih =>
    obtain ⟨n, s⟩ := p
    intro l h f v
    have skip : ∀ l', iterBy S look r = some l' → (¬ (s = .val v ∧ look n = some f ∧ hasVal S f v = some true)) →
        ((f, v) ∈ l' ↔ ∃ k, (k, Slot.val v) ∈ (n, s) :: r ∧ look k = some f ∧ hasVal S f v = some true) := by
      intro l' hl hne
      rw [ih hl f v]
      constructor
      · rintro ⟨k, h1, h2⟩; exact ⟨k, List.mem_cons_of_mem _ h1, h2⟩
      · rintro ⟨k, h1, h2⟩
        rcases List.mem_cons.1 h1 with h1 | h1
        · cases h1; exact absurd ⟨rfl, h2⟩ hne
        · exact ⟨k, h1, h2⟩
    cases s with
    | taken => exact skip l (by simpa only [iterBy] using h) (by rintro ⟨h, _⟩; cases h)
    | unknown u => exact skip l (by simpa only [iterBy] using h) (by rintro ⟨h, _⟩; cases h)
    | val w =>
      simp only [iterBy] at h
      cases hl : look n with
      | none =>
        rw [hl] at h
        exact skip l h (by rintro ⟨_, h2, _⟩; cases hl.symm.trans h2)
      | some g =>
        rw [hl] at h
        simp only at h
        cases hh : hasVal S g w with
        | none => rw [hh] at h; cases h
        | some b =>
          cases hr : iterBy S look r with
          | none => rw [hh, hr] at h; cases b <;> cases h
          | some l' =>
            rw [hh, hr] at h
            cases b with
            | false =>
              simp only [Option.some.injEq] at h; subst h
              refine skip l' hr ?_
              rintro ⟨h1, h2, h3⟩
              cases h1
              rw [hl] at h2; cases h2
              rw [hh] at h3; cases h3
            | true =>
              simp only [Option.some.injEq] at h; subst h
              rw [List.mem_cons, ih hr f v]
              constructor
              · rintro (h1 | ⟨k, h1, h2⟩)
                · cases h1; exact ⟨n, List.mem_cons_self, hl, hh⟩
                · exact ⟨k, List.mem_cons_of_mem _ h1, h2⟩
              · rintro ⟨k, h1, h2, h3⟩
                rcases List.mem_cons.1 h1 with h1 | h1
                · cases h1
                  rw [hl] at h2; cases h2
                  exact .inl rfl
                · exact .inr ⟨k, h1, h2, h3⟩

/-- The iterator yields ascending numbers. -/
theorem iterBy_sorted {S : Schema} {look : Nat → Option FieldDesc}
    (hlook : ∀ n f, look n = some f → f.number = n) :
    ∀ {fs : FieldSet} {lo : Nat} {l : List (FieldDesc × Value)}, SMap.sortedFrom lo fs = true →
      iterBy S look fs = some l →
      (l.map (·.1.number)).Pairwise (· < ·) ∧ ∀ p ∈ l, lo < p.1.number := by
  intro fs
  induction fs with
  | nil => intro lo l _ h; simp only [iterBy, Option.some.injEq] at h; subst h; simp
  | cons p r ih =>
    obtain ⟨n, s⟩ := p
    intro lo l hs h
    simp only [SMap.sortedFrom, Bool.and_eq_true, decide_eq_true_eq] at hs
    have skip : ∀ l', iterBy S look r = some l' →
        (l'.map (·.1.number)).Pairwise (· < ·) ∧ ∀ p ∈ l', lo < p.1.number := by
      intro l' hl
      obtain ⟨h1, h2⟩ := ih hs.2 hl
      exact ⟨h1, fun p hp => Nat.lt_trans hs.1 (h2 p hp)⟩
    cases s with
    | taken => exact skip l (by simpa only [iterBy] using h)
    | unknown u => exact skip l (by simpa only [iterBy] using h)
    | val w =>
      simp only [iterBy] at h
      cases hl : look n with
      | none => rw [hl] at h; exact skip l h
      | some g =>
        rw [hl] at h
        simp only at h
        cases hh : hasVal S g w with
        | none => rw [hh] at h; cases h
        | some b =>
          cases hr : iterBy S look r with
          | none => rw [hh, hr] at h; cases b <;> cases h
          | some l' =>
            rw [hh, hr] at h
            cases b with
            | false => simp only [Option.some.injEq] at h; subst h; exact skip l' hr
            | true =>
              simp only [Option.some.injEq] at h; subst h
              obtain ⟨h1, h2⟩ := ih hs.2 hr
              have hn := hlook n g hl
              refine ⟨?_, ?_⟩
              · rw [List.map_cons, List.pairwise_cons]
                refine ⟨?_, h1⟩
                intro k hk
                obtain ⟨p, hp, rfl⟩ := List.mem_map.1 hk
                simp only [hn]
                exact h2 p hp
              · intro p hp
                rcases List.mem_cons.1 hp with rfl | hp
                · simp only [hn]; exact hs.1
                · exact Nat.lt_trans hs.1 (h2 p hp)

theorem getField_look {md : MsgDesc} : ∀ n f, md.getField n = some f → f.number = n :=
  fun _ _ h => (getField_mem h).2

theorem getExtension_look {md : MsgDesc} : ∀ n f, md.getExtension n = some f → f.number = n :=
  fun _ _ h => (getExtension_mem h).2

/-- A value by look-up. -/
theorem getValue_iff {fs : FieldSet} (hs : SMap.sorted fs = true) {n : Nat} {v : Value} :
    FieldSet.getValue fs n = some v ↔ (n, Slot.val v) ∈ fs := by
  rw [SMap.mem_iff hs]
  unfold FieldSet.getValue
  cases SMap.get? fs n with
  | none => simp
  | some s => cases s <;> simp

theorem hasVal_of_default {S : Schema} {f : FieldDesc} (h : (fieldDefault S f).isSome = true) (v : Value) :
    ∃ b, hasVal S f v = some b := by
  unfold hasVal isDefault
  split
  · exact ⟨_, rfl⟩
  · obtain ⟨w, hw⟩ := Option.isSome_iff_exists.1 h
    rw [hw]; exact ⟨_, rfl⟩

/-- Iterating never panics when every known descriptor has a default. -/
theorem iterBy_total {S : Schema} {look : Nat → Option FieldDesc}
    (hd : ∀ n f, look n = some f → (fieldDefault S f).isSome = true) :
    ∀ fs : FieldSet, ∃ l, iterBy S look fs = some l
  | [] => ⟨[], rfl⟩
  | (n, .taken) :: r => by simp only [iterBy]; exact iterBy_total hd r
  | (n, .unknown u) :: r => by simp only [iterBy]; exact iterBy_total hd r
  | (n, .val v) :: r => by
    simp only [iterBy]
    obtain ⟨l, hl⟩ := iterBy_total hd r
    cases hk : look n with
    | none => exact ⟨l, hl⟩
    | some f =>
      obtain ⟨b, hb⟩ := hasVal_of_default (hd n f hk) v
      simp only [hb, hl]
      cases b <;> exact ⟨_, rfl⟩

/-! ### Draining -/

/-- `take_fields`/`take_extensions` for a given descriptor look-up. -/
def takeBy (S : Schema) (look : Nat → Option FieldDesc) :
    FieldSet → Option (List (FieldDesc × Value) × FieldSet)
  | [] => some ([], [])
  | (n, .val v) :: r =>
    match look n, takeBy S look r with
    | none, some (items, fs) => some (items, (n, .val v) :: fs)
    | some f, some (items, fs) =>
      match hasVal S f v with
      | some true => some ((f, v) :: items, (n, .taken) :: fs)
      | some false => some (items, (n, .val v) :: fs)
      | none => none
    | _, none => none
  | (n, .taken) :: r => (takeBy S look r).map (fun p => (p.1, (n, .taken) :: p.2))
  | (n, .unknown u) :: r => (takeBy S look r).map (fun p => (p.1, (n, .unknown u) :: p.2))

theorem takeFields_eq {S : Schema} {md : MsgDesc} : ∀ fs : FieldSet,
    takeFields S md fs = takeBy S md.getField fs
  | [] => rfl
  | (n, .val v) :: r => by
    simp only [takeFields, takeBy, takeFields_eq r]
    cases md.getField n with
    | none => cases takeBy S md.getField r <;> rfl
    | some f => cases hasVal S f v with
      | none => cases takeBy S md.getField r <;> rfl
      | some b => cases b <;> cases takeBy S md.getField r <;> rfl
  | (n, .taken) :: r => by simp only [takeFields, takeBy, takeFields_eq r]
  | (n, .unknown u) :: r => by simp only [takeFields, takeBy, takeFields_eq r]

theorem takeExtensions_eq {S : Schema} {md : MsgDesc} : ∀ fs : FieldSet,
    takeExtensions S md fs = takeBy S md.getExtension fs
  | [] => rfl
  | (n, .val v) :: r => by
    simp only [takeExtensions, takeBy, takeExtensions_eq r]
    cases md.getExtension n with
    | none => cases takeBy S md.getExtension r <;> rfl
    | some f => cases hasVal S f v with
      | none => cases takeBy S md.getExtension r <;> rfl
      | some b => cases b <;> cases takeBy S md.getExtension r <;> rfl
  | (n, .taken) :: r => by simp only [takeExtensions, takeBy, takeExtensions_eq r]
  | (n, .unknown u) :: r => by simp only [takeExtensions, takeBy, takeExtensions_eq r]

/-- Whether an entry is drained. -/
def drained (S : Schema) (look : Nat → Option FieldDesc) (n : Nat) (s : Slot) : Prop :=
  ∃ v f, s = .val v ∧ look n = some f ∧ hasVal S f v = some true

theorem takeBy_spec {S : Schema} {look : Nat → Option FieldDesc} :
    ∀ {fs : FieldSet} {l : List (FieldDesc × Value)} {fs' : FieldSet},
      takeBy S look fs = some (l, fs') →
      iterBy S look fs = some l ∧
      (∀ lo, SMap.sortedFrom lo fs = true → SMap.sortedFrom lo fs' = true) ∧
      iterUnknown fs' = iterUnknown fs ∧
      (∀ n, (∃ s, SMap.get? fs n = some s ∧ drained S look n s ∧ SMap.get? fs' n = some .taken) ∨
        (SMap.get? fs' n = SMap.get? fs n ∧ ∀ s, SMap.get? fs n = some s → ¬ drained S look n s)) := by
  intro fs
  induction fs with
  | nil =>
    intro l fs' h
    simp only [takeBy, Option.some.injEq, Prod.mk.injEq] at h
    obtain ⟨rfl, rfl⟩ := h
    exact ⟨rfl, fun _ h => h, rfl, fun n => .inr ⟨rfl, by intro s h; cases h⟩⟩
  | cons p r ih =>
    obtain ⟨n, s⟩ := p
    intro l fs' h
    have keep : ∀ l' r', takeBy S look r = some (l', r') → ¬ drained S look n s →
        (∀ lo, SMap.sortedFrom lo ((n, s) :: r) = true → SMap.sortedFrom lo ((n, s) :: r') = true) ∧
        (∀ k, (∃ t, SMap.get? ((n, s) :: r) k = some t ∧ drained S look k t ∧
            SMap.get? ((n, s) :: r') k = some .taken) ∨
          (SMap.get? ((n, s) :: r') k = SMap.get? ((n, s) :: r) k ∧
            ∀ t, SMap.get? ((n, s) :: r) k = some t → ¬ drained S look k t)) := by
      intro l' r' hr hnd
      obtain ⟨_, h2, _, h4⟩ := ih hr
      refine ⟨?_, ?_⟩
      · intro lo hs
        simp only [SMap.sortedFrom, Bool.and_eq_true, decide_eq_true_eq] at hs ⊢
        exact ⟨hs.1, h2 n hs.2⟩
      · intro k
        simp only [SMap.get?]
        by_cases hk : n = k
        · subst hk
          right
          simp only [if_true, Option.some.injEq]
          exact ⟨trivial, by rintro t rfl; exact hnd⟩
        · simp only [if_neg hk]; exact h4 k
    cases s with
    | taken =>
      simp only [takeBy] at h
      obtain ⟨⟨l', r'⟩, hr, he⟩ := Option.map_eq_some_iff.1 h
      simp only [Prod.mk.injEq] at he
      obtain ⟨rfl, rfl⟩ := he
      obtain ⟨k1, k2⟩ := keep _ _ hr (by rintro ⟨v, f, h, _⟩; cases h)
      exact ⟨by simpa only [iterBy] using (ih hr).1, k1, by simpa only [iterUnknown] using (ih hr).2.2.1, k2⟩
    | unknown u =>
      simp only [takeBy] at h
      obtain ⟨⟨l', r'⟩, hr, he⟩ := Option.map_eq_some_iff.1 h
      simp only [Prod.mk.injEq] at he
      obtain ⟨rfl, rfl⟩ := he
      obtain ⟨k1, k2⟩ := keep _ _ hr (by rintro ⟨v, f, h, _⟩; cases h)
      exact ⟨by simpa only [iterBy] using (ih hr).1, k1,
        by simp only [iterUnknown, (ih hr).2.2.1], k2⟩
    | val v =>
      simp only [takeBy] at h
      cases hr : takeBy S look r with
      | none => rw [hr] at h; cases hl : look n <;> rw [hl] at h <;> cases h
      | some q =>
        obtain ⟨l', r'⟩ := q
        rw [hr] at h
        cases hl : look n with
        | none =>
          rw [hl] at h
          simp only [Option.some.injEq, Prod.mk.injEq] at h
          obtain ⟨rfl, rfl⟩ := h
          obtain ⟨k1, k2⟩ := keep _ _ hr (by rintro ⟨w, f, _, h2, _⟩; cases hl.symm.trans h2)
          exact ⟨by simp only [iterBy, hl, (ih hr).1], k1, by simp only [iterUnknown, (ih hr).2.2.1], k2⟩
        | some f =>
          rw [hl] at h
          simp only at h
          cases hh : hasVal S f v with
          | none => rw [hh] at h; cases h
          | some b =>
            rw [hh] at h
            cases b with
            | false =>
              simp only [Option.some.injEq, Prod.mk.injEq] at h
              obtain ⟨rfl, rfl⟩ := h
              obtain ⟨k1, k2⟩ := keep _ _ hr (by
                rintro ⟨w, g, h1, h2, h3⟩
                cases h1
                rw [hl] at h2; cases h2
                rw [hh] at h3; cases h3)
              exact ⟨by simp only [iterBy, hl, hh, (ih hr).1], k1,
                by simp only [iterUnknown, (ih hr).2.2.1], k2⟩
            | true =>
              simp only [Option.some.injEq, Prod.mk.injEq] at h
              obtain ⟨rfl, rfl⟩ := h
              obtain ⟨h1, h2, h3, h4⟩ := ih hr
              refine ⟨by simp only [iterBy, hl, hh, h1], ?_, by simp only [iterUnknown, h3], ?_⟩
              · intro lo hs
                simp only [SMap.sortedFrom, Bool.and_eq_true, decide_eq_true_eq] at hs ⊢
                exact ⟨hs.1, h2 n hs.2⟩
              · intro k
                simp only [SMap.get?]
                by_cases hk : n = k
                · subst hk
                  left
                  simp only [if_true]
                  exact ⟨_, rfl, ⟨v, f, rfl, hl, hh⟩, trivial⟩
                · simp only [if_neg hk]; exact h4 k

theorem takeBy_total {S : Schema} {look : Nat → Option FieldDesc}
    (hd : ∀ n f, look n = some f → (fieldDefault S f).isSome = true) :
    ∀ fs : FieldSet, ∃ p, takeBy S look fs = some p
  | [] => ⟨_, rfl⟩
  | (n, .taken) :: r => by
    obtain ⟨l, hl⟩ := takeBy_total hd r
    simp only [takeBy, hl]; exact ⟨_, rfl⟩
  | (n, .unknown u) :: r => by
    obtain ⟨l, hl⟩ := takeBy_total hd r
    simp only [takeBy, hl]; exact ⟨_, rfl⟩
  | (n, .val v) :: r => by
    obtain ⟨⟨l, r'⟩, hl⟩ := takeBy_total hd r
    simp only [takeBy, hl]
    cases hk : look n with
    | none => exact ⟨_, rfl⟩
    | some f =>
      obtain ⟨b, hb⟩ := hasVal_of_default (hd n f hk) v
      simp only [hb]
      cases b <;> exact ⟨_, rfl⟩

/-- After draining, the iterator yields nothing. -/
theorem iterBy_drained {S : Schema} {look : Nat → Option FieldDesc} :
    ∀ {fs : FieldSet} {l : List (FieldDesc × Value)} {fs' : FieldSet},
      takeBy S look fs = some (l, fs') → iterBy S look fs' = some [] := by
  intro fs
  induction fs with
  | nil =>
    intro l fs' h
    simp only [takeBy, Option.some.injEq, Prod.mk.injEq] at h
    obtain ⟨rfl, rfl⟩ := h; rfl
  | cons p r ih =>
    obtain ⟨n, s⟩ := p
    intro l fs' h
    cases s with
    | taken =>
      simp only [takeBy] at h
      obtain ⟨⟨l', r'⟩, hr, he⟩ := Option.map_eq_some_iff.1 h
      simp only [Prod.mk.injEq] at he
      obtain ⟨rfl, rfl⟩ := he
      simp only [iterBy, ih hr]
    | unknown u =>
      simp only [takeBy] at h
      obtain ⟨⟨l', r'⟩, hr, he⟩ := Option.map_eq_some_iff.1 h
      simp only [Prod.mk.injEq] at he
      obtain ⟨rfl, rfl⟩ := he
      simp only [iterBy, ih hr]
    | val v =>
      simp only [takeBy] at h
      cases hr : takeBy S look r with
      | none => rw [hr] at h; cases hl : look n <;> rw [hl] at h <;> cases h
      | some q =>
        obtain ⟨l', r'⟩ := q
        rw [hr] at h
        cases hl : look n with
        | none =>
          rw [hl] at h
          simp only [Option.some.injEq, Prod.mk.injEq] at h
          obtain ⟨rfl, rfl⟩ := h
          simp only [iterBy, hl, ih hr]
        | some f =>
          rw [hl] at h
          simp only at h
          cases hh : hasVal S f v with
          | none => rw [hh] at h; cases h
          | some b =>
            rw [hh] at h
            cases b with
            | false =>
              simp only [Option.some.injEq, Prod.mk.injEq] at h
              obtain ⟨rfl, rfl⟩ := h
              simp only [iterBy, hl, hh, ih hr]
            | true =>
              simp only [Option.some.injEq, Prod.mk.injEq] at h
              obtain ⟨rfl, rfl⟩ := h
              simp only [iterBy, ih hr]

theorem takeUnknown_spec : ∀ fs : FieldSet,
    (takeUnknown fs).1 = iterUnknown fs ∧
    (∀ lo, SMap.sortedFrom lo fs = true → SMap.sortedFrom lo (takeUnknown fs).2 = true) ∧
    iterUnknown (takeUnknown fs).2 = [] ∧
    (∀ n, SMap.get? (takeUnknown fs).2 n = (SMap.get? fs n).map
      (fun s => match s with | .unknown _ => .taken | s => s))
  | [] => ⟨rfl, fun _ h => h, rfl, fun _ => rfl⟩
  | (n, s) :: r => by
    obtain ⟨h1, h2, h3, h4⟩ := takeUnknown_spec r
    have hsort : ∀ (t : Slot) lo, SMap.sortedFrom lo ((n, s) :: r) = true →
        SMap.sortedFrom lo ((n, t) :: (takeUnknown r).2) = true := by
      intro t lo hs
      simp only [SMap.sortedFrom, Bool.and_eq_true, decide_eq_true_eq] at hs ⊢
      exact ⟨hs.1, h2 n hs.2⟩
    cases s with
    | taken =>
      refine ⟨by simp only [takeUnknown, iterUnknown, h1], hsort _, by simp only [takeUnknown, iterUnknown, h3], ?_⟩
      intro k; simp only [takeUnknown, SMap.get?]; split
      · rfl
      · exact h4 k
    | val v =>
      refine ⟨by simp only [takeUnknown, iterUnknown, h1], hsort _, by simp only [takeUnknown, iterUnknown, h3], ?_⟩
      intro k; simp only [takeUnknown, SMap.get?]; split
      · rfl
      · exact h4 k
    | unknown u =>
      refine ⟨by simp only [takeUnknown, iterUnknown, h1], hsort _, by simp only [takeUnknown, iterUnknown, h3], ?_⟩
      intro k; simp only [takeUnknown, SMap.get?]; split
      · rfl
      · exact h4 k

/-- The unknown fields yielded are those stored, each entry's list in order. -/
theorem mem_iterUnknown {fs : FieldSet} {u : UField} :
    u ∈ iterUnknown fs ↔ ∃ n us, (n, Slot.unknown us) ∈ fs ∧ u ∈ us := by
  induction fs with
  | nil => simp [iterUnknown]
  | cons p r ih =>
    obtain ⟨n, s⟩ := p
    cases s with
    | taken => simp [iterUnknown, ih]
    | val v => simp [iterUnknown, ih]
    | unknown us =>
      simp only [iterUnknown, List.mem_append, ih, List.mem_cons, Prod.mk.injEq, Slot.unknown.injEq]
      constructor
      · rintro (h | ⟨k, vs, h1, h2⟩)
        · exact ⟨n, us, .inl ⟨rfl, rfl⟩, h⟩
        · exact ⟨k, vs, .inr h1, h2⟩
      · rintro ⟨k, vs, ⟨rfl, rfl⟩ | h1, h2⟩
        · exact .inl h2
        · exact .inr ⟨k, vs, h1, h2⟩

end Verif.Dyn
