import Verif.Pool.ResolveOk
/-!
The look-up tables inside messages and enums: adding a member keeps them exact.
-/
set_option autoImplicit false
namespace Verif.Pool
open Verif.Wire Verif.Dyn

/-- The table finds exactly the member with the given key, which is therefore unique. -/
def Idx {κ α : Type} (t : κ → Option Nat) (l : List α) (key : α → κ) : Prop :=
  ∀ n i, t n = some i ↔ ∃ a, l[i]? = some a ∧ key a = n

theorem Idx.add {κ α : Type} {t t' : κ → Option Nat} {l : List α} {key : α → κ}
    [DecidableEq κ] (h : Idx t l key) (a : α) (hn : t (key a) = none)
    (ht : ∀ n, t' n = if n = key a then some l.length else t n) : Idx t' (l ++ [a]) key := by
  intro n i
  rw [ht]
  split
  · next hna =>
    subst hna
    constructor
    · intro hi
      simp only [Option.some.injEq] at hi
      subst hi
      exact ⟨a, by simp, rfl⟩
    · rintro ⟨b, hb, hk⟩
      by_cases hil : i < l.length
      · rw [List.getElem?_append_left hil] at hb
        have := (h (key a) i).mpr ⟨b, hb, hk⟩
        rw [hn] at this; cases this
      · have : i < (l ++ [a]).length := by
          rw [List.getElem?_eq_some_iff] at hb; exact hb.1
        simp only [List.length_append, List.length_singleton] at this
        rw [show l.length = i by omega]
  · next hna =>
    rw [h n i]
    constructor
    · rintro ⟨b, hb, hk⟩; exact ⟨b, getElem?_append_of_some _ hb, hk⟩
    · rintro ⟨b, hb, hk⟩
      by_cases hil : i < l.length
      · rw [List.getElem?_append_left hil] at hb; exact ⟨b, hb, hk⟩
      · have hlt : i < (l ++ [a]).length := by
          rw [List.getElem?_eq_some_iff] at hb; exact hb.1
        simp only [List.length_append, List.length_singleton] at hlt
        have : i = l.length := by omega
        subst this
        simp only [List.getElem?_append_right (Nat.le_refl _), Nat.sub_self,
          List.getElem?_cons_zero, Option.some.injEq] at hb
        subst hb
        exact absurd hk.symm hna

theorem Idx.nil {κ α : Type} {key : α → κ} : Idx (fun _ => none) [] key := by
  intro n i; simp

theorem Idx.unique {κ α : Type} {t : κ → Option Nat} {l : List α} {key : α → κ} (h : Idx t l key)
    {i j : Nat} {a b : α} (ha : l[i]? = some a) (hb : l[j]? = some b) (hk : key a = key b) :
    i = j := by
  have h1 := (h (key a) i).mpr ⟨a, ha, rfl⟩
  have h2 := (h (key a) j).mpr ⟨b, hb, hk.symm⟩
  rw [h1] at h2
  exact Option.some.inj h2

/-- The tables of a message are exact. -/
structure MsgOk (m : MsgD) : Prop where
  sorted : SMap.sorted m.fieldNumbers = true
  numbers : Idx (SMap.get? m.fieldNumbers) m.fields FieldD.number
  names : Idx (lookupN m.fieldNames) m.fields fun d => d.id.name
  jsons : Idx (lookupN m.fieldJsonNames) m.fields FieldD.jsonName
  oneofs : ∀ (j : Nat) o, m.oneofs[j]? = some o → o.fields.Pairwise (· < ·) ∧
    ∀ i, i ∈ o.fields ↔ ∃ d, m.fields[i]? = some d ∧ d.oneof = some j
  positive : ∀ d ∈ m.fields, 0 < d.number
  oneofLt : ∀ d ∈ m.fields, ∀ j, d.oneof = some j → j < m.oneofs.length

theorem mem_append_get {α : Type} {l : List α} {a b : α} {i : Nat} (h : (l ++ [a])[i]? = some b) :
    (i < l.length ∧ l[i]? = some b) ∨ (i = l.length ∧ b = a) := by
  by_cases hil : i < l.length
  · rw [List.getElem?_append_left hil] at h; exact .inl ⟨hil, h⟩
  · have hlt : i < (l ++ [a]).length := by
      rw [List.getElem?_eq_some_iff] at h; exact h.1
    simp only [List.length_append, List.length_singleton] at hlt
    have : i = l.length := by omega
    subst this
    simp only [List.getElem?_append_right (Nat.le_refl _), Nat.sub_self,
      List.getElem?_cons_zero, Option.some.injEq] at h
    exact .inr ⟨rfl, h.symm⟩

theorem getElem?_lt {α : Type} {l : List α} {i : Nat} {a : α} (h : l[i]? = some a) :
    i < l.length := by
  rw [List.getElem?_eq_some_iff] at h; exact h.1

theorem MsgOk.add {m m' : MsgD} {name : Name} {d : FieldD} (h : MsgOk m)
    (a : FieldAdded m m.fields.length name d m') (hname : d.id.name = name)
    (hpos : 0 < d.number) (ho : ∀ j, d.oneof = some j → j < m.oneofs.length) : MsgOk m' := by
  have e := a.eq
  subst hname
  refine ⟨?_, ?_, ?_, ?_, ?_, ?_, ?_⟩
  · rw [e]; exact SMap.sorted_insert hpos h.sorted
  · rw [e]
    refine h.numbers.add d a.number fun n => ?_
    rw [SMap.get?_insert]
  · rw [e]
    refine Idx.add (κ := Name) h.names d a.name fun n => ?_
    rw [lookupN_insertN]
  · rw [e]
    refine Idx.add (κ := Name) h.jsons d a.json fun n => ?_
    rw [lookupN_insertN]
  · -- oneofs
    have old : ∀ (j : Nat) o, m.oneofs[j]? = some o → d.oneof ≠ some j →
        o.fields.Pairwise (· < ·) ∧
        ∀ i, i ∈ o.fields ↔ ∃ x, (m.fields ++ [d])[i]? = some x ∧ x.oneof = some j := by
      intro j o hj hne
      obtain ⟨h1, h2⟩ := h.oneofs j o hj
      refine ⟨h1, fun i => ?_⟩
      rw [h2 i]
      constructor
      · rintro ⟨x, hx, hxo⟩; exact ⟨x, getElem?_append_of_some _ hx, hxo⟩
      · rintro ⟨x, hx, hxo⟩
        rcases mem_append_get hx with ⟨_, hx⟩ | ⟨_, rfl⟩
        · exact ⟨x, hx, hxo⟩
        · exact absurd hxo hne
    rw [e]
    intro j o hj
    simp only at hj ⊢
    cases hdo : d.oneof with
    | none =>
      rw [hdo] at hj
      exact old j o hj (by rw [hdo]; simp)
    | some t =>
      rw [hdo] at hj
      simp only at hj
      by_cases hjt : t = j
      · subst hjt
        rw [getElem?_modify_eq, Option.map_eq_some_iff] at hj
        obtain ⟨o', ho', rfl⟩ := hj
        obtain ⟨h1, h2⟩ := h.oneofs t o' ho'
        refine ⟨?_, fun i => ?_⟩
        · rw [List.pairwise_append]
          refine ⟨h1, by simp, ?_⟩
          intro x hx y hy
          simp only [List.mem_singleton] at hy
          subst hy
          obtain ⟨dx, hdx, _⟩ := (h2 x).mp hx
          exact getElem?_lt hdx
        · simp only [List.mem_append, List.mem_singleton]
          constructor
          · rintro (hi | rfl)
            · obtain ⟨x, hx, hxo⟩ := (h2 i).mp hi
              exact ⟨x, getElem?_append_of_some _ hx, hxo⟩
            · exact ⟨d, by simp, hdo⟩
          · rintro ⟨x, hx, hxo⟩
            rcases mem_append_get hx with ⟨_, hx⟩ | ⟨hi, _⟩
            · exact .inl ((h2 i).mpr ⟨x, hx, hxo⟩)
            · exact .inr hi
      · rw [getElem?_modify_ne _ _ hjt] at hj
        exact old j o hj (by rw [hdo]; simpa using hjt)
  · rw [e]
    intro x hx
    rcases List.mem_append.mp hx with hx | hx
    · exact h.positive x hx
    · simp only [List.mem_singleton] at hx; rw [hx]; exact hpos
  · rw [e]
    intro x hx j hj
    suffices hs : j < m.oneofs.length by
      simp only
      cases d.oneof with
      | none => exact hs
      | some t => simpa using hs
    rcases List.mem_append.mp hx with hx | hx
    · exact h.oneofLt x hx j hj
    · simp only [List.mem_singleton] at hx; rw [hx] at hj; exact ho j hj

theorem MsgOk.congr {m m' : MsgD} (h : MsgOk m) (h1 : m'.fields = m.fields)
    (h2 : m'.fieldNumbers = m.fieldNumbers) (h3 : m'.fieldNames = m.fieldNames)
    (h4 : m'.fieldJsonNames = m.fieldJsonNames) (h5 : m'.oneofs = m.oneofs) : MsgOk m' :=
  ⟨by rw [h2]; exact h.1, by rw [h2, h1]; exact h.2, by rw [h3, h1]; exact h.3,
   by rw [h4, h1]; exact h.4, by rw [h5, h1]; exact h.5, by rw [h1]; exact h.6,
   by rw [h1, h5]; exact h.7⟩

/-! Enums. -/

/-- Numbers in ascending order. -/
def Ascending (l : List (Int × Nat)) : Prop := l.Pairwise fun a b => a.1 ≤ b.1

/-- What the documentation of `slice::binary_search_by_key` promises on an ascending list. -/
structure SearchOk (search : List (Int × Nat) → Int → Bool × Nat) : Prop where
  hit : ∀ l n i, Ascending l → search l n = (true, i) → ∃ j, l[i]? = some (n, j)
  miss : ∀ l n i, Ascending l → search l n = (false, i) →
    i ≤ l.length ∧ (∀ x ∈ l.take i, x.1 < n) ∧ ∀ x ∈ l.drop i, n < x.1

/-- The tables of an enum are exact for its first `n` values. -/
structure EnumOk (e : EnumD) (n : Nat) : Prop where
  asc : Ascending e.valueNumbers
  strict : e.allowAlias = false → e.valueNumbers.Pairwise fun a b => a.1 < b.1
  len : e.valueNumbers.length = n
  numbers : ∀ x, x ∈ e.valueNumbers ↔ ∃ v, (e.values.take n)[x.2]? = some v ∧ v.number = x.1
  names : Idx (lookupN e.valueNames) (e.values.take n) fun v => v.id.name

theorem insertAt_mem {α : Type} {i : Nat} {a : α} {l : List α} {x : α} :
    x ∈ insertAt i a l ↔ x = a ∨ x ∈ l := by
  unfold insertAt
  rw [List.mem_append, List.mem_cons]
  constructor
  · rintro (h | h | h)
    · exact .inr (List.mem_of_mem_take h)
    · exact .inl h
    · exact .inr (List.mem_of_mem_drop h)
  · rintro (h | h)
    · exact .inr (.inl h)
    · rw [← List.take_append_drop i l, List.mem_append] at h
      rcases h with h | h
      · exact .inl h
      · exact .inr (.inr h)

theorem insertAt_pairwise {α : Type} {R : α → α → Prop} {i : Nat} {a : α} {l : List α}
    (h : l.Pairwise R) (h1 : ∀ x ∈ l.take i, R x a) (h2 : ∀ x ∈ l.drop i, R a x) :
    (insertAt i a l).Pairwise R := by
  rw [← List.take_append_drop i l, List.pairwise_append] at h
  obtain ⟨a1, a2, a3⟩ := h
  unfold insertAt
  rw [List.pairwise_append]
  refine ⟨a1, List.pairwise_cons.mpr ⟨h2, a2⟩, ?_⟩
  intro x hx y hy
  rcases List.mem_cons.mp hy with rfl | hy
  · exact h1 x hx
  · exact a3 x hx y hy

theorem insertAt_length {α : Type} {i : Nat} {a : α} {l : List α} :
    (insertAt i a l).length = l.length + 1 := by
  unfold insertAt
  simp only [List.length_append, List.length_take, List.length_cons, List.length_drop]
  omega

theorem take_succ_get {α : Type} {l : List α} {n : Nat} {a : α} (h : l[n]? = some a) :
    l.take (n + 1) = l.take n ++ [a] := by
  rw [List.take_succ, h]; rfl

/-- One more value. -/
theorem EnumOk.add {search : List (Int × Nat) → Int → Bool × Nat} (hs : SearchOk search)
    {e : EnumD} {n : Nat} {v : ValueD} (h : EnumOk e n) (hv : e.values[n]? = some v)
    (ha : (search e.valueNumbers v.number).1 = true → e.allowAlias = true)
    (hn : lookupN e.valueNames v.id.name = none) :
    EnumOk { e with
      valueNumbers := insertAt (search e.valueNumbers v.number).2 (v.number, n) e.valueNumbers
      valueNames := insertN v.id.name n e.valueNames } (n + 1) := by
  have hlt := getElem?_lt hv
  have htl : (e.values.take n).length = n := by rw [List.length_take]; omega
  cases hr : search e.valueNumbers v.number with
  | mk b i =>
    have bounds : (∀ x ∈ e.valueNumbers.take i, x.1 ≤ v.number) ∧
        (∀ x ∈ e.valueNumbers.drop i, v.number ≤ x.1) := by
      cases b with
      | false =>
        obtain ⟨_, h2, h3⟩ := hs.miss _ _ _ h.asc hr
        exact ⟨fun x hx => Int.le_of_lt (h2 x hx), fun x hx => Int.le_of_lt (h3 x hx)⟩
      | true =>
        obtain ⟨j, hj⟩ := hs.hit _ _ _ h.asc hr
        have hil := getElem?_lt hj
        have hasc := h.asc
        have hd : e.valueNumbers.drop i = (v.number, j) :: e.valueNumbers.drop (i + 1) := by
          rw [List.drop_eq_getElem_cons hil]
          rw [List.getElem?_eq_some_iff] at hj
          rw [hj.2]
        unfold Ascending at hasc
        rw [← List.take_append_drop i e.valueNumbers, List.pairwise_append, hd] at hasc
        obtain ⟨_, a2, a3⟩ := hasc
        rw [hd]
        refine ⟨fun x hx => a3 x hx (v.number, j) (by simp), fun x hx => ?_⟩
        rcases List.mem_cons.mp hx with rfl | hx
        · exact Int.le_refl _
        · exact (List.pairwise_cons.mp a2).1 x hx
    refine ⟨?_, ?_, ?_, ?_, ?_⟩
    · exact insertAt_pairwise h.asc bounds.1 bounds.2
    · intro hal
      simp only at hal
      cases b with
      | true => rw [hr] at ha; have := ha rfl; rw [hal] at this; cases this
      | false =>
        obtain ⟨_, h2, h3⟩ := hs.miss _ _ _ h.asc hr
        exact insertAt_pairwise (h.strict hal) h2 h3
    · simp only [insertAt_length, h.len]
    · intro x
      simp only [insertAt_mem, h.numbers x, take_succ_get hv]
      constructor
      · rintro (rfl | ⟨w, hw, hwn⟩)
        · refine ⟨v, ?_, rfl⟩
          rw [List.getElem?_append_right (by rw [htl]; exact Nat.le_refl _), htl]
          simp
        · exact ⟨w, getElem?_append_of_some _ hw, hwn⟩
      · rintro ⟨w, hw, hwn⟩
        rcases mem_append_get hw with ⟨_, hw⟩ | ⟨hi, rfl⟩
        · exact .inr ⟨w, hw, hwn⟩
        · left
          rw [htl] at hi
          cases x; simp only at hi hwn; rw [hi, hwn]
    · simp only [take_succ_get hv]
      refine Idx.add (κ := Name) h.names v hn fun m => ?_
      rw [lookupN_insertN, htl]

/-- The name of an identity (descriptor/mod.rs:337-339) is the declared one. -/
theorem Ident.mk'_name (file : Nat) (path : Path) (scope name : Name) :
    (Ident.mk' file path (pushScope scope name) name).name = name := by
  unfold Ident.mk' Ident.name
  cases scope with
  | nil => simp [pushScope]
  | cons c r =>
    simp only [pushScope]
    rw [show (c :: r ++ '.' :: name).length - name.length = (c :: r ++ ['.']).length by
      simp only [List.length_append, List.length_cons, List.length_nil]; omega]
    rw [show c :: r ++ '.' :: name = (c :: r ++ ['.']) ++ name by simp]
    exact List.drop_left' rfl

end Verif.Pool
