/-!
Finite maps as association lists.

`SMap` stands for `BTreeMap<u32, _>` (dynamic/fields.rs:40): a list sorted by key.
`KMap` stands for `HashMap<MapKey, _>` (dynamic/mod.rs:75): a list with distinct
keys whose order is the (arbitrary) iteration order of the hash map.
-/
set_option autoImplicit false
namespace Verif.Dyn

abbrev SMap (α : Type) := List (Nat × α)

namespace SMap
variable {α : Type}

/-- `BTreeMap::get`. -/
def get? : SMap α → Nat → Option α
  | [], _ => none
  | (k, v) :: r, n => if k = n then some v else get? r n

/-- `BTreeMap::insert`, replacing an existing entry. -/
def insert (n : Nat) (a : α) : SMap α → SMap α
  | [] => [(n, a)]
  | (k, v) :: r =>
    if n < k then (n, a) :: (k, v) :: r
    else if n = k then (n, a) :: r
    else (k, v) :: insert n a r

/-- `BTreeMap::remove`. -/
def erase (n : Nat) : SMap α → SMap α
  | [] => []
  | (k, v) :: r => if k = n then r else (k, v) :: erase n r

/-- All keys are above `lo`, and ascending. -/
def sortedFrom : Nat → SMap α → Bool
  | _, [] => true
  | lo, (k, _) :: r => decide (lo < k) && sortedFrom k r

/-- Keys are positive and strictly ascending (field numbers are never 0). -/
def sorted (m : SMap α) : Bool := sortedFrom 0 m

theorem sortedFrom_mono {lo lo' : Nat} (h : lo ≤ lo') {m : SMap α} (hs : sortedFrom lo' m = true) :
    sortedFrom lo m = true := by
  cases m with
  | nil => rfl
  | cons p r =>
    obtain ⟨k, v⟩ := p
    simp only [sortedFrom, Bool.and_eq_true, decide_eq_true_eq] at hs ⊢
    exact ⟨by omega, hs.2⟩

theorem get?_eq_none_of_le {m : SMap α} : ∀ {lo n : Nat}, sortedFrom lo m = true → n ≤ lo →
    get? m n = none := by
  induction m with
  | nil => intros; rfl
  | cons p r ih =>
    obtain ⟨k, v⟩ := p
    intro lo n hs hn
    simp only [sortedFrom, Bool.and_eq_true, decide_eq_true_eq] at hs
    simp only [get?]
    rw [if_neg (by omega)]
    exact ih hs.2 (by omega)

theorem mem_gt {m : SMap α} : ∀ {lo : Nat}, sortedFrom lo m = true → ∀ p ∈ m, lo < p.1 := by
  induction m with
  | nil => intro lo _ p hp; cases hp
  | cons q r ih =>
    obtain ⟨k, v⟩ := q
    intro lo hs p hp
    simp only [sortedFrom, Bool.and_eq_true, decide_eq_true_eq] at hs
    rcases List.mem_cons.1 hp with rfl | hp
    · exact hs.1
    · have := ih hs.2 p hp; omega

theorem get?_of_mem {m : SMap α} : ∀ {lo : Nat}, sortedFrom lo m = true → ∀ {n : Nat} {v : α},
    (n, v) ∈ m → get? m n = some v := by
  induction m with
  | nil => intro lo _ n v h; cases h
  | cons q r ih =>
    obtain ⟨k, w⟩ := q
    intro lo hs n v h
    simp only [sortedFrom, Bool.and_eq_true, decide_eq_true_eq] at hs
    rcases List.mem_cons.1 h with h | h
    · cases h; simp [get?]
    · have := mem_gt hs.2 _ h
      simp only at this
      simp only [get?]
      rw [if_neg (by omega)]
      exact ih hs.2 h

theorem mem_of_get? {m : SMap α} {n : Nat} {v : α} (h : get? m n = some v) : (n, v) ∈ m := by
  induction m with
  | nil => cases h
  | cons q r ih =>
    obtain ⟨k, w⟩ := q
    simp only [get?] at h
    split at h
    · rename_i hk; subst hk; cases h; exact List.mem_cons_self
    · exact List.mem_cons_of_mem _ (ih h)

theorem mem_iff {m : SMap α} (hs : sorted m = true) {n : Nat} {v : α} :
    (n, v) ∈ m ↔ get? m n = some v :=
  ⟨fun h => get?_of_mem hs h, mem_of_get?⟩

theorem get?_insert (n : Nat) (a : α) (m : SMap α) (k : Nat) :
    get? (insert n a m) k = if k = n then some a else get? m k := by
  induction m with
  | nil => simp only [insert, get?]; split <;> split <;> simp_all
  | cons p r ih =>
    obtain ⟨j, v⟩ := p
    simp only [insert]
    split
    · by_cases hk : k = n
      · subst hk; simp [get?]
      · simp [get?, hk, Ne.symm hk]
    · split
      · rename_i h; subst h
        by_cases hk : k = n
        · subst hk; simp [get?]
        · simp [get?, hk, Ne.symm hk]
      · simp only [get?, ih]
        split
        · rename_i hj; subst hj; split
          · omega
          · rfl
        · rfl

theorem sortedFrom_insert {n : Nat} {a : α} {m : SMap α} : ∀ {lo : Nat}, lo < n →
    sortedFrom lo m = true → sortedFrom lo (insert n a m) = true := by
  induction m with
  | nil => intro lo h _; simp [insert, sortedFrom, h]
  | cons p r ih =>
    obtain ⟨k, v⟩ := p
    intro lo h hs
    simp only [sortedFrom, Bool.and_eq_true, decide_eq_true_eq] at hs
    simp only [insert]
    split
    · simp [sortedFrom, *]
    · split
      · rename_i hk; subst hk; simp [sortedFrom, *]
      · simp only [sortedFrom, Bool.and_eq_true, decide_eq_true_eq]
        exact ⟨hs.1, ih (by omega) hs.2⟩

theorem sorted_insert {n : Nat} {a : α} {m : SMap α} (h : 0 < n) (hs : sorted m = true) :
    sorted (insert n a m) = true := sortedFrom_insert h hs

theorem sortedFrom_erase {n : Nat} {m : SMap α} : ∀ {lo : Nat},
    sortedFrom lo m = true → sortedFrom lo (erase n m) = true := by
  induction m with
  | nil => intro lo _; rfl
  | cons p r ih =>
    obtain ⟨k, v⟩ := p
    intro lo hs
    simp only [sortedFrom, Bool.and_eq_true, decide_eq_true_eq] at hs
    simp only [erase]
    split
    · exact sortedFrom_mono (by omega) hs.2
    · simp only [sortedFrom, Bool.and_eq_true, decide_eq_true_eq]
      exact ⟨hs.1, ih hs.2⟩

theorem sorted_erase {n : Nat} {m : SMap α} (hs : sorted m = true) : sorted (erase n m) = true :=
  sortedFrom_erase hs

theorem get?_erase {m : SMap α} : ∀ {lo : Nat}, sortedFrom lo m = true → ∀ (n k : Nat),
    get? (erase n m) k = if k = n then none else get? m k := by
  induction m with
  | nil => intro lo _ n k; simp [erase, get?]
  | cons p r ih =>
    obtain ⟨j, v⟩ := p
    intro lo hs n k
    simp only [sortedFrom, Bool.and_eq_true, decide_eq_true_eq] at hs
    simp only [erase]
    split
    · rename_i h; subst h
      by_cases hk : k = j
      · subst hk; rw [if_pos rfl]; exact get?_eq_none_of_le hs.2 (Nat.le_refl _)
      · rw [if_neg hk]; simp only [get?]; rw [if_neg (Ne.symm hk)]
    · simp only [get?, ih hs.2]
      split
      · rename_i h1 h2; subst h2; rw [if_neg h1]
      · rfl

theorem ext {m m' : SMap α} : ∀ {lo : Nat}, sortedFrom lo m = true → sortedFrom lo m' = true →
    (∀ k, get? m k = get? m' k) → m = m' := by
  induction m generalizing m' with
  | nil =>
    intro lo _ _ h
    cases m' with
    | nil => rfl
    | cons p r => obtain ⟨k, v⟩ := p; have := h k; simp [get?] at this
  | cons p r ih =>
    obtain ⟨k, v⟩ := p
    intro lo hs hs' h
    cases m' with
    | nil => have := h k; simp [get?] at this
    | cons p' r' =>
      obtain ⟨k', v'⟩ := p'
      simp only [sortedFrom, Bool.and_eq_true, decide_eq_true_eq] at hs hs'
      have hk : k = k' := by
        rcases Nat.lt_trichotomy k k' with hlt | heq | hgt
        · have := h k
          simp only [get?, if_true] at this
          rw [if_neg (by omega), get?_eq_none_of_le hs'.2 (by omega)] at this
          cases this
        · exact heq
        · have := h k'
          simp only [get?, if_true] at this
          rw [if_neg (by omega), get?_eq_none_of_le hs.2 (by omega)] at this
          cases this
      subst hk
      have hv : v = v' := by have := h k; simpa [get?] using this
      subst hv
      congr 1
      refine ih hs.2 hs'.2 ?_
      intro j
      by_cases hj : j ≤ k
      · rw [get?_eq_none_of_le hs.2 hj, get?_eq_none_of_le hs'.2 hj]
      · have := h j
        simp only [get?] at this
        rwa [if_neg (by omega), if_neg (by omega)] at this

theorem sorted_ext {m m' : SMap α} (h : sorted m = true) (h' : sorted m' = true)
    (he : ∀ k, get? m k = get? m' k) : m = m' := ext h h' he

theorem mem_insert {n : Nat} {a : α} {m : SMap α} {p : Nat × α} (h : p ∈ insert n a m) :
    p = (n, a) ∨ p ∈ m := by
  induction m with
  | nil => simp [insert] at h; exact .inl h
  | cons q r ih =>
    obtain ⟨k, v⟩ := q
    simp only [insert] at h
    split at h
    · rcases List.mem_cons.1 h with h | h
      · exact .inl h
      · exact .inr h
    · split at h
      · rcases List.mem_cons.1 h with h | h
        · exact .inl h
        · exact .inr (List.mem_cons_of_mem _ h)
      · rcases List.mem_cons.1 h with h | h
        · exact .inr (h ▸ List.mem_cons_self)
        · rcases ih h with h | h
          · exact .inl h
          · exact .inr (List.mem_cons_of_mem _ h)

theorem mem_erase {n : Nat} {m : SMap α} {p : Nat × α} (h : p ∈ erase n m) : p ∈ m := by
  induction m with
  | nil => exact h
  | cons q r ih =>
    obtain ⟨k, v⟩ := q
    simp only [erase] at h
    split at h
    · exact List.mem_cons_of_mem _ h
    · rcases List.mem_cons.1 h with h | h
      · exact h ▸ List.mem_cons_self
      · exact List.mem_cons_of_mem _ (ih h)

end SMap

abbrev KMap (κ α : Type) := List (κ × α)

namespace KMap
variable {κ α : Type} [DecidableEq κ]

/-- `HashMap::get`. -/
def get? : KMap κ α → κ → Option α
  | [], _ => none
  | (k, v) :: r, n => if k = n then some v else get? r n

/-- `HashMap::insert`. -/
def insert (n : κ) (a : α) : KMap κ α → KMap κ α
  | [] => [(n, a)]
  | (k, v) :: r => if k = n then (k, a) :: r else (k, v) :: insert n a r

/-- Keys are pairwise distinct. -/
def distinct : KMap κ α → Bool
  | [] => true
  | (k, _) :: r => (get? r k).isNone && distinct r

theorem get?_insert (n : κ) (a : α) (m : KMap κ α) (k : κ) :
    get? (insert n a m) k = if k = n then some a else get? m k := by
  induction m with
  | nil => simp only [insert, get?]; split <;> split <;> simp_all
  | cons p r ih =>
    obtain ⟨j, v⟩ := p
    simp only [insert]
    split
    · rename_i h; subst h
      by_cases hk : k = j
      · subst hk; simp [get?]
      · simp [get?, hk, Ne.symm hk]
    · simp only [get?, ih]
      split
      · rename_i h1 h2; subst h2; rw [if_neg h1]
      · rfl

theorem distinct_insert (n : κ) (a : α) (m : KMap κ α) (h : distinct m = true) :
    distinct (insert n a m) = true := by
  induction m with
  | nil => rfl
  | cons p r ih =>
    obtain ⟨j, v⟩ := p
    simp only [distinct, Bool.and_eq_true] at h
    simp only [insert]
    split
    · simp [distinct, h]
    · rename_i hj
      simp only [distinct, Bool.and_eq_true, get?_insert]
      rw [if_neg hj]
      exact ⟨h.1, ih h.2⟩

theorem insert_fresh {n : κ} {a : α} {m : KMap κ α} (h : get? m n = none) :
    insert n a m = m ++ [(n, a)] := by
  induction m with
  | nil => rfl
  | cons p r ih =>
    obtain ⟨j, v⟩ := p
    simp only [get?] at h
    split at h
    · cases h
    · rename_i hj
      simp only [insert, if_neg hj, List.cons_append, ih h]

theorem get?_append (m m' : KMap κ α) (k : κ) :
    get? (m ++ m') k = (get? m k).or (get? m' k) := by
  induction m with
  | nil => simp [get?]
  | cons p r ih =>
    obtain ⟨j, v⟩ := p
    simp only [List.cons_append, get?]
    split
    · simp
    · exact ih

theorem mem_insert {n : κ} {a : α} {m : KMap κ α} {p : κ × α} (h : p ∈ insert n a m) :
    p = (n, a) ∨ p ∈ m := by
  induction m with
  | nil => simp [insert] at h; exact .inl h
  | cons q r ih =>
    obtain ⟨k, v⟩ := q
    simp only [insert] at h
    split at h
    · rename_i hk; subst hk
      rcases List.mem_cons.1 h with h | h
      · exact .inl h
      · exact .inr (List.mem_cons_of_mem _ h)
    · rcases List.mem_cons.1 h with h | h
      · exact .inr (h ▸ List.mem_cons_self)
      · rcases ih h with h | h
        · exact .inl h
        · exact .inr (List.mem_cons_of_mem _ h)

end KMap
end Verif.Dyn
