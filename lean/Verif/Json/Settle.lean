import Verif.Json.Says
/-!
What is kept of a JSON value in a `google.protobuf.Value`, and that it is read as such.
-/
set_option autoImplicit false
namespace Verif.Json
open Verif.Wire Verif.Dyn Verif.Pool

/-- The last entry with the key. -/
def Last (es : List (List Char × Json)) (k : List Char) (j : Json) : Prop :=
  ∃ a b, es = a ++ (k, j) :: b ∧ ∀ p ∈ b, p.1 ≠ k

mutual
/-- What is kept of a JSON value: integers become doubles; of the entries of an object with the same
key the last one counts; entries are sorted by key.  Everything else stays. -/
inductive Settles (env : JEnv) : Json → Json → Prop
  | null : Settles env .null .null
  | bool (b : Bool) : Settles env (.bool b) (.bool b)
  | uint (v : BitVec 64) : Settles env (.uint v) (.float (env.ofU64 v))
  | sint (v : BitVec 64) : Settles env (.sint v) (.float (env.ofI64 v))
  | float (v : BitVec 64) : Settles env (.float v) (.float v)
  | str (s : List Char) : Settles env (.str s) (.str s)
  | arr {js js' : List Json} : SettlesAll env js js' → Settles env (.arr js) (.arr js')
  | obj {es es' : List (List Char × Json)} (src : List Char → Json) : KeysSorted es' →
      (∀ p ∈ es', Last es p.1 (src p.1)) → (∀ p ∈ es', Settles env (src p.1) p.2) →
      (∀ p ∈ es, ∃ q ∈ es', q.1 = p.1) → Settles env (.obj es) (.obj es')
/-- One by one. -/
inductive SettlesAll (env : JEnv) : List Json → List Json → Prop
  | nil : SettlesAll env [] []
  | cons {j j' : Json} {js js' : List Json} : Settles env j j' → SettlesAll env js js' → SettlesAll env (j :: js) (j' :: js')
end

mutual
/-- The numbers that are doubles are finite, as they are in JSON. -/
def Json.finite : Json → Bool
  | .float v => finite64 v
  | .arr js => finiteAll js
  | .obj es => finiteObj es
  | _ => true
@[inherit_doc Json.finite] def finiteAll : List Json → Bool
  | [] => true
  | j :: r => j.finite && finiteAll r
@[inherit_doc Json.finite] def finiteObj : List (List Char × Json) → Bool
  | [] => true
  | (_, j) :: r => j.finite && finiteObj r
end

mutual
/-- More than the bytes of the `Value`. -/
def Json.cost : Json → Nat
  | .str s => 100 + 4 * s.length
  | .arr js => 100 + costAll js
  | .obj es => 100 + costObj es
  | _ => 100
@[inherit_doc Json.cost] def costAll : List Json → Nat
  | [] => 0
  | j :: r => j.cost + costAll r
@[inherit_doc Json.cost] def costObj : List (List Char × Json) → Nat
  | [] => 0
  | (k, j) :: r => 100 + 4 * k.length + j.cost + costObj r
end

mutual
/-- How deep the messages in the `Value` are nested, counting `e` for an entry of an object. -/
def Json.nest (e : Nat) : Json → Nat
  | .arr js => max 1 (nestAll e js)
  | .obj es => max 1 (nestObj e es)
  | _ => 0
@[inherit_doc Json.nest] def nestAll (e : Nat) : List Json → Nat
  | [] => 0
  | j :: r => max (2 + j.nest e) (nestAll e r)
@[inherit_doc Json.nest] def nestObj (e : Nat) : List (List Char × Json) → Nat
  | [] => 0
  | (_, j) :: r => max (e + j.nest e) (nestObj e r)
end

mutual
/-- By the nesting of the JSON value. -/
theorem nest_depth {e : Nat} (he : 2 ≤ e) : (j : Json) → j.nest e ≤ e * (j.depth - 1) + 1
  | .arr js => by
    have := nestAll_depth he js
    simp only [Json.nest, Json.depth, Nat.add_sub_cancel]
    omega
  | .obj es => by
    have := nestObj_depth he es
    simp only [Json.nest, Json.depth, Nat.add_sub_cancel]
    omega
  | .null | .bool _ | .uint _ | .sint _ | .float _ | .str _ => by simp [Json.nest]
theorem nestAll_depth {e : Nat} (he : 2 ≤ e) : (js : List Json) → nestAll e js ≤ e * depthList js + 1
  | [] => by simp [nestAll]
  | j :: r => by
    have h1 := nest_depth he j
    have h2 := nestAll_depth he r
    have h3 := j.depth_pos
    simp only [nestAll, depthList]
    have h4 : e * (j.depth - 1) + e = e * j.depth := by
      rw [← Nat.mul_succ]; congr 1; omega
    have h5 : e * j.depth ≤ e * max j.depth (depthList r) := Nat.mul_le_mul_left _ (Nat.le_max_left _ _)
    have h6 : e * depthList r ≤ e * max j.depth (depthList r) := Nat.mul_le_mul_left _ (Nat.le_max_right _ _)
    omega
theorem nestObj_depth {e : Nat} (he : 2 ≤ e) : (es : List (List Char × Json)) → nestObj e es ≤ e * depthObj es + 1
  | [] => by simp [nestObj]
  | (k, j) :: r => by
    have h1 := nest_depth he j
    have h2 := nestObj_depth he r
    have h3 := j.depth_pos
    simp only [nestObj, depthObj]
    have h4 : e * (j.depth - 1) + e = e * j.depth := by
      rw [← Nat.mul_succ]; congr 1; omega
    have h5 : e * j.depth ≤ e * max j.depth (depthObj r) := Nat.mul_le_mul_left _ (Nat.le_max_left _ _)
    have h6 : e * depthObj r ≤ e * max j.depth (depthObj r) := Nat.mul_le_mul_left _ (Nat.le_max_right _ _)
    omega
end

/-! ### Bounds for the message -/

theorem utf8_le (s : List Char) : (utf8Encode s).length ≤ 4 * s.length := by
  induction s with
  | nil => simp [utf8Encode]
  | cons c r ih =>
    have : (utf8EncodeChar c).length ≤ 4 := by
      unfold utf8EncodeChar
      grind
    simp only [utf8Encode, List.length_append, List.length_cons]
    omega

mutual
theorem Says.depth : (j : Json) → {v : Value} → Says j v → depthVal v ≤ 1 + j.nest 2
  | .null, _, .null => by simp [depthVal, depthSlots]
  | .bool _, _, .bool b => by simp [depthVal, depthSlots]
  | .float _, _, .num h => by simp [depthVal, depthSlots]
  | .str _, _, .str s => by simp [depthVal, depthSlots]
  | .uint _, _, h => by cases h
  | .sint _, _, h => by cases h
  | .arr js, _, .arr h => by
    have := SaysList.depth js h
    simp only [depthVal, depthSlots, Json.nest]
    omega
  | .obj es, _, .obj h => by
    have := SaysStruct.depth es h
    simp only [depthVal, depthSlots, Json.nest]
    omega
theorem SaysList.depth : (js : List Json) → {fs : FieldSet} → SaysList js fs → 1 + depthSlots fs ≤ max 1 (nestAll 2 js)
  | [], _, h => by
    cases h with
    | none => simp [depthSlots, nestAll, nestObj]
    | some h => cases h; simp [depthSlots, depthVal, depthVals, nestAll]
  | j :: js, _, h => by
    cases h with
    | some h =>
      have := SaysAll.depth (j :: js) h
      simp only [depthSlots, depthVal]
      omega
theorem SaysStruct.depth : (es : List (List Char × Json)) → {fs : FieldSet} → SaysStruct es fs →
    1 + depthSlots fs ≤ max 1 (nestObj 2 es)
  | [], _, h => by
    cases h with
    | none => simp [depthSlots, nestAll, nestObj]
    | some h hs => cases h; simp [depthSlots, depthVal, depthMap, nestObj]
  | e :: es, _, h => by
    cases h with
    | some h hs =>
      have := SaysObj.depth (e :: es) h
      simp only [depthSlots, depthVal]
      omega
theorem SaysAll.depth : (js : List Json) → {vs : List Value} → SaysAll js vs → depthVals vs = 0 ∨ 1 + depthVals vs ≤ nestAll 2 js
  | [], _, .nil => .inl rfl
  | j :: js, _, .cons h1 h2 => by
    have h1 := Says.depth j h1
    have h2 := SaysAll.depth js h2
    simp only [depthVals, nestAll]
    omega
theorem SaysObj.depth : (es : List (List Char × Json)) → {kvs : List (MapKey × Value)} → SaysObj es kvs →
    depthMap kvs = 0 ∨ 1 + depthMap kvs ≤ nestObj 2 es
  | [], _, .nil => .inl rfl
  | (_, j) :: es, _, .cons h1 h2 => by
    have h1 := Says.depth j h1
    have h2 := SaysObj.depth es h2
    simp only [depthMap, nestObj]
    omega
end

mutual
theorem Says.levels : (j : Json) → {v : Value} → Says j v → levelsVal v ≤ 1 + j.nest 3
  | .null, _, .null => by simp [levelsVal, levelsSlots]
  | .bool _, _, .bool b => by simp [levelsVal, levelsSlots]
  | .float _, _, .num h => by simp [levelsVal, levelsSlots]
  | .str _, _, .str s => by simp [levelsVal, levelsSlots]
  | .uint _, _, h => by cases h
  | .sint _, _, h => by cases h
  | .arr js, _, .arr h => by
    have := SaysList.levels js h
    simp only [levelsVal, levelsSlots, Json.nest]
    omega
  | .obj es, _, .obj h => by
    have := SaysStruct.levels es h
    simp only [levelsVal, levelsSlots, Json.nest]
    omega
theorem SaysList.levels : (js : List Json) → {fs : FieldSet} → SaysList js fs → 1 + levelsSlots fs ≤ max 1 (nestAll 3 js)
  | [], _, h => by
    cases h with
    | none => simp [levelsSlots, nestAll, nestObj]
    | some h => cases h; simp [levelsSlots, levelsVal, levelsVals, nestAll]
  | j :: js, _, h => by
    cases h with
    | some h =>
      have := SaysAll.levels (j :: js) h
      simp only [levelsSlots, levelsVal]
      omega
theorem SaysStruct.levels : (es : List (List Char × Json)) → {fs : FieldSet} → SaysStruct es fs →
    1 + levelsSlots fs ≤ max 1 (nestObj 3 es)
  | [], _, h => by
    cases h with
    | none => simp [levelsSlots, nestAll, nestObj]
    | some h hs => cases h; simp [levelsSlots, levelsVal, levelsMap, nestObj]
  | e :: es, _, h => by
    cases h with
    | some h hs =>
      have := SaysObj.levels (e :: es) h
      simp only [levelsSlots, levelsVal]
      omega
theorem SaysAll.levels : (js : List Json) → {vs : List Value} → SaysAll js vs → levelsVals vs = 0 ∨ 1 + levelsVals vs ≤ nestAll 3 js
  | [], _, .nil => .inl rfl
  | j :: js, _, .cons h1 h2 => by
    have h1 := Says.levels j h1
    have h2 := SaysAll.levels js h2
    simp only [levelsVals, nestAll]
    omega
theorem SaysObj.levels : (es : List (List Char × Json)) → {kvs : List (MapKey × Value)} → SaysObj es kvs →
    levelsMap kvs = 0 ∨ 1 + levelsMap kvs ≤ nestObj 3 es
  | [], _, .nil => .inl rfl
  | (_, j) :: es, _, .cons h1 h2 => by
    have h1 := Says.levels j h1
    have h2 := SaysObj.levels es h2
    simp only [levelsMap, nestObj]
    omega
end

mutual
theorem Says.weight : (j : Json) → {v : Value} → Says j v → weightVal v ≤ j.cost
  | .null, _, .null => by simp [weightVal, weightSlots, Json.cost]
  | .bool _, _, .bool b => by simp [weightVal, weightSlots, Json.cost]
  | .float _, _, .num h => by simp [weightVal, weightSlots, Json.cost]
  | .str _, _, .str s => by
    have := utf8_le s
    simp only [weightVal, weightSlots, Json.cost]
    omega
  | .uint _, _, h => by cases h
  | .sint _, _, h => by cases h
  | .arr js, _, .arr h => by
    have := SaysList.weight js h
    simp only [weightVal, weightSlots, Json.cost]
    omega
  | .obj es, _, .obj h => by
    have := SaysStruct.weight es h
    simp only [weightVal, weightSlots, Json.cost]
    omega
theorem SaysList.weight : (js : List Json) → {fs : FieldSet} → SaysList js fs → weightSlots fs ≤ 40 + costAll js
  | [], _, h => by
    cases h with
    | none => simp [weightSlots]
    | some h => cases h; simp [weightSlots, weightVal, weightVals, costAll]
  | j :: js, _, h => by
    cases h with
    | some h =>
      have := SaysAll.weight (j :: js) h
      simp only [weightSlots, weightVal]
      omega
theorem SaysStruct.weight : (es : List (List Char × Json)) → {fs : FieldSet} → SaysStruct es fs →
    weightSlots fs ≤ 40 + costObj es
  | [], _, h => by
    cases h with
    | none => simp [weightSlots]
    | some h hs => cases h; simp [weightSlots, weightVal, weightMap]
  | e :: es, _, h => by
    cases h with
    | some h hs =>
      have := SaysObj.weight (e :: es) h
      simp only [weightSlots, weightVal]
      omega
theorem SaysAll.weight : (js : List Json) → {vs : List Value} → SaysAll js vs → weightVals vs ≤ costAll js
  | [], _, .nil => Nat.le_refl _
  | j :: js, _, .cons h1 h2 => by
    have h1 := Says.weight j h1
    have h2 := SaysAll.weight js h2
    simp only [weightVals, costAll]
    omega
theorem SaysObj.weight : (es : List (List Char × Json)) → {kvs : List (MapKey × Value)} → SaysObj es kvs →
    weightMap kvs ≤ costObj es
  | [], _, .nil => Nat.le_refl _
  | (k, j) :: es, _, .cons h1 h2 => by
    have h1 := Says.weight j h1
    have h2 := SaysObj.weight es h2
    have := utf8_le k
    simp only [weightMap, costObj, MapKey.toValue, textLen]
    omega
end

/-! ### Reading -/

/-- No deeper and no larger. -/
structure Within (j' j : Json) : Prop where
  depth : j'.depth ≤ j.depth
  cost : j'.cost ≤ j.cost
  nest : ∀ e, j'.nest e ≤ j.nest e

theorem depthObj_put (k : List Char) (j : Json) : (l : List (List Char × Json)) →
    depthObj (putSorted k j l) ≤ max j.depth (depthObj l)
  | [] => by simp [putSorted, depthObj]
  | (k', j') :: r => by
    have := depthObj_put k j r
    unfold putSorted
    split
    · simp only [depthObj]; omega
    · split
      · simp only [depthObj]; omega
      · simp only [depthObj]; omega

theorem nestObj_put (e : Nat) (k : List Char) (j : Json) : (l : List (List Char × Json)) →
    nestObj e (putSorted k j l) ≤ max (e + j.nest e) (nestObj e l)
  | [] => by simp [putSorted, nestObj]
  | (k', j') :: r => by
    have := nestObj_put e k j r
    unfold putSorted
    split
    · simp only [nestObj]; omega
    · split
      · simp only [nestObj]; omega
      · simp only [nestObj]; omega

theorem costObj_put (k : List Char) (j : Json) : (l : List (List Char × Json)) →
    costObj (putSorted k j l) ≤ 100 + 4 * k.length + j.cost + costObj l
  | [] => by simp [putSorted, costObj]
  | (k', j') :: r => by
    have := costObj_put k j r
    unfold putSorted
    split
    · simp only [costObj]; omega
    · split
      · simp only [costObj]; omega
      · simp only [costObj]; omega

/-- Two lists with the same keys. -/
inductive Par : List (List Char × Json) → List (List Char × Value) → Prop
  | nil : Par [] []
  | cons {k : List Char} {j : Json} {v : Value} {es : List (List Char × Json)} {vs : List (List Char × Value)} :
      Says j v → Par es vs → Par ((k, j) :: es) ((k, v) :: vs)

theorem Par.put {k : List Char} {j : Json} {v : Value} (hs : Says j v) {es : List (List Char × Json)}
    {vs : List (List Char × Value)} (h : Par es vs) : Par (putSorted k j es) (putSorted k v vs) := by
  induction h with
  | nil => exact .cons hs .nil
  | cons h1 h2 ih =>
    unfold putSorted
    split
    · exact .cons hs h2
    · split
      · exact .cons hs (.cons h1 h2)
      · exact .cons h1 ih

theorem Par.says {es : List (List Char × Json)} {vs : List (List Char × Value)} (h : Par es vs) :
    SaysObj es (vs.map (fun p => (.str (utf8Encode p.1), p.2))) := by
  induction h with
  | nil => exact .nil
  | cons h1 h2 ih => exact .cons h1 ih

/-- What is known of the entries read so far. -/
structure SoFar (env : JEnv) (pre es : List (List Char × Json)) (vs : List (List Char × Value)) : Prop where
  par : Par es vs
  sorted : KeysSorted es
  last : ∀ p ∈ es, ∃ j, Last pre p.1 j ∧ Settles env j p.2
  all : ∀ p ∈ pre, ∃ q ∈ es, q.1 = p.1
  depth : depthObj es ≤ depthObj pre
  cost : costObj es ≤ costObj pre
  nest : ∀ e, nestObj e es ≤ nestObj e pre

theorem depthObj_append (a b : List (List Char × Json)) : depthObj (a ++ b) = max (depthObj a) (depthObj b) := by
  induction a with
  | nil => simp [depthObj]
  | cons p r ih => obtain ⟨k, j⟩ := p; simp only [List.cons_append, depthObj, ih]; omega
theorem nestObj_append (e : Nat) (a b : List (List Char × Json)) : nestObj e (a ++ b) = max (nestObj e a) (nestObj e b) := by
  induction a with
  | nil => simp [nestObj]
  | cons p r ih => obtain ⟨k, j⟩ := p; simp only [List.cons_append, nestObj, ih]; omega
theorem costObj_append (a b : List (List Char × Json)) : costObj (a ++ b) = costObj a + costObj b := by
  induction a with
  | nil => simp [costObj]
  | cons p r ih => obtain ⟨k, j⟩ := p; simp only [List.cons_append, costObj, ih]; omega

theorem mem_put_self {α : Type} (k : List Char) (v : α) (l : List (List Char × α)) : (k, v) ∈ putSorted k v l := by
  induction l with
  | nil => simp [putSorted]
  | cons p r ih =>
    obtain ⟨k', v'⟩ := p
    unfold putSorted
    split
    · simp
    · split
      · simp
      · exact List.mem_cons_of_mem _ ih

theorem mem_put_other {α : Type} {k : List Char} {v : α} {l : List (List Char × α)} {p : List Char × α} (h : p ∈ l)
    (hk : p.1 ≠ k) : p ∈ putSorted k v l := by
  induction l with
  | nil => cases h
  | cons q r ih =>
    obtain ⟨k', v'⟩ := q
    unfold putSorted
    split
    · rename_i e
      rcases List.mem_cons.1 h with rfl | h
      · exact absurd e.symm hk
      · exact List.mem_cons_of_mem _ h
    · split
      · exact List.mem_cons_of_mem _ h
      · rcases List.mem_cons.1 h with rfl | h
        · exact List.mem_cons_self
        · exact List.mem_cons_of_mem _ (ih h)

theorem put_key {α : Type} {k : List Char} {v : α} {l : List (List Char × α)} (hs : KeysSorted l) {p : List Char × α}
    (h : p ∈ putSorted k v l) (hk : p.1 = k) : p = (k, v) := by
  have hs' := putSorted_sorted k v hs
  have h1 := mem_put_self k v l
  generalize putSorted k v l = m at hs' h h1
  induction m with
  | nil => cases h
  | cons q r ih =>
    have hq := List.pairwise_cons.1 hs'
    rcases List.mem_cons.1 h with rfl | h'
    · rcases List.mem_cons.1 h1 with e | h1
      · exact e.symm
      · have := hq.1 _ h1
        simp only [hk, keyLt_irrefl] at this
        cases this
    · rcases List.mem_cons.1 h1 with rfl | h1
      · have := hq.1 _ h'
        simp only [hk, keyLt_irrefl] at this
        cases this
      · exact ih hq.2 h' h1

theorem Last.here (pre : List (List Char × Json)) (k : List Char) (j : Json) : Last (pre ++ [(k, j)]) k j :=
  ⟨pre, [], by simp, nofun⟩

theorem Last.later {pre : List (List Char × Json)} {k k' : List Char} {j j' : Json} (h : Last pre k j) (hk : k ≠ k') :
    Last (pre ++ [(k', j')]) k j := by
  obtain ⟨a, b, rfl, hb⟩ := h
  refine ⟨a, b ++ [(k', j')], by simp, fun p hp => ?_⟩
  rcases List.mem_append.1 hp with hp | hp
  · exact hb p hp
  · simp only [List.mem_singleton] at hp
    rw [hp]
    exact fun e => hk e.symm

theorem SoFar.step {env : JEnv} {pre es : List (List Char × Json)} {vs : List (List Char × Value)} (h : SoFar env pre es vs)
    {k : List Char} {j j' : Json} {v : Value} (hs : Settles env j j') (hv : Says j' v) (hw : Within j' j) :
    SoFar env (pre ++ [(k, j)]) (putSorted k j' es) (putSorted k v vs) where
  par := h.par.put hv
  sorted := putSorted_sorted k j' h.sorted
  last := fun p hp => by
    by_cases hk : p.1 = k
    · have := put_key h.sorted hp hk
      subst this
      exact ⟨j, Last.here _ _ _, hs⟩
    · rcases mem_putSorted hp with rfl | hp
      · exact absurd rfl hk
      · obtain ⟨x, h1, h2⟩ := h.last p hp
        exact ⟨x, h1.later hk, h2⟩
  all := fun p hp => by
    by_cases hk : p.1 = k
    · exact ⟨_, mem_put_self _ _ _, hk.symm⟩
    · rcases List.mem_append.1 hp with hp | hp
      · obtain ⟨q, hq, e⟩ := h.all p hp
        exact ⟨q, mem_put_other hq (by rw [e]; exact hk), e⟩
      · simp only [List.mem_singleton] at hp
        rw [hp] at hk
        exact absurd rfl hk
  depth := by
    have h1 := depthObj_put k j' es
    have h2 := h.depth
    have h3 := hw.depth
    simp only [depthObj_append, depthObj]
    omega
  cost := by
    have h1 := costObj_put k j' es
    have h2 := h.cost
    have h3 := hw.cost
    simp only [costObj_append, costObj]
    omega
  nest := fun e => by
    have h1 := nestObj_put e k j' es
    have h2 := h.nest e
    have h3 := hw.nest e
    simp only [nestObj_append, nestObj]
    omega

theorem SoFar.empty (env : JEnv) : SoFar env [] [] [] :=
  ⟨.nil, List.Pairwise.nil, nofun, nofun, Nat.le_refl _, Nat.le_refl _, fun _ => Nat.le_refl _⟩

theorem SoFar.settles {env : JEnv} {es es' : List (List Char × Json)} {vs : List (List Char × Value)} (h : SoFar env es es' vs) :
    Settles env (.obj es) (.obj es') ∧ Within (.obj es') (.obj es) ∧
      SaysStruct es' [(1, .val (.map (vs.map (fun p => (.str (utf8Encode p.1), p.2)))))] := by
  refine ⟨?_, ⟨?_, ?_, fun e => ?_⟩, .some h.par.says h.sorted⟩
  · have : ∃ src : List Char → Json, ∀ p ∈ es', Last es p.1 (src p.1) ∧ Settles env (src p.1) p.2 := by
      have hex : ∀ k : List Char, ∃ j, ∀ p ∈ es', p.1 = k → Last es k j ∧ Settles env j p.2 := by
        intro k
        by_cases hk : ∃ p ∈ es', p.1 = k
        · obtain ⟨p, hp, e⟩ := hk
          obtain ⟨j, h1, h2⟩ := h.last p hp
          refine ⟨j, fun q hq e' => ?_⟩
          have : q = p := by
            have hs := h.sorted
            clear h h1
            induction es' with
            | nil => cases hp
            | cons x r ih =>
              have hx := List.pairwise_cons.1 hs
              rcases List.mem_cons.1 hp with rfl | hp'
              · rcases List.mem_cons.1 hq with e2 | hq
                · exact e2
                · have := hx.1 _ hq
                  simp only [e, e', keyLt_irrefl] at this
                  cases this
              · rcases List.mem_cons.1 hq with rfl | hq
                · have := hx.1 _ hp'
                  simp only [e, e', keyLt_irrefl] at this
                  cases this
                · exact ih hp' hq hx.2
          subst this
          exact ⟨by rw [← e']; exact h1, h2⟩
        · exact ⟨.null, fun p hp e => absurd ⟨p, hp, e⟩ hk⟩
      exact ⟨fun k => Classical.choose (hex k), fun p hp => Classical.choose_spec (hex p.1) p hp rfl⟩
    obtain ⟨src, hsrc⟩ := this
    exact .obj src h.sorted (fun p hp => (hsrc p hp).1) (fun p hp => (hsrc p hp).2) h.all
  · have := h.depth
    simp only [Json.depth]; omega
  · have := h.cost
    simp only [Json.cost]; omega
  · have := h.nest e
    simp only [Json.nest]; omega

mutual
/-- A JSON value is read as a `Value` that stands for what is kept of it. -/
theorem deValue_says {env : JEnv} (hU : ∀ v, finite64 (env.ofU64 v) = true) (hI : ∀ v, finite64 (env.ofI64 v) = true) :
    (j : Json) → j.finite = true → {K : Nat} → j.depth ≤ K →
    ∃ v j', deValue env K j = .ok v ∧ Settles env j j' ∧ Says j' v ∧ Within j' j
  | j, _, 0, hk => absurd hk (by have := j.depth_pos; omega)
  | .null, _, _ + 1, _ => ⟨_, _, rfl, .null, .null, ⟨Nat.le_refl _, Nat.le_refl _, fun _ => Nat.le_refl _⟩⟩
  | .bool b, _, _ + 1, _ => ⟨_, _, rfl, .bool b, .bool b, ⟨Nat.le_refl _, Nat.le_refl _, fun _ => Nat.le_refl _⟩⟩
  | .uint v, _, _ + 1, _ => ⟨_, _, rfl, .uint v, .num (hU v), ⟨Nat.le_refl _, Nat.le_refl _, fun _ => Nat.le_refl _⟩⟩
  | .sint v, _, _ + 1, _ => ⟨_, _, rfl, .sint v, .num (hI v), ⟨Nat.le_refl _, Nat.le_refl _, fun _ => Nat.le_refl _⟩⟩
  | .float v, hf, _ + 1, _ => ⟨_, _, rfl, .float v, .num hf, ⟨Nat.le_refl _, Nat.le_refl _, fun _ => Nat.le_refl _⟩⟩
  | .str s, _, _ + 1, _ => ⟨_, _, rfl, .str s, .str s, ⟨Nat.le_refl _, Nat.le_refl _, fun _ => Nat.le_refl _⟩⟩
  | .arr js, hf, K + 1, hk => by
    simp only [Json.depth] at hk
    obtain ⟨vs, js', h1, h2, h3, h4⟩ := deValues_says hU hI js hf (K := K) (by omega)
    refine ⟨stdValue 6 (.msg Wkt.list.std [(1, .val (.list vs))]), .arr js', ?_, .arr h2, .arr (.some h3), h4⟩
    simp only [deValue, deList, h1]
    rfl
  | .obj es, hf, K + 1, hk => by
    simp only [Json.depth] at hk
    obtain ⟨vs, es', h1, h2⟩ := dePairs_says hU hI es hf (K := K) (by omega) [] [] [] (SoFar.empty env)
    obtain ⟨h3, h4, h5⟩ := h2.settles
    refine ⟨stdValue 5 (.msg Wkt.struct.std [(1, .val (.map (vs.map (fun p => (.str (utf8Encode p.1), p.2)))))]), .obj es', ?_, h3, .obj h5, h4⟩
    simp only [deValue, deStruct, h1]
    rfl
theorem deValues_says {env : JEnv} (hU : ∀ v, finite64 (env.ofU64 v) = true) (hI : ∀ v, finite64 (env.ofI64 v) = true) :
    (js : List Json) → finiteAll js = true → {K : Nat} → depthList js ≤ K →
    ∃ vs js', mapE (deValue env K) js = .ok vs ∧ SettlesAll env js js' ∧ SaysAll js' vs ∧ Within (.arr js') (.arr js)
  | [], _, _, _ => ⟨[], [], rfl, .nil, .nil, ⟨Nat.le_refl _, Nat.le_refl _, fun _ => Nat.le_refl _⟩⟩
  | j :: js, hf, K, hk => by
    simp only [finiteAll, Bool.and_eq_true] at hf
    simp only [depthList] at hk
    obtain ⟨v, j', h1, h2, h3, h4⟩ := deValue_says hU hI j hf.1 (K := K) (by omega)
    obtain ⟨vs, js', g1, g2, g3, g4⟩ := deValues_says hU hI js hf.2 (K := K) (by omega)
    refine ⟨v :: vs, j' :: js', by simp only [mapE, h1, g1], .cons h2 g2, .cons h3 g3, ⟨?_, ?_, fun e => ?_⟩⟩
    · have := h4.depth
      have := g4.depth
      simp only [Json.depth, depthList] at this ⊢
      omega
    · have := h4.cost
      have := g4.cost
      simp only [Json.cost, costAll] at this ⊢
      omega
    · have := h4.nest e
      have := g4.nest e
      simp only [Json.nest, nestAll] at this ⊢
      omega
theorem dePairs_says {env : JEnv} (hU : ∀ v, finite64 (env.ofU64 v) = true) (hI : ∀ v, finite64 (env.ofI64 v) = true) :
    (es : List (List Char × Json)) → finiteObj es = true → {K : Nat} → depthObj es ≤ K →
    ∀ pre acc avs, SoFar env pre acc avs →
      ∃ vs es', stdPairs (deValue env K) avs es = .ok vs ∧ SoFar env (pre ++ es) es' vs
  | [], _, _, _, pre, acc, avs, h => ⟨avs, acc, rfl, by simpa using h⟩
  | (k, j) :: es, hf, K, hk, pre, acc, avs, h => by
    simp only [finiteObj, Bool.and_eq_true] at hf
    simp only [depthObj] at hk
    obtain ⟨v, j', h1, h2, h3, h4⟩ := deValue_says hU hI j hf.1 (K := K) (by omega)
    obtain ⟨vs, es', g1, g2⟩ := dePairs_says hU hI es hf.2 (K := K) (by omega) (pre ++ [(k, j)]) _ _ (h.step (k := k) h2 h3 h4)
    exact ⟨vs, es', by simp only [stdPairs, h1, g1], by simpa using g2⟩
end

end Verif.Json
