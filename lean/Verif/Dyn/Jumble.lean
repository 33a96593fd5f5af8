import Verif.Dyn.Same
import Verif.Dyn.Len
/-!
The same value with the entries of its maps in another order: a `HashMap` that is built anew may
yield its entries in any order.
-/
set_option autoImplicit false
namespace Verif.Dyn
open Verif.Wire

mutual
/-- The same value, up to the order of map entries at any level. -/
inductive Jumbled : Value → Value → Prop
  | refl (v : Value) : Jumbled v v
  | list {a b : List Value} (h : JumbledL a b) : Jumbled (.list a) (.list b)
  | map {a b c : List (MapKey × Value)} (h : JumbledM a b) (hp : b.Perm c) : Jumbled (.map a) (.map c)
  | msg {d : Nat} {a b : List (Nat × Slot)} (h : JumbledS a b) : Jumbled (.msg d a) (.msg d b)
/-- Element by element. -/
inductive JumbledL : List Value → List Value → Prop
  | nil : JumbledL [] []
  | cons {v w : Value} {a b : List Value} (h : Jumbled v w) (t : JumbledL a b) : JumbledL (v :: a) (w :: b)
/-- Value by value. -/
inductive JumbledM : List (MapKey × Value) → List (MapKey × Value) → Prop
  | nil : JumbledM [] []
  | cons {k : MapKey} {v w : Value} {a b : List (MapKey × Value)} (h : Jumbled v w) (t : JumbledM a b) :
      JumbledM ((k, v) :: a) ((k, w) :: b)
/-- Slot by slot. -/
inductive JumbledS : List (Nat × Slot) → List (Nat × Slot) → Prop
  | nil : JumbledS [] []
  | keep {p : Nat × Slot} {a b : List (Nat × Slot)} (t : JumbledS a b) : JumbledS (p :: a) (p :: b)
  | val {n : Nat} {v w : Value} {a b : List (Nat × Slot)} (h : Jumbled v w) (t : JumbledS a b) :
      JumbledS ((n, .val v) :: a) ((n, .val w) :: b)
end

theorem JumbledS.refl : ∀ a, JumbledS a a
  | [] => .nil
  | _ :: r => .keep (JumbledS.refl r)
theorem JumbledL.refl : ∀ a, JumbledL a a
  | [] => .nil
  | v :: r => .cons (.refl v) (JumbledL.refl r)
theorem JumbledM.refl : ∀ a, JumbledM a a
  | [] => .nil
  | (_, v) :: r => .cons (.refl v) (JumbledM.refl r)

theorem JumbledL.length : ∀ {a b}, JumbledL a b → a.length = b.length
  | _, _, .nil => rfl
  | _, _, .cons _ t => by simp only [List.length_cons, t.length]

theorem JumbledM.keys : ∀ {a b}, JumbledM a b → a.map (·.1) = b.map (·.1)
  | _, _, .nil => rfl
  | _, _, .cons _ t => by simp only [List.map_cons, t.keys]

theorem JumbledS.keys : ∀ {a b}, JumbledS a b → a.map (·.1) = b.map (·.1)
  | _, _, .nil => rfl
  | _, _, .keep t => by simp only [List.map_cons, t.keys]
  | _, _, .val _ t => by simp only [List.map_cons, t.keys]

theorem JumbledM.length {a b : List (MapKey × Value)} (h : JumbledM a b) : a.length = b.length := by
  have := congrArg List.length h.keys
  simpa using this

/-! ### Equality with a third value -/

theorem beqMap_perm {a b : List (MapKey × Value)} (h : a.Perm b) (s : List (MapKey × Value)) :
    beqMap a s = beqMap b s := by
  induction h with
  | nil => rfl
  | cons p _ ih => obtain ⟨k, v⟩ := p; simp only [beqMap, ih]
  | swap p q r =>
    obtain ⟨k, v⟩ := p; obtain ⟨j, w⟩ := q
    simp only [beqMap]
    rw [Bool.and_left_comm]
  | trans _ _ ih1 ih2 => exact ih1.trans ih2

mutual
theorem Jumbled.beq : (v : Value) → (v' : Value) → Jumbled v v' → ∀ w, v.beq w = v'.beq w
  | .msg d fs, _, .refl _, w => rfl
  | .msg d fs, _, .msg h, w => by
    cases w with
    | msg e gs => simp only [Value.beq, JumbledS.beq fs _ h gs]
    | _ => simp only [Value.beq]
  | .list vs, _, .refl _, w => rfl
  | .list vs, _, .list h, w => by
    cases w with
    | list b => simp only [Value.beq, JumbledL.beq vs _ h b]
    | _ => simp only [Value.beq]
  | .map kvs, _, .refl _, w => rfl
  | .map kvs, _, .map h hp, w => by
    cases w with
    | map b => simp only [Value.beq, JumbledM.beq kvs _ h b, beqMap_perm hp, h.length, hp.length_eq]
    | _ => simp only [Value.beq]
  | .bool _, _, .refl _, w => rfl
  | .i32 _, _, .refl _, w => rfl
  | .i64 _, _, .refl _, w => rfl
  | .u32 _, _, .refl _, w => rfl
  | .u64 _, _, .refl _, w => rfl
  | .f32 _, _, .refl _, w => rfl
  | .f64 _, _, .refl _, w => rfl
  | .str _, _, .refl _, w => rfl
  | .bytes _, _, .refl _, w => rfl
  | .enum _, _, .refl _, w => rfl
theorem JumbledL.beq : (a : List Value) → (a' : List Value) → JumbledL a a' → ∀ b, beqVals a b = beqVals a' b
  | [], _, .nil, b => rfl
  | v :: r, _, .cons h t, b => by
    cases b with
    | nil => simp only [beqVals]
    | cons w s => simp only [beqVals, Jumbled.beq v _ h w, JumbledL.beq r _ t s]
theorem JumbledM.beq : (a : List (MapKey × Value)) → (a' : List (MapKey × Value)) → JumbledM a a' →
    ∀ b, beqMap a b = beqMap a' b
  | [], _, .nil, b => rfl
  | (k, v) :: r, _, .cons h t, b => by
    simp only [beqMap, JumbledM.beq r _ t b]
    congr 1
    split
    · exact Jumbled.beq v _ h _
    · rfl
theorem JumbledS.beq : (a : List (Nat × Slot)) → (a' : List (Nat × Slot)) → JumbledS a a' →
    ∀ b, beqSlots a b = beqSlots a' b
  | [], _, .nil, b => rfl
  | (n, .val v) :: r, _, .val h t, b => by
    cases b with
    | nil => simp only [beqSlots]
    | cons p s =>
      obtain ⟨j, x⟩ := p
      cases x <;> first | (simp only [beqSlots]; done) | simp only [beqSlots, Jumbled.beq v _ h, JumbledS.beq r _ t s]
  | (n, .val v) :: r, _, .keep t, b => by
    cases b with
    | nil => simp only [beqSlots]
    | cons p s =>
      obtain ⟨j, x⟩ := p
      cases x <;> first | (simp only [beqSlots]; done) | simp only [beqSlots, JumbledS.beq r _ t s]
  | (n, .taken) :: r, _, .keep t, b => by
    cases b with
    | nil => simp only [beqSlots]
    | cons p s =>
      obtain ⟨j, x⟩ := p
      cases x <;> first | (simp only [beqSlots]; done) | simp only [beqSlots, JumbledS.beq r _ t s]
  | (n, .unknown u) :: r, _, .keep t, b => by
    cases b with
    | nil => simp only [beqSlots]
    | cons p s =>
      obtain ⟨j, x⟩ := p
      cases x <;> first | (simp only [beqSlots]; done) | simp only [beqSlots, JumbledS.beq r _ t s]
end

theorem Jumbled.hasVal {v v' : Value} (h : Jumbled v v') (S : Schema) (f : FieldDesc) :
    hasVal S f v = hasVal S f v' := by
  unfold Dyn.hasVal isDefault
  cases fieldDefault S f with
  | none => rfl
  | some w => simp only [Option.map_some, Jumbled.beq v v' h w]

theorem Jumbled.unless {v v' : Value} (h : Jumbled v v') (S : Schema) (f : FieldDesc) {α : Type} (z : α)
    (k : Option α) : unlessDefault S f v z k = unlessDefault S f v' z k := by
  unfold unlessDefault isDefault
  cases fieldDefault S f with
  | none => rfl
  | some w => simp only [Option.map_some, Jumbled.beq v v' h w]

theorem Jumbled.ifPresent {v v' : Value} (h : Jumbled v v') (S : Schema) (f : Option FieldDesc) {α : Type} (z : α)
    (k : FieldDesc → Option α) : ifPresent S f v z k = ifPresent S f v' z k := by
  unfold Dyn.ifPresent
  cases f with
  | none => rfl
  | some f => simp only [h.hasVal S f]

/-! ### Conformance -/

theorem confMap_perm {S : Schema} {kd vd : FieldDesc} {a b : List (MapKey × Value)} (h : a.Perm b) :
    confMap S kd vd a = confMap S kd vd b := by
  induction h with
  | nil => rfl
  | cons p _ ih => obtain ⟨k, v⟩ := p; simp only [confMap, ih]
  | swap p q r =>
    obtain ⟨k, v⟩ := p; obtain ⟨j, w⟩ := q
    simp only [confMap]
    rw [Bool.and_left_comm]
  | trans _ _ ih1 ih2 => exact ih1.trans ih2

theorem get?_mem {a : List (MapKey × Value)} (hd : KMap.distinct a = true) (k : MapKey) (v : Value) :
    KMap.get? a k = some v ↔ (k, v) ∈ a := by
  induction a with
  | nil => simp [KMap.get?]
  | cons p r ih =>
    obtain ⟨j, w⟩ := p
    simp only [KMap.distinct, Bool.and_eq_true, Option.isNone_iff_eq_none] at hd
    simp only [KMap.get?, List.mem_cons, Prod.mk.injEq]
    by_cases hj : j = k
    · subst hj
      simp only [if_true, Option.some.injEq, true_and]
      constructor
      · exact fun e => .inl e.symm
      · rintro (e | e)
        · exact e.symm
        · rw [← ih hd.2, hd.1] at e; cases e
    · simp only [hj, if_false, ih hd.2]
      constructor
      · exact .inr
      · rintro (⟨e, -⟩ | e)
        · exact absurd e.symm hj
        · exact e

theorem get?_isSome (a : List (MapKey × Value)) (k : MapKey) : (KMap.get? a k).isSome = true ↔ k ∈ a.map (·.1) := by
  induction a with
  | nil => simp [KMap.get?]
  | cons p r ih =>
    obtain ⟨j, w⟩ := p
    simp only [KMap.get?, List.map_cons, List.mem_cons, ← ih]
    by_cases hj : j = k
    · simp [hj]
    · simp only [hj, if_false]
      constructor
      · exact .inr
      · rintro (e | e)
        · exact absurd e.symm hj
        · exact e

theorem distinct_nodup (a : List (MapKey × Value)) : KMap.distinct a = true ↔ (a.map (·.1)).Nodup := by
  induction a with
  | nil => simp [KMap.distinct]
  | cons p r ih =>
    obtain ⟨j, w⟩ := p
    simp only [KMap.distinct, Bool.and_eq_true, ih, List.map_cons, List.nodup_cons, ← get?_isSome r j]
    cases KMap.get? r j <;> simp

theorem JumbledM.distinct {a b c : List (MapKey × Value)} (h : JumbledM a b) (hp : b.Perm c) :
    KMap.distinct a = KMap.distinct c := by
  have : (KMap.distinct a = true) ↔ (KMap.distinct c = true) := by
    rw [distinct_nodup, distinct_nodup, h.keys]
    exact (hp.map _).nodup_iff
  cases h1 : KMap.distinct a <;> cases h2 : KMap.distinct c <;> simp_all

theorem JumbledS.get : ∀ {a b : List (Nat × Slot)}, JumbledS a b → ∀ n,
    (SMap.get? a n).isSome = (SMap.get? b n).isSome
  | _, _, .nil, n => rfl
  | _, _, .keep (p := (k, s)) t, n => by simp only [SMap.get?]; split <;> first | rfl | exact t.get n
  | _, _, .val (n := k) _ t, n => by simp only [SMap.get?]; split <;> first | rfl | exact t.get n

theorem JumbledS.sortedFrom : ∀ {a b : List (Nat × Slot)}, JumbledS a b → ∀ lo,
    SMap.sortedFrom lo a = SMap.sortedFrom lo b
  | _, _, .nil, lo => rfl
  | _, _, .keep t, lo => by simp only [SMap.sortedFrom, t.sortedFrom]
  | _, _, .val _ t, lo => by simp only [SMap.sortedFrom, t.sortedFrom]

theorem JumbledS.oneofOk {a b : List (Nat × Slot)} (h : JumbledS a b) (S : Schema) (d : Nat) :
    oneofOk S d a = oneofOk S d b := by
  unfold Dyn.oneofOk
  cases S.msg? d with
  | none => rfl
  | some md =>
    have hg : ∀ n, (SMap.get? a n).isNone = (SMap.get? b n).isNone := by
      intro n
      have := h.get n
      cases h1 : SMap.get? a n <;> cases h2 : SMap.get? b n <;> simp_all
    have : ∀ (l : List (Nat × Slot)) (g : Nat → Bool), l.all (fun p => g p.1) = (l.map (·.1)).all g := by
      intro l g
      rw [List.all_map]; rfl
    simp only [hg]
    let g : Nat → Bool := fun n =>
      match md.getField n with
      | none => true
      | some f => (siblings md f).all (fun m => (SMap.get? b m).isNone)
    exact (this a g).trans ((congrArg (fun l => List.all l g) h.keys).trans (this b g).symm)

mutual
theorem Jumbled.conf {S : Schema} : (v : Value) → (v' : Value) → Jumbled v v' → ∀ f, confVal S f v = confVal S f v'
  | .msg d fs, _, .refl _, f => rfl
  | .msg d fs, _, .msg h, f => by
    simp only [confVal, SMap.sorted, h.sortedFrom, h.oneofOk, JumbledS.conf fs _ h]
  | .list vs, _, .refl _, f => rfl
  | .list vs, _, .list h, f => by simp only [confVal, JumbledL.conf vs _ h]
  | .map kvs, _, .refl _, f => rfl
  | .map kvs, _, .map h hp, f => by
    simp only [confVal, h.distinct hp, JumbledM.conf kvs _ h, confMap_perm hp]
  | .bool _, _, .refl _, f => rfl
  | .i32 _, _, .refl _, f => rfl
  | .i64 _, _, .refl _, f => rfl
  | .u32 _, _, .refl _, f => rfl
  | .u64 _, _, .refl _, f => rfl
  | .f32 _, _, .refl _, f => rfl
  | .f64 _, _, .refl _, f => rfl
  | .str _, _, .refl _, f => rfl
  | .bytes _, _, .refl _, f => rfl
  | .enum _, _, .refl _, f => rfl
theorem JumbledL.conf {S : Schema} : (a : List Value) → (a' : List Value) → JumbledL a a' → ∀ f,
    confVals S f a = confVals S f a'
  | [], _, .nil, f => rfl
  | v :: r, _, .cons h t, f => by simp only [confVals, Jumbled.conf v _ h, JumbledL.conf r _ t]
theorem JumbledM.conf {S : Schema} : (a : List (MapKey × Value)) → (a' : List (MapKey × Value)) → JumbledM a a' →
    ∀ kd vd, confMap S kd vd a = confMap S kd vd a'
  | [], _, .nil, _, _ => rfl
  | (k, v) :: r, _, .cons h t, _, _ => by simp only [confMap, Jumbled.conf v _ h, JumbledM.conf r _ t]
theorem JumbledS.conf {S : Schema} : (a : List (Nat × Slot)) → (a' : List (Nat × Slot)) → JumbledS a a' →
    ∀ d, confSlots S d a = confSlots S d a'
  | [], _, .nil, _ => rfl
  | (n, .val v) :: r, _, .val h t, d => by simp only [confSlots, Jumbled.conf v _ h, JumbledS.conf r _ t]
  | (n, .val v) :: r, _, .keep t, d => by simp only [confSlots, JumbledS.conf r _ t]
  | (n, .taken) :: r, _, .keep t, d => by simp only [confSlots, JumbledS.conf r _ t]
  | (n, .unknown u) :: r, _, .keep t, d => by simp only [confSlots, JumbledS.conf r _ t]
end

theorem JumbledS.confMsg {a b : List (Nat × Slot)} (h : JumbledS a b) (S : Schema) (d : Nat) :
    confMsg S ⟨d, a⟩ = confMsg S ⟨d, b⟩ := by
  simp only [Dyn.confMsg, SMap.sorted, h.sortedFrom, h.oneofOk, JumbledS.conf a _ h]

/-! ### Depth -/

theorem depthMap_perm {a b : List (MapKey × Value)} (h : a.Perm b) : depthMap a = depthMap b := by
  induction h with
  | nil => rfl
  | cons p _ ih => obtain ⟨k, v⟩ := p; simp only [depthMap, ih]
  | swap p q r =>
    obtain ⟨k, v⟩ := p; obtain ⟨j, w⟩ := q
    simp only [depthMap]; omega
  | trans _ _ ih1 ih2 => exact ih1.trans ih2

mutual
theorem Jumbled.depth : (v : Value) → (v' : Value) → Jumbled v v' → depthVal v = depthVal v'
  | .msg d fs, _, .refl _ => rfl
  | .msg d fs, _, .msg h => by simp only [depthVal, JumbledS.depth fs _ h]
  | .list vs, _, .refl _ => rfl
  | .list vs, _, .list h => by simp only [depthVal, JumbledL.depth vs _ h]
  | .map kvs, _, .refl _ => rfl
  | .map kvs, _, .map h hp => by simp only [depthVal, JumbledM.depth kvs _ h, depthMap_perm hp]
  | .bool _, _, .refl _ => rfl
  | .i32 _, _, .refl _ => rfl
  | .i64 _, _, .refl _ => rfl
  | .u32 _, _, .refl _ => rfl
  | .u64 _, _, .refl _ => rfl
  | .f32 _, _, .refl _ => rfl
  | .f64 _, _, .refl _ => rfl
  | .str _, _, .refl _ => rfl
  | .bytes _, _, .refl _ => rfl
  | .enum _, _, .refl _ => rfl
theorem JumbledL.depth : (a : List Value) → (a' : List Value) → JumbledL a a' → depthVals a = depthVals a'
  | [], _, .nil => rfl
  | v :: r, _, .cons h t => by simp only [depthVals, Jumbled.depth v _ h, JumbledL.depth r _ t]
theorem JumbledM.depth : (a : List (MapKey × Value)) → (a' : List (MapKey × Value)) → JumbledM a a' →
    depthMap a = depthMap a'
  | [], _, .nil => rfl
  | (k, v) :: r, _, .cons h t => by simp only [depthMap, Jumbled.depth v _ h, JumbledM.depth r _ t]
theorem JumbledS.depth : (a : List (Nat × Slot)) → (a' : List (Nat × Slot)) → JumbledS a a' →
    depthSlots a = depthSlots a'
  | [], _, .nil => rfl
  | (n, .val v) :: r, _, .val h t => by simp only [depthSlots, Jumbled.depth v _ h, JumbledS.depth r _ t]
  | (n, .val v) :: r, _, .keep t => by simp only [depthSlots, JumbledS.depth r _ t]
  | (n, .taken) :: r, _, .keep t => by simp only [depthSlots, JumbledS.depth r _ t]
  | (n, .unknown u) :: r, _, .keep t => by simp only [depthSlots, JumbledS.depth r _ t]
end

/-! ### Length -/

theorem Jumbled.scalarLen {v v' : Value} (h : Jumbled v v') (k : Kind) : scalarLen k v = scalarLen k v' := by
  cases h with
  | refl => rfl
  | list => cases k <;> rfl
  | map => cases k <;> rfl
  | msg => cases k <;> rfl

theorem Jumbled.scalarEnc {v v' : Value} (h : Jumbled v v') (k : Kind) : scalarEnc k v = scalarEnc k v' := by
  cases h with
  | refl => rfl
  | list => cases k <;> rfl
  | map => cases k <;> rfl
  | msg => cases k <;> rfl

theorem lenMap_perm {S : Schema} {n : Nat} {kd vd : FieldDesc} {a b : List (MapKey × Value)} (h : a.Perm b) :
    lenMapEntries S n kd vd a = lenMapEntries S n kd vd b := by
  induction h with
  | nil => rfl
  | cons p _ ih => obtain ⟨k, v⟩ := p; simp only [lenMapEntries, ih]
  | swap p q r =>
    obtain ⟨k, v⟩ := p; obtain ⟨j, w⟩ := q
    simp only [lenMapEntries]
    cases lenKey kd k <;> cases lenKey kd j <;> cases lenVal S vd v <;> cases lenVal S vd w <;>
      cases lenMapEntries S n kd vd r <;> simp
    omega
  | trans _ _ ih1 ih2 => exact ih1.trans ih2

theorem JumbledL.packed : ∀ {a b : List Value}, JumbledL a b → ∀ k,
    packedLenAll k a = packedLenAll k b ∧ packedEncAll k a = packedEncAll k b
  | _, _, .nil, k => ⟨rfl, rfl⟩
  | _, _, .cons (v := v) (w := w) h t, k => by
    obtain ⟨h1, h2⟩ := t.packed k
    have e1 : packedLen k v = packedLen k w := by
      cases h with
      | refl => rfl
      | list => cases k <;> rfl
      | map => cases k <;> rfl
      | msg => cases k <;> rfl
    have e2 : packedEnc k v = packedEnc k w := by
      cases h with
      | refl => rfl
      | list => cases k <;> rfl
      | map => cases k <;> rfl
      | msg => cases k <;> rfl
    simp only [packedLenAll, packedEncAll, h1, h2, e1, e2, and_self]

mutual
theorem Jumbled.len {S : Schema} : (v : Value) → (v' : Value) → Jumbled v v' → ∀ f, lenVal S f v = lenVal S f v'
  | .msg d fs, _, .refl _, f => rfl
  | .msg d fs, _, .msg h, f => by
    simp only [lenVal, Jumbled.unless (.msg h), JumbledS.len fs _ h]
  | .list vs, _, .refl _, f => rfl
  | .list vs, _, .list h, f => by
    simp only [lenVal, Jumbled.unless (.list h), JumbledL.len vs _ h, lenPackedList, (h.packed _).1]
  | .map kvs, _, .refl _, f => rfl
  | .map kvs, _, .map h hp, f => by
    simp only [lenVal, Jumbled.unless (.map h hp), JumbledM.len kvs _ h, lenMap_perm hp]
  | .bool _, _, .refl _, f => rfl
  | .i32 _, _, .refl _, f => rfl
  | .i64 _, _, .refl _, f => rfl
  | .u32 _, _, .refl _, f => rfl
  | .u64 _, _, .refl _, f => rfl
  | .f32 _, _, .refl _, f => rfl
  | .f64 _, _, .refl _, f => rfl
  | .str _, _, .refl _, f => rfl
  | .bytes _, _, .refl _, f => rfl
  | .enum _, _, .refl _, f => rfl
theorem JumbledL.len {S : Schema} : (a : List Value) → (a' : List Value) → JumbledL a a' → ∀ f,
    lenVals S f a = lenVals S f a'
  | [], _, .nil, f => rfl
  | v :: r, _, .cons h t, f => by simp only [lenVals, Jumbled.len v _ h, JumbledL.len r _ t]
theorem JumbledM.len {S : Schema} : (a : List (MapKey × Value)) → (a' : List (MapKey × Value)) → JumbledM a a' →
    ∀ n kd vd, lenMapEntries S n kd vd a = lenMapEntries S n kd vd a'
  | [], _, .nil, _, _, _ => rfl
  | (k, v) :: r, _, .cons h t, _, _, _ => by simp only [lenMapEntries, Jumbled.len v _ h, JumbledM.len r _ t]
theorem JumbledS.len {S : Schema} : (a : List (Nat × Slot)) → (a' : List (Nat × Slot)) → JumbledS a a' →
    ∀ d, lenSlots S d a = lenSlots S d a'
  | [], _, .nil, _ => rfl
  | (n, .val v) :: r, _, .val h t, d => by
    simp only [lenSlots, h.ifPresent, Jumbled.len v _ h, JumbledS.len r _ t]
  | (n, .val v) :: r, _, .keep t, d => by simp only [lenSlots, JumbledS.len r _ t]
  | (n, .taken) :: r, _, .keep t, d => by simp only [lenSlots, JumbledS.len r _ t]
  | (n, .unknown u) :: r, _, .keep t, d => by simp only [lenSlots, JumbledS.len r _ t]
end

/-! ### What is written -/

/-- Both succeed with the same length, or both fail. -/
def SameLen (a b : Option Bytes) : Prop := a.map List.length = b.map List.length

theorem encMap_perm {S : Schema} {n : Nat} {kd vd : FieldDesc} {a b : List (MapKey × Value)} (h : a.Perm b) :
    SameLen (encMapEntries S n kd vd a) (encMapEntries S n kd vd b) := by
  unfold SameLen
  induction h with
  | nil => rfl
  | @cons p a b _ ih =>
    obtain ⟨k, v⟩ := p
    simp only [encMapEntries]
    generalize encMapEntries S n kd vd a = x at ih ⊢
    generalize encMapEntries S n kd vd b = y at ih ⊢
    cases lenKey kd k <;> cases lenVal S vd v <;> cases encKey kd k <;> cases encVal S vd v <;>
      cases x <;> cases y <;> simp_all
  | swap p q r =>
    obtain ⟨k, v⟩ := p; obtain ⟨j, w⟩ := q
    simp only [encMapEntries]
    generalize encMapEntries S n kd vd r = x
    cases x with
    | none =>
      cases lenKey kd k <;> cases lenVal S vd v <;> cases encKey kd k <;> cases encVal S vd v <;>
      cases lenKey kd j <;> cases lenVal S vd w <;> cases encKey kd j <;> cases encVal S vd w <;> rfl
    | some x =>
      cases lenKey kd k <;> cases lenVal S vd v <;> cases encKey kd k <;> cases encVal S vd v <;>
      cases lenKey kd j <;> cases lenVal S vd w <;> cases encKey kd j <;> cases encVal S vd w <;> first
        | rfl
        | (simp only [Option.map_some, List.length_append, Option.some.injEq]; omega)
  | trans _ _ ih1 ih2 => exact ih1.trans ih2

theorem SameLen.unless {S : Schema} {f : FieldDesc} {v v' : Value} (h : Jumbled v v') {a b : Option Bytes}
    (hab : SameLen a b) : SameLen (unlessDefault S f v [] a) (unlessDefault S f v' [] b) := by
  rw [h.unless]
  unfold unlessDefault
  split
  · exact hab
  · split
    · rfl
    · rfl
    · exact hab

theorem SameLen.ifPresent {S : Schema} {f : Option FieldDesc} {v v' : Value} (h : Jumbled v v')
    {a b : FieldDesc → Option Bytes} (hab : ∀ f, SameLen (a f) (b f)) :
    SameLen (ifPresent S f v [] a) (ifPresent S f v' [] b) := by
  rw [h.ifPresent]
  unfold Dyn.ifPresent
  split
  · rfl
  · split
    · rfl
    · rfl
    · exact hab _

/-- Pairs of byte strings of the same lengths. -/
def SameLens (a b : Option (Bytes × Bytes)) : Prop :=
  a.map (fun p => (p.1.length, p.2.length)) = b.map (fun p => (p.1.length, p.2.length))

mutual
theorem Jumbled.enc {S : Schema} : (v : Value) → (v' : Value) → Jumbled v v' → ∀ f,
    SameLen (encVal S f v) (encVal S f v')
  | .msg d fs, _, .refl _, f => rfl
  | .msg d fs, _, .msg (b := gs) h, f => by
    simp only [encVal]
    refine SameLen.unless (.msg h) ?_
    have := JumbledS.enc (S := S) fs gs h d
    rw [← JumbledS.len fs gs h]
    unfold SameLens at this
    unfold SameLen
    cases f.kind with
    | message i =>
      simp only
      generalize encSlots S d fs = x at this ⊢
      generalize encSlots S d gs = y at this ⊢
      match x, y, this with
      | none, none, _ => rfl
      | some (a, b), some (a', b'), this =>
        simp only [Option.map_some, Option.some.injEq, Prod.mk.injEq] at this
        simp only
        split
        · simp only [Option.map_some, List.length_append, this.1, this.2]
        · cases lenSlots S d fs with
          | none => rfl
          | some l => simp only [Option.map_some, List.length_append, this.1, this.2]
    | _ => rfl
  | .list vs, _, .refl _, f => rfl
  | .list vs, _, .list h, f => by
    simp only [encVal]
    refine SameLen.unless (.list h) ?_
    split
    · split
      · simp only [encPackedList, (h.packed _).1, (h.packed _).2]; rfl
      · exact JumbledL.enc vs _ h f
    · rfl
  | .map kvs, _, .refl _, f => rfl
  | .map kvs, _, .map h hp, f => by
    simp only [encVal]
    refine SameLen.unless (.map h hp) ?_
    cases f.kind with
    | message i =>
      simp only
      split
      · cases S.mapKV i with
        | none => rfl
        | some p => exact (JumbledM.enc kvs _ h _ p.1 p.2).trans (encMap_perm hp)
      · rfl
    | _ => rfl
  | .bool _, _, .refl _, f => rfl
  | .i32 _, _, .refl _, f => rfl
  | .i64 _, _, .refl _, f => rfl
  | .u32 _, _, .refl _, f => rfl
  | .u64 _, _, .refl _, f => rfl
  | .f32 _, _, .refl _, f => rfl
  | .f64 _, _, .refl _, f => rfl
  | .str _, _, .refl _, f => rfl
  | .bytes _, _, .refl _, f => rfl
  | .enum _, _, .refl _, f => rfl
theorem JumbledL.enc {S : Schema} : (a : List Value) → (a' : List Value) → JumbledL a a' → ∀ f,
    SameLen (encVals S f a) (encVals S f a')
  | [], _, .nil, f => rfl
  | v :: r, _, .cons (w := w) (b := s) h t, f => by
    have h1 := Jumbled.enc (S := S) v w h f
    have h2 := JumbledL.enc (S := S) r s t f
    unfold SameLen at h1 h2 ⊢
    simp only [encVals]
    cases e1 : encVal S f v <;> cases e2 : encVal S f w <;> cases e3 : encVals S f r <;>
      cases e4 : encVals S f s <;> simp_all
theorem JumbledM.enc {S : Schema} : (a : List (MapKey × Value)) → (a' : List (MapKey × Value)) → JumbledM a a' →
    ∀ n kd vd, SameLen (encMapEntries S n kd vd a) (encMapEntries S n kd vd a')
  | [], _, .nil, _, _, _ => rfl
  | (k, v) :: r, _, .cons (w := w) (b := s) h t, n, kd, vd => by
    have h1 := Jumbled.enc (S := S) v w h vd
    have h2 := JumbledM.enc (S := S) r s t n kd vd
    unfold SameLen at h1 h2 ⊢
    simp only [encMapEntries, ← Jumbled.len v w h]
    generalize encVal S vd v = a at h1 ⊢
    generalize encVal S vd w = a' at h1 ⊢
    generalize encMapEntries S n kd vd r = b at h2 ⊢
    generalize encMapEntries S n kd vd s = b' at h2 ⊢
    cases lenKey kd k <;> cases lenVal S vd v <;> cases encKey kd k <;> cases a <;> cases a' <;> cases b <;> cases b' <;>
      simp_all
theorem JumbledS.enc {S : Schema} : (a : List (Nat × Slot)) → (a' : List (Nat × Slot)) → JumbledS a a' →
    ∀ d, SameLens (encSlots S d a) (encSlots S d a')
  | [], _, .nil, _ => rfl
  | (n, .val v) :: r, _, .val (w := w) (b := s) h t, d => by
    have h2 := JumbledS.enc (S := S) r s t d
    have h1 := SameLen.ifPresent (S := S) (f := S.field? d n) h (fun f => Jumbled.enc (S := S) v w h f)
    have h3 := SameLen.ifPresent (S := S) (f := S.ext? d n) h (fun f => Jumbled.enc (S := S) v w h f)
    unfold SameLen at h1 h3
    unfold SameLens at h2 ⊢
    simp only [encSlots]
    generalize ifPresent S (S.field? d n) v [] (fun f => encVal S f v) = a at h1 ⊢
    generalize ifPresent S (S.field? d n) w [] (fun f => encVal S f w) = a' at h1 ⊢
    generalize ifPresent S (S.ext? d n) v [] (fun f => encVal S f v) = b at h3 ⊢
    generalize ifPresent S (S.ext? d n) w [] (fun f => encVal S f w) = b' at h3 ⊢
    generalize encSlots S d r = c at h2 ⊢
    generalize encSlots S d s = c' at h2 ⊢
    cases a <;> cases a' <;> cases b <;> cases b' <;> cases c <;> cases c' <;> simp_all
  | (n, .val v) :: r, _, .keep (b := s) t, d => by
    have h2 := JumbledS.enc (S := S) r s t d
    unfold SameLens at h2 ⊢
    simp only [encSlots]
    generalize encSlots S d r = c at h2 ⊢
    generalize encSlots S d s = c' at h2 ⊢
    generalize ifPresent S (S.field? d n) v [] (fun f => encVal S f v) = a
    generalize ifPresent S (S.ext? d n) v [] (fun f => encVal S f v) = b
    cases a <;> cases b <;> cases c <;> cases c' <;> simp_all
  | (n, .taken) :: r, _, .keep (b := s) t, d => by
    simp only [encSlots]; exact JumbledS.enc (S := S) r s t d
  | (n, .unknown u) :: r, _, .keep (b := s) t, d => by
    have h2 := JumbledS.enc (S := S) r s t d
    unfold SameLens at h2 ⊢
    simp only [encSlots]
    generalize encSlots S d r = c at h2 ⊢
    generalize encSlots S d s = c' at h2 ⊢
    cases c <;> cases c' <;> simp_all
end

/-! ### Content -/

theorem iterUnknown_jumbled : ∀ {a b : List (Nat × Slot)}, JumbledS a b → iterUnknown a = iterUnknown b
  | _, _, .nil => rfl
  | _, _, .val _ t => by simp only [iterUnknown, iterUnknown_jumbled t]
  | _, _, .keep (p := (n, s)) t => by cases s <;> simp only [iterUnknown, iterUnknown_jumbled t]

theorem JumbledS.getValue : ∀ {a b : List (Nat × Slot)}, JumbledS a b → ∀ n,
    (FieldSet.getValue a n = none ∧ FieldSet.getValue b n = none) ∨
    ∃ v w, FieldSet.getValue a n = some v ∧ FieldSet.getValue b n = some w ∧ Jumbled v w ∧ (n, .val v) ∈ a
  | _, _, .nil, n => .inl ⟨rfl, rfl⟩
  | _, _, .val (n := k) (v := v) (w := w) h t, n => by
    unfold FieldSet.getValue
    simp only [SMap.get?]
    by_cases hk : k = n
    · subst hk
      simp only [if_true]
      exact .inr ⟨v, w, rfl, rfl, h, List.mem_cons_self⟩
    · simp only [hk, if_false]
      rcases t.getValue n with h | ⟨v, w, h1, h2, h3, h4⟩
      · exact .inl h
      · exact .inr ⟨v, w, h1, h2, h3, List.mem_cons_of_mem _ h4⟩
  | _, _, .keep (p := (k, s)) t, n => by
    unfold FieldSet.getValue
    simp only [SMap.get?]
    by_cases hk : k = n
    · subst hk
      simp only [if_true]
      cases s with
      | val v => exact .inr ⟨v, v, rfl, rfl, .refl v, List.mem_cons_self⟩
      | taken => exact .inl ⟨rfl, rfl⟩
      | unknown u => exact .inl ⟨rfl, rfl⟩
    · simp only [hk, if_false]
      rcases t.getValue n with h | ⟨v, w, h1, h2, h3, h4⟩
      · exact .inl h
      · exact .inr ⟨v, w, h1, h2, h3, List.mem_cons_of_mem _ h4⟩

theorem get?_perm {a b : List (MapKey × Value)} (h : a.Perm b) (hd : KMap.distinct a = true) (k : MapKey) :
    KMap.get? a k = KMap.get? b k := by
  have hd' : KMap.distinct b = true := by
    rw [distinct_nodup] at hd ⊢
    exact (h.map _).nodup_iff.1 hd
  apply Option.ext
  intro v
  rw [get?_mem hd, get?_mem hd']
  exact h.mem_iff

mutual
/-- Another order of map entries is the same content, also after a round trip. -/
theorem Jumbled.same {S : Schema} (hS : S.wf = true) : (v : Value) → (v' : Value) → Jumbled v v' →
    ∀ f, confVal S f v' = true → SameV S v (canonVal S f v')
  | .msg d fs, _, .refl _, f, hc => sameV_canon hS _ f hc
  | .msg d fs, _, .msg (b := gs) h, f, hc => by
    obtain ⟨_, _, hc⟩ := confMsg_of_confVal hc
    obtain ⟨md, hC⟩ := confMsg_iff.1 hc
    have ih := JumbledS.same hS fs gs h
    simp only [canonVal]
    refine .msg (fun f hk => ?_) ?_ ((iterUnknown_jumbled h).trans (iterUnknown_canon gs).symm)
    · rw [has_canon hS hC hk]
      unfold FieldSet.has
      rcases h.getValue f.number with ⟨e1, e2⟩ | ⟨v, w, e1, e2, e3, -⟩
      · rw [e1, e2]
      · rw [e1, e2]; exact e3.hasVal S f
    intro g v w hk hh hv hw
    have hval : FieldSet.getValue fs g.number = some v := by
      unfold FieldSet.has at hh
      unfold FieldSet.get at hv
      cases hg : FieldSet.getValue fs g.number with
      | none => rw [hg] at hh; cases hh
      | some x => rw [hg] at hv; exact hv
    have hhv : hasVal S g v = some true := by
      unfold FieldSet.has at hh; rw [hval] at hh; exact hh
    obtain ⟨x, hx, hj, hsame⟩ := ih g.number v hval
    have hhx : hasVal S g x = some true := (hj.hasVal S g).symm.trans hhv
    unfold FieldSet.get at hw
    rw [getValue_canon hS hC hk, hx] at hw
    simp only [hhx, if_true, Option.some.injEq] at hw
    subst hw
    have hmem := (getValue_iff hC.sorted).1 hx
    exact hsame g ((known_conf hS hC hk).2 x (SMap.get?_of_mem hC.sorted hmem)).1
  | .list vs, _, .refl _, f, hc => sameV_canon hS _ f hc
  | .list vs, _, .list (b := ws) h, f, hc => by
    simp only [confVal, Bool.and_eq_true] at hc
    simp only [canonVal]
    refine .list (h.length.trans (canonVals_length ws).symm) ?_
    intro i v w hv hw
    exact JumbledL.same hS vs ws h f.elem hc.2 i v w hv hw
  | .map kvs, _, .refl _, f, hc => sameV_canon hS _ f hc
  | .map kvs, _, .map (b := b) (c := c) h hp, f, hc => by
    simp only [confVal, Bool.and_eq_true] at hc
    obtain ⟨hmap, hc⟩ := hc
    simp only [canonVal]
    cases hk : f.kind with
    | message i =>
      rw [hk] at hc
      simp only at hc ⊢
      cases hkv : S.mapKV i with
      | none => simp [hkv] at hc
      | some p =>
        obtain ⟨kd, vd⟩ := p
        rw [hkv] at hc
        simp only [Bool.and_eq_true] at hc
        simp only
        have ih := JumbledM.same hS kvs b h
        have hcb : confMap S kd vd b = true := (confMap_perm hp).trans hc.2
        have hdb : KMap.distinct b = true := by
          rw [distinct_nodup] at hc ⊢
          exact (hp.map _).nodup_iff.2 hc.1
        have hget := get?_perm hp hdb
        refine .map (fun k => ?_) ?_
        · rw [get?_canonMap, Option.isSome_map, ← hget]
          have e1 := get?_isSome kvs k
          have e2 := get?_isSome b k
          rw [h.keys] at e1
          cases h1 : (KMap.get? kvs k).isSome <;> cases h2 : (KMap.get? b k).isSome <;> simp_all
        intro k v w hv hw hne
        obtain ⟨x, hx, hj, hsame⟩ := ih k v hv
        rw [get?_canonMap, ← hget, hx] at hw
        simp only [Option.map_some, Option.some.injEq] at hw
        subst hw
        by_cases hh : hasVal S vd x = some true
        · rw [if_pos hh]
          exact hsame kd vd hcb
        · rw [if_neg hh]
          have hvd : FieldWf S vd := (wf_mapKV hS hkv)
          obtain ⟨w, hw, _⟩ := fieldDefault_conf hS hvd
          rw [if_neg hh, hw] at hne
          simp only at hne
          rw [Jumbled.beq v x hj, beq_default hh hw] at hne
          cases hne
    | _ => simp [hk] at hc
  | .bool _, _, .refl _, f, hc => sameV_canon hS _ f hc
  | .i32 _, _, .refl _, f, hc => sameV_canon hS _ f hc
  | .i64 _, _, .refl _, f, hc => sameV_canon hS _ f hc
  | .u32 _, _, .refl _, f, hc => sameV_canon hS _ f hc
  | .u64 _, _, .refl _, f, hc => sameV_canon hS _ f hc
  | .f32 _, _, .refl _, f, hc => sameV_canon hS _ f hc
  | .f64 _, _, .refl _, f, hc => sameV_canon hS _ f hc
  | .str _, _, .refl _, f, hc => sameV_canon hS _ f hc
  | .bytes _, _, .refl _, f, hc => sameV_canon hS _ f hc
  | .enum _, _, .refl _, f, hc => sameV_canon hS _ f hc
theorem JumbledL.same {S : Schema} (hS : S.wf = true) : (a : List Value) → (a' : List Value) → JumbledL a a' →
    ∀ f, confVals S f a' = true → ∀ (i : Nat) v w, a[i]? = some v → (canonVals S f a')[i]? = some w → SameV S v w
  | [], _, .nil, f, _, i, v, w, h, _ => by simp at h
  | v :: r, _, .cons (w := w) (b := s) h t, f, hc, i, x, y, hx, hy => by
    simp only [confVals, Bool.and_eq_true] at hc
    have ih := JumbledL.same hS r s t f hc.2
    have ih' := Jumbled.same hS v w h f hc.1
    cases i with
    | zero =>
      simp only [canonVals, List.getElem?_cons_zero, Option.some.injEq] at hx hy
      subst hx; subst hy; exact ih'
    | succ i =>
      simp only [canonVals, List.getElem?_cons_succ] at hx hy
      exact ih i x y hx hy
theorem JumbledM.same {S : Schema} (hS : S.wf = true) : (a : List (MapKey × Value)) → (a' : List (MapKey × Value)) →
    JumbledM a a' → ∀ k v, KMap.get? a k = some v → ∃ w, KMap.get? a' k = some w ∧ Jumbled v w ∧
      ∀ kd vd, confMap S kd vd a' = true → SameV S v (canonVal S vd w)
  | [], _, .nil, k, v, h => by simp [KMap.get?] at h
  | (j, x) :: r, _, .cons (w := y) (b := s) h t, k, v, hv => by
    have ih := JumbledM.same hS r s t k v
    have ih' := Jumbled.same hS x y h
    simp only [KMap.get?] at hv ⊢
    by_cases hj : j = k
    · simp only [hj, if_true, Option.some.injEq] at hv ⊢
      subst hv
      refine ⟨y, rfl, h, fun kd vd hc => ?_⟩
      simp only [confMap, Bool.and_eq_true] at hc
      exact ih' vd hc.1.2
    · simp only [hj, if_false] at hv ⊢
      obtain ⟨w, h1, h2, h3⟩ := ih hv
      refine ⟨w, h1, h2, fun kd vd hc => ?_⟩
      simp only [confMap, Bool.and_eq_true] at hc
      exact h3 kd vd hc.2
theorem JumbledS.same {S : Schema} (hS : S.wf = true) : (a : List (Nat × Slot)) → (a' : List (Nat × Slot)) →
    JumbledS a a' → ∀ n v, FieldSet.getValue a n = some v → ∃ w, FieldSet.getValue a' n = some w ∧ Jumbled v w ∧
      ∀ f, confVal S f w = true → SameV S v (canonVal S f w)
  | [], _, .nil, n, v, h => by simp [FieldSet.getValue, SMap.get?] at h
  | (j, .val x) :: r, _, .val (w := y) (b := s) h t, n, v, hv => by
    have ih := JumbledS.same hS r s t n v
    have ih' := Jumbled.same hS x y h
    unfold FieldSet.getValue at hv ih ⊢
    simp only [SMap.get?] at hv ⊢
    by_cases hj : j = n
    · simp only [hj, if_true, Option.some.injEq] at hv ⊢
      subst hv
      exact ⟨y, rfl, h, ih'⟩
    · simp only [hj, if_false] at hv ⊢
      exact ih hv
  | (j, .val x) :: r, _, .keep (b := s) t, n, v, hv => by
    have ih := JumbledS.same hS r s t n v
    have ih' := Jumbled.same hS x x (.refl x)
    unfold FieldSet.getValue at hv ih ⊢
    simp only [SMap.get?] at hv ⊢
    by_cases hj : j = n
    · simp only [hj, if_true, Option.some.injEq] at hv ⊢
      subst hv
      exact ⟨x, rfl, .refl x, ih'⟩
    · simp only [hj, if_false] at hv ⊢
      exact ih hv
  | (j, .taken) :: r, _, .keep (b := s) t, n, v, hv => by
    have ih := JumbledS.same hS r s t n v
    unfold FieldSet.getValue at hv ih ⊢
    simp only [SMap.get?] at hv ⊢
    by_cases hj : j = n
    · simp only [hj, if_true] at hv; cases hv
    · simp only [hj, if_false] at hv ⊢
      exact ih hv
  | (j, .unknown u) :: r, _, .keep (b := s) t, n, v, hv => by
    have ih := JumbledS.same hS r s t n v
    unfold FieldSet.getValue at hv ih ⊢
    simp only [SMap.get?] at hv ⊢
    by_cases hj : j = n
    · simp only [hj, if_true] at hv; cases hv
    · simp only [hj, if_false] at hv ⊢
      exact ih hv
end

theorem JumbledS.sameMsg {S : Schema} (hS : S.wf = true) {d : Nat} {a b : List (Nat × Slot)} (h : JumbledS a b)
    (hc : Dyn.confMsg S ⟨d, b⟩ = true) : SameMsg S ⟨d, a⟩ (canonMsg S ⟨d, b⟩) := by
  let f : FieldDesc := {
    number := 1, name := [], jsonName := [], kind := (.message d)
    card := .optional, group := false, presence := true, packed := false, default := none,
    oneof := none }
  have : confVal S f (.msg d b) = true := confVal_msg (m := ⟨d, b⟩) (by simp [f]) rfl hc
  have := Jumbled.same hS (.msg d a) (.msg d b) (.msg h) f this
  simpa only [SameMsg, DynMsg.toValue, canonMsg, canonVal] using this

/-! ### Orders of what was decoded -/

theorem perm_map_inv {α β : Type} {g : α → β} {b c : List β} (h : b.Perm c) : ∀ l : List α, l.map g = b →
    ∃ l', l.Perm l' ∧ l'.map g = c := by
  induction h with
  | nil =>
    intro l hl
    exact ⟨l, .refl l, hl⟩
  | cons p _ ih =>
    intro l hl
    cases l with
    | nil => simp at hl
    | cons x r =>
      simp only [List.map_cons, List.cons.injEq] at hl
      obtain ⟨r', h1, h2⟩ := ih r hl.2
      exact ⟨x :: r', h1.cons x, by simp only [List.map_cons, h2, hl.1]⟩
  | swap p q r =>
    intro l hl
    match l, hl with
    | x :: y :: t, hl =>
      simp only [List.map_cons, List.cons.injEq] at hl
      exact ⟨y :: x :: t, .swap _ _ _, by simp only [List.map_cons, hl.1, hl.2.1, hl.2.2]⟩
  | trans _ _ ih1 ih2 =>
    intro l hl
    obtain ⟨l1, h1, h2⟩ := ih1 l hl
    obtain ⟨l2, h3, h4⟩ := ih2 l1 h2
    exact ⟨l2, h1.trans h3, h4⟩

theorem canonMap_eq_map {S : Schema} {vd : FieldDesc} : ∀ kvs : List (MapKey × Value),
    canonMap S vd kvs = kvs.map (fun p => (p.1, if hasVal S vd p.2 = some true then canonVal S vd p.2
        else match fieldDefault S vd with
          | some w => w
          | none => p.2))
  | [] => rfl
  | (k, v) :: r => by 
    simp only [canonMap, List.map_cons, canonMap_eq_map r]
    cases fieldDefault S vd <;> rfl

/-- A value for which only `refl` applies. -/
def Value.leaf : Value → Prop
  | .msg .. | .list _ | .map _ => False
  | _ => True

theorem Jumbled.leaf {v w : Value} (h : Jumbled v w) (hv : v.leaf) : w = v := by
  cases h with
  | refl => rfl
  | _ => cases hv

theorem leaf_conf {S : Schema} {f : FieldDesc} {v : Value} (hc : confVal S f v = true) (hr : f.card ≠ .repeated)
    (hm : f.kind.isMessage = false) : v.leaf := by
  cases v with
  | msg d fs =>
    obtain ⟨-, h, -⟩ := confMsg_of_confVal hc
    rw [h] at hm; cases hm
  | list vs =>
    simp only [confVal, isList, Bool.and_eq_true, beq_iff_eq] at hc
    exact absurd hc.1.1 hr
  | map kvs =>
    simp only [confVal, isMap, Bool.and_eq_true, beq_iff_eq] at hc
    exact absurd hc.1.1 hr
  | _ => trivial

mutual
/-- Any order of the canonical form comes from an order of the value. -/
theorem Jumbled.lift {S : Schema} (hS : S.wf = true) : (v : Value) → (f : FieldDesc) → (w : Value) →
    confVal S f v = true → Jumbled (canonVal S f v) w → ∃ v', Jumbled v v' ∧ canonVal S f v' = w
  | .msg d fs, f, w, hc, h => by
    obtain ⟨-, -, hcm⟩ := confMsg_of_confVal hc
    simp only [Dyn.confMsg, Bool.and_eq_true] at hcm
    simp only [canonVal] at h
    cases h with
    | refl => exact ⟨.msg d fs, .refl _, by simp only [canonVal]⟩
    | msg h =>
      obtain ⟨gs, h1, h2⟩ := JumbledS.lift hS fs d _ hcm.2 h
      exact ⟨.msg d gs, .msg h1, by simp only [canonVal, h2]⟩
  | .list vs, f, w, hc, h => by
    simp only [confVal, Bool.and_eq_true] at hc
    simp only [canonVal] at h
    cases h with
    | refl => exact ⟨.list vs, .refl _, by simp only [canonVal]⟩
    | list h =>
      obtain ⟨ws, h1, h2⟩ := JumbledL.lift hS vs f.elem _ hc.2 h
      exact ⟨.list ws, .list h1, by simp only [canonVal, h2]⟩
  | .map kvs, f, w, hc, h => by
    simp only [confVal, Bool.and_eq_true] at hc
    obtain ⟨hmap, hc⟩ := hc
    have hi : ∃ i, f.kind = .message i := by
      unfold isMap at hmap
      cases hk : f.kind <;> simp [hk] at hmap ⊢
    obtain ⟨i, hk⟩ := hi
    have hmi : S.isMapEntry i = true := by
      unfold isMap at hmap
      simp only [hk, Bool.and_eq_true] at hmap
      exact hmap.2
    obtain ⟨kd, vd, hEn⟩ := Schema.wf_entry hS hmi
    simp only [hk, hEn.kv, Bool.and_eq_true] at hc
    simp only [canonVal, hk, hEn.kv] at h
    cases h with
    | refl => exact ⟨.map kvs, .refl _, by simp only [canonVal, hk, hEn.kv]⟩
    | map h hp =>
      obtain ⟨kws, h1, h2⟩ := JumbledM.lift hS kvs kd vd _ i hEn hc.2 h
      rw [← h2, canonMap_eq_map] at hp
      obtain ⟨kxs, h3, h4⟩ := perm_map_inv hp kws rfl
      exact ⟨.map kxs, .map h1 h3, by simp only [canonVal, hk, hEn.kv, canonMap_eq_map, h4]⟩
  | .bool x, f, w, hc, h => by
    simp only [canonVal] at h
    exact ⟨.bool x, .refl _, by simp only [canonVal]; exact (h.leaf trivial).symm⟩
  | .i32 x, f, w, hc, h => by
    simp only [canonVal] at h
    exact ⟨.i32 x, .refl _, by simp only [canonVal]; exact (h.leaf trivial).symm⟩
  | .i64 x, f, w, hc, h => by
    simp only [canonVal] at h
    exact ⟨.i64 x, .refl _, by simp only [canonVal]; exact (h.leaf trivial).symm⟩
  | .u32 x, f, w, hc, h => by
    simp only [canonVal] at h
    exact ⟨.u32 x, .refl _, by simp only [canonVal]; exact (h.leaf trivial).symm⟩
  | .u64 x, f, w, hc, h => by
    simp only [canonVal] at h
    exact ⟨.u64 x, .refl _, by simp only [canonVal]; exact (h.leaf trivial).symm⟩
  | .f32 x, f, w, hc, h => by
    simp only [canonVal] at h
    exact ⟨.f32 x, .refl _, by simp only [canonVal]; exact (h.leaf trivial).symm⟩
  | .f64 x, f, w, hc, h => by
    simp only [canonVal] at h
    exact ⟨.f64 x, .refl _, by simp only [canonVal]; exact (h.leaf trivial).symm⟩
  | .str x, f, w, hc, h => by
    simp only [canonVal] at h
    exact ⟨.str x, .refl _, by simp only [canonVal]; exact (h.leaf trivial).symm⟩
  | .bytes x, f, w, hc, h => by
    simp only [canonVal] at h
    exact ⟨.bytes x, .refl _, by simp only [canonVal]; exact (h.leaf trivial).symm⟩
  | .enum x, f, w, hc, h => by
    simp only [canonVal] at h
    exact ⟨.enum x, .refl _, by simp only [canonVal]; exact (h.leaf trivial).symm⟩
theorem JumbledL.lift {S : Schema} (hS : S.wf = true) : (a : List Value) → (f : FieldDesc) → (b : List Value) →
    confVals S f a = true → JumbledL (canonVals S f a) b → ∃ a', JumbledL a a' ∧ canonVals S f a' = b
  | [], f, b, _, h => by
    simp only [canonVals] at h
    cases h
    exact ⟨[], .nil, rfl⟩
  | v :: r, f, b, hc, h => by
    simp only [confVals, Bool.and_eq_true] at hc
    simp only [canonVals] at h
    cases h with
    | cons h t =>
      obtain ⟨v', h1, h2⟩ := Jumbled.lift hS v f _ hc.1 h
      obtain ⟨r', h3, h4⟩ := JumbledL.lift hS r f _ hc.2 t
      exact ⟨v' :: r', .cons h1 h3, by simp only [canonVals, h2, h4]⟩
theorem JumbledM.lift {S : Schema} (hS : S.wf = true) : (a : List (MapKey × Value)) → (kd vd : FieldDesc) →
    (b : List (MapKey × Value)) → (i : Nat) → EntryOk S i kd vd → confMap S kd vd a = true →
    JumbledM (canonMap S vd a) b → ∃ a', JumbledM a a' ∧ canonMap S vd a' = b
  | [], kd, vd, b, i, _, _, h => by
    simp only [canonMap] at h
    cases h
    exact ⟨[], .nil, rfl⟩
  | (k, v) :: r, kd, vd, b, i, hEn, hc, h => by
    simp only [confMap, Bool.and_eq_true] at hc
    simp only [canonMap] at h
    cases h with
    | @cons _ _ w _ s h t =>
      obtain ⟨r', h3, h4⟩ := JumbledM.lift hS r kd vd _ i hEn hc.2 t
      have ih := Jumbled.lift hS v vd w hc.1.2
      by_cases hh : hasVal S vd v = some true
      · simp only [hh, if_true] at h
        obtain ⟨v', h1, h2⟩ := ih h
        have hh' : hasVal S vd v' = some true := (h1.hasVal S vd).symm.trans hh
        exact ⟨(k, v') :: r', .cons h1 h3, by simp only [canonMap, hh', if_true, h2, h4]⟩
      · obtain ⟨dv, hdv, hcd⟩ := fieldDefault_conf hS hEn.val.1
        have hmk : vd.kind.isMessage = false := by
          cases hmk : vd.kind.isMessage with
          | false => rfl
          | true =>
            have := hEn.val.1.msg hEn.val.2.2 hmk
            exact absurd (by unfold Dyn.hasVal; rw [if_pos this]) hh
        simp only [hh, if_false, hdv] at h
        have := h.leaf (leaf_conf hcd hEn.val.2.2 hmk)
        subst this
        exact ⟨(k, v) :: r', .cons (.refl v) h3, by simp only [canonMap, hh, if_false, hdv, h4]⟩
theorem JumbledS.lift {S : Schema} (hS : S.wf = true) : (a : List (Nat × Slot)) → (d : Nat) →
    (b : List (Nat × Slot)) → confSlots S d a = true → JumbledS (canonSlots S d a) b →
    ∃ a', JumbledS a a' ∧ canonSlots S d a' = b
  | [], d, b, _, h => by
    simp only [canonSlots] at h
    cases h
    exact ⟨[], .nil, rfl⟩
  | (n, .taken) :: r, d, b, hc, h => by
    simp only [confSlots] at hc
    simp only [canonSlots] at h
    obtain ⟨r', h3, h4⟩ := JumbledS.lift hS r d _ hc h
    exact ⟨(n, .taken) :: r', .keep h3, by simp only [canonSlots, h4]⟩
  | (n, .unknown u) :: r, d, b, hc, h => by
    simp only [confSlots, Bool.and_eq_true] at hc
    simp only [canonSlots] at h
    cases h with
    | keep t =>
      obtain ⟨r', h3, h4⟩ := JumbledS.lift hS r d _ hc.2 t
      exact ⟨(n, .unknown u) :: r', .keep h3, by simp only [canonSlots, h4]⟩
  | (n, .val v) :: r, d, b, hc, h => by
    simp only [confSlots, Bool.and_eq_true] at hc
    have ihr := JumbledS.lift hS r d
    have ihv := Jumbled.lift hS v
    have hc1 := hc.1
    simp only [canonSlots] at h
    have drop : JumbledS (canonSlots S d r) b → (∀ r', canonSlots S d ((n, .val v) :: r') = canonSlots S d r') →
        ∃ a', JumbledS ((n, .val v) :: r) a' ∧ canonSlots S d a' = b := by
      intro t he
      obtain ⟨r', h3, h4⟩ := ihr _ hc.2 t
      exact ⟨(n, .val v) :: r', .keep h3, by rw [he, h4]⟩
    have keep : ∀ f, confVal S f v = true → JumbledS ((n, .val (canonVal S f v)) :: canonSlots S d r) b →
        (∀ v' r', Jumbled v v' → canonSlots S d ((n, .val v') :: r') = (n, .val (canonVal S f v')) :: canonSlots S d r') →
        ∃ a', JumbledS ((n, .val v) :: r) a' ∧ canonSlots S d a' = b := by
      intro f hcf t he
      cases t with
      | keep t =>
        obtain ⟨r', h3, h4⟩ := ihr _ hc.2 t
        exact ⟨(n, .val v) :: r', .keep h3, by rw [he v r' (.refl v), h4]⟩
      | val hj t =>
        obtain ⟨r', h3, h4⟩ := ihr _ hc.2 t
        obtain ⟨v', h1, h2⟩ := ihv f _ hcf hj
        exact ⟨(n, .val v') :: r', .val h1 h3, by rw [he v' r' h1, h2, h4]⟩
    cases hf : S.field? d n with
    | some f =>
      rw [hf] at hc1
      simp only [hf] at h
      by_cases hh : hasVal S f v = some true
      · simp only [hh, if_true] at h
        refine keep f hc1 h (fun v' r' hj => ?_)
        have hh' : hasVal S f v' = some true := (hj.hasVal S f).symm.trans hh
        simp only [canonSlots, hf, hh', if_true]
      · simp only [hh, if_false] at h
        exact drop h (fun r' => by simp only [canonSlots, hf, hh, if_false])
    | none =>
      rw [hf] at hc1
      simp only [hf] at h
      cases hx : S.ext? d n with
      | none => rw [hx] at hc1; cases hc1
      | some f =>
        rw [hx] at hc1
        simp only [hx] at h
        by_cases hh : hasVal S f v = some true
        · simp only [hh, if_true] at h
          refine keep f hc1 h (fun v' r' hj => ?_)
          have hh' : hasVal S f v' = some true := (hj.hasVal S f).symm.trans hh
          simp only [canonSlots, hf, hx, hh', if_true]
        · simp only [hh, if_false] at h
          exact drop h (fun r' => by simp only [canonSlots, hf, hx, hh, if_false])
end

end Verif.Dyn
