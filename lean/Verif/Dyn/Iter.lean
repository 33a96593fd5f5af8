import Verif.Dyn.FieldLemmas
/-!
Lemmas about the iterators of `dynamic/fields.rs`.
-/
set_option autoImplicit false
namespace Verif.Dyn
open Verif.Wire

/-! ### `fieldsByNumber` is the sorted table of the fields -/

theorem foldl_insert_sorted (l : List FieldDesc) : ∀ (acc : SMap FieldDesc),
    (∀ f ∈ l, 0 < f.number) → SMap.sorted acc = true →
    SMap.sorted (l.foldl (fun acc f => SMap.insert f.number f acc) acc) = true := by
  induction l with
  | nil => intro acc _ h; exact h
  | cons f r ih =>
    intro acc hp h
    exact ih _ (fun g hg => hp g (List.mem_cons_of_mem _ hg))
      (SMap.sorted_insert (hp f List.mem_cons_self) h)

theorem get?_foldl_insert (l : List FieldDesc) : ∀ (acc : SMap FieldDesc),
    (l.map (·.number)).Nodup → ∀ n,
    SMap.get? (l.foldl (fun acc f => SMap.insert f.number f acc) acc) n =
      (l.find? (fun f => f.number == n)).or (SMap.get? acc n) := by
  induction l with
  | nil => intro acc _ n; simp
  | cons f r ih =>
    intro acc hnd n
    simp only [List.map_cons, List.nodup_cons] at hnd
    simp only [List.foldl_cons, ih _ hnd.2, SMap.get?_insert, List.find?_cons]
    by_cases h : f.number = n
    · subst h
      have : r.find? (fun g => g.number == f.number) = none := by
        rw [List.find?_eq_none]
        intro g hg hc
        exact hnd.1 (List.mem_map.2 ⟨g, hg, by simpa using hc⟩)
      simp [this]
    · have : (f.number == n) = false := by simpa using h
      rw [this, if_neg (Ne.symm h)]

theorem get?_fieldsByNumber {md : MsgDesc} (hnd : (md.fields.map (·.number)).Nodup) (n : Nat) :
    SMap.get? md.fieldsByNumber n = md.getField n := by
  unfold MsgDesc.fieldsByNumber MsgDesc.getField
  rw [get?_foldl_insert _ _ hnd]
  simp [SMap.get?]

theorem sorted_fieldsByNumber {md : MsgDesc} (hp : ∀ f ∈ md.fields, 0 < f.number) :
    SMap.sorted md.fieldsByNumber = true := foldl_insert_sorted _ _ hp rfl

/-! ### The first half of `iter` is `iter_fields` -/

/-- `iterFields` with the descriptors looked up in a table. -/
def iterTable (S : Schema) (ds : SMap FieldDesc) : FieldSet → Option (List (FieldDesc × Value))
  | [] => some []
  | (n, .val v) :: r =>
    match SMap.get? ds n with
    | none => iterTable S ds r
    | some f =>
      match hasVal S f v, iterTable S ds r with
      | some true, some items => some ((f, v) :: items)
      | some false, some items => some items
      | _, _ => none
  | (_, .taken) :: r => iterTable S ds r
  | (_, .unknown _) :: r => iterTable S ds r

theorem iterFields_eq_table {S : Schema} {md : MsgDesc} {ds : SMap FieldDesc}
    (h : ∀ n, SMap.get? ds n = md.getField n) : ∀ fs : FieldSet,
    iterFields S md fs = iterTable S ds fs
  | [] => rfl
  | (n, .val v) :: r => by
    simp only [iterFields, iterTable, h n, iterFields_eq_table h r]
    cases md.getField n with
    | none => rfl
    | some f => cases hasVal S f v with
      | none => rfl
      | some b => cases b <;> cases iterTable S ds r <;> rfl
  | (n, .taken) :: r => by simp only [iterFields, iterTable, iterFields_eq_table h r]
  | (n, .unknown u) :: r => by simp only [iterFields, iterTable, iterFields_eq_table h r]

theorem iterTable_skip {S : Schema} {n : Nat} {f : FieldDesc} {ds : SMap FieldDesc} :
    ∀ (fs : FieldSet), SMap.sortedFrom n fs = true →
      iterTable S ((n, f) :: ds) fs = iterTable S ds fs
  | [], _ => rfl
  | (k, s) :: r, h => by
    simp only [SMap.sortedFrom, Bool.and_eq_true, decide_eq_true_eq] at h
    have ih := iterTable_skip (S := S) (f := f) (ds := ds) r (SMap.sortedFrom_mono (Nat.le_of_lt h.1) h.2)
    have : SMap.get? ((n, f) :: ds) k = SMap.get? ds k := by simp [SMap.get?]; omega
    cases s with
    | taken => simp only [iterTable, ih]
    | unknown u => simp only [iterTable, ih]
    | val v => simp only [iterTable, this, ih]

theorem getValue_skip {fs : FieldSet} {k n : Nat} {s : Slot} (h : k ≠ n) :
    FieldSet.getValue ((k, s) :: fs) n = FieldSet.getValue fs n := by
  simp [FieldSet.getValue, SMap.get?, h]

theorem iterFieldPart_skip {S : Schema} {k : Nat} {s : Slot} {fs : FieldSet} :
    ∀ (ds : SMap FieldDesc), SMap.sortedFrom k ds = true → (∀ p ∈ ds, p.2.number = p.1) →
      iterFieldPart S false ((k, s) :: fs) ds = iterFieldPart S false fs ds
  | [], _, _ => rfl
  | (n, f) :: r, h, hn => by
    simp only [SMap.sortedFrom, Bool.and_eq_true, decide_eq_true_eq] at h
    have hf : f.number = n := hn (n, f) List.mem_cons_self
    have hne : k ≠ f.number := by omega
    have ih := iterFieldPart_skip (S := S) (s := s) (fs := fs) r
      (SMap.sortedFrom_mono (Nat.le_of_lt h.1) h.2) (fun p hp => hn p (List.mem_cons_of_mem _ hp))
    simp only [iterFieldPart, FieldSet.has, FieldSet.get, getValue_skip hne, ih]

theorem iterFieldPart_eq {S : Schema} : ∀ (k : Nat) (ds : SMap FieldDesc) (fs : FieldSet) (lo : Nat),
    ds.length + fs.length ≤ k → SMap.sortedFrom lo ds = true → SMap.sortedFrom lo fs = true →
    (∀ p ∈ ds, p.2.number = p.1) →
    iterFieldPart S false fs ds = (iterTable S ds fs).map (List.map (fun p => Item.field p.1 p.2)) := by
  intro k
  induction k with
  | zero =>
    intro ds fs lo hk _ _ _
    have h1 : ds = [] := List.length_eq_zero_iff.1 (by omega)
    have h2 : fs = [] := List.length_eq_zero_iff.1 (by omega)
    subst h1; subst h2; rfl
  | succ k ih =>
    intro ds fs lo hk hds hfs hn
    match ds, fs with
    | [], fs =>
      have : ∀ fs : FieldSet, iterTable S [] fs = some [] := by
        intro fs
        induction fs with
        | nil => rfl
        | cons p r ih => obtain ⟨n, s⟩ := p; cases s <;> simp [iterTable, ih, SMap.get?]
      simp [iterFieldPart, this]
    | (n, f) :: ds', [] =>
      have hf : f.number = n := hn (n, f) List.mem_cons_self
      simp only [SMap.sortedFrom, Bool.and_eq_true, decide_eq_true_eq] at hds
      have h := ih ds' [] n (by simp only [List.length_cons, List.length_nil] at hk ⊢; omega)
        hds.2 rfl (fun p hp => hn p (List.mem_cons_of_mem _ hp))
      simp [iterFieldPart, FieldSet.has, FieldSet.getValue, SMap.get?, h, iterTable]
    | (n, f) :: ds', (m, s) :: fs' =>
      have hf : f.number = n := hn (n, f) List.mem_cons_self
      have hn' : ∀ p ∈ ds', p.2.number = p.1 := fun p hp => hn p (List.mem_cons_of_mem _ hp)
      simp only [List.length_cons] at hk
      have hds0 := hds
      have hfs0 := hfs
      simp only [SMap.sortedFrom, Bool.and_eq_true, decide_eq_true_eq] at hds hfs
      rcases Nat.lt_trichotomy n m with hlt | heq | hgt
      · have hsf : SMap.sortedFrom n ((m, s) :: fs') = true := by
          simp only [SMap.sortedFrom, Bool.and_eq_true, decide_eq_true_eq]; exact ⟨hlt, hfs.2⟩
        rw [iterTable_skip _ hsf]
        have hnone : FieldSet.getValue ((m, s) :: fs') f.number = none := by
          unfold FieldSet.getValue
          rw [hf, SMap.get?_eq_none_of_le hsf (Nat.le_refl n)]
        have h := ih ds' ((m, s) :: fs') n (by simp only [List.length_cons]; omega) hds.2 hsf hn'
        rw [← h]
        simp only [iterFieldPart, FieldSet.has, hnone]
        cases iterFieldPart S false ((m, s) :: fs') ds' <;> simp
      · subst heq
        have h := ih ds' fs' n (by omega) hds.2 hfs.2 hn'
        have hskip := iterFieldPart_skip (S := S) (s := s) (fs := fs') ds' hds.2 hn'
        have htab := iterTable_skip (S := S) (f := f) (ds := ds') fs' hfs.2
        have hget : SMap.get? ((n, f) :: ds') n = some f := by simp [SMap.get?]
        cases s with
        | taken =>
          simp only [iterFieldPart, FieldSet.has, FieldSet.getValue, hf, SMap.get?, if_true, hskip, h,
            iterTable, htab]
          cases iterTable S ds' fs' <;> simp
        | unknown u =>
          simp only [iterFieldPart, FieldSet.has, FieldSet.getValue, hf, SMap.get?, if_true, hskip, h,
            iterTable, htab]
          cases iterTable S ds' fs' <;> simp
        | val v =>
          simp only [iterFieldPart, FieldSet.has, FieldSet.get, FieldSet.getValue, hf, SMap.get?,
            if_true, hskip, h, iterTable, htab]
          cases hasVal S f v with
          | none => rfl
          | some b => cases b <;> cases iterTable S ds' fs' <;> simp
      · have hsd : SMap.sortedFrom m ((n, f) :: ds') = true := by
          simp only [SMap.sortedFrom, Bool.and_eq_true, decide_eq_true_eq]; exact ⟨hgt, hds.2⟩
        rw [iterFieldPart_skip _ hsd hn]
        have h := ih ((n, f) :: ds') fs' m (by simp only [List.length_cons]; omega) hsd hfs.2 hn
        rw [h]
        have hget : SMap.get? ((n, f) :: ds') m = none := SMap.get?_eq_none_of_le hsd (Nat.le_refl m)
        cases s with
        | taken => simp only [iterTable]
        | unknown u => simp only [iterTable]
        | val v => simp only [iterTable, hget]

theorem mem_fieldsByNumber {md : MsgDesc} : ∀ p ∈ md.fieldsByNumber, p.2.number = p.1 := by
  have : ∀ (l : List FieldDesc) (acc : SMap FieldDesc), (∀ p ∈ acc, p.2.number = p.1) →
      ∀ p ∈ l.foldl (fun acc f => SMap.insert f.number f acc) acc, p.2.number = p.1 := by
    intro l
    induction l with
    | nil => intro acc h; exact h
    | cons f r ih =>
      intro acc h
      refine ih _ ?_
      intro p hp
      rcases SMap.mem_insert hp with rfl | hp
      · rfl
      · exact h p hp
  exact this md.fields [] (fun p hp => by cases hp)

/-- Number rules of a message descriptor (established by the builder, C25). -/
structure NumsOk (md : MsgDesc) : Prop where
  nodup : (md.fields.map (·.number)).Nodup
  pos : ∀ f ∈ md.fields, 0 < f.number

theorem iterFieldPart_iterFields {S : Schema} {md : MsgDesc} (h : NumsOk md) {fs : FieldSet}
    (hs : SMap.sorted fs = true) :
    iterFieldPart S false fs md.fieldsByNumber =
      (iterFields S md fs).map (List.map (fun p => Item.field p.1 p.2)) := by
  rw [iterFields_eq_table (get?_fieldsByNumber h.nodup)]
  exact iterFieldPart_eq _ _ _ 0 (Nat.le_refl _) (sorted_fieldsByNumber h.pos) hs mem_fieldsByNumber

/-! ### Encoding is encoding of the iterated items -/

/-- What `encode_raw` does with one item (message.rs:23-31). -/
def encItem (S : Schema) : Item → Option Bytes
  | .field f v => encVal S f v
  | .ext f v => encVal S f v
  | .unknown u => some (encUSet u)

/-- The loop of `encode_raw` (message.rs:22-32). -/
def encItems (S : Schema) : List Item → Option Bytes
  | [] => some []
  | i :: r =>
    match encItem S i, encItems S r with
    | some a, some b => some (a ++ b)
    | _, _ => none

/-- What `encoded_len` does with one item (message.rs:66-74). -/
def lenItem (S : Schema) : Item → Option Nat
  | .field f v => lenVal S f v
  | .ext f v => lenVal S f v
  | .unknown u => some (lenUSet u)

/-- The sum of `encoded_len` (message.rs:62-76). -/
def lenItems (S : Schema) : List Item → Option Nat
  | [] => some 0
  | i :: r =>
    match lenItem S i, lenItems S r with
    | some a, some b => some (a + b)
    | _, _ => none

theorem encItems_append {S : Schema} (a b : List Item) :
    encItems S (a ++ b) =
      match encItems S a, encItems S b with
      | some x, some y => some (x ++ y)
      | _, _ => none := by
  induction a with
  | nil => simp only [List.nil_append, encItems]; cases encItems S b <;> rfl
  | cons i r ih =>
    simp only [List.cons_append, encItems, ih]
    cases encItem S i <;> cases encItems S r <;> cases encItems S b <;> simp

theorem lenItems_append {S : Schema} (a b : List Item) :
    lenItems S (a ++ b) =
      match lenItems S a, lenItems S b with
      | some x, some y => some (x + y)
      | _, _ => none := by
  induction a with
  | nil => simp only [List.nil_append, lenItems]; cases lenItems S b <;> simp
  | cons i r ih =>
    simp only [List.cons_append, lenItems, ih]
    cases lenItem S i <;> cases lenItems S r <;> cases lenItems S b <;> simp [Nat.add_assoc]

/-- The items of the declared fields. -/
def fieldItems (l : List (FieldDesc × Value)) : List Item := l.map (fun p => Item.field p.1 p.2)

theorem encSlots_iter {S : Schema} {d : Nat} {md : MsgDesc} (hm : S.msg? d = some md) :
    ∀ fs : FieldSet, encSlots S d fs =
      match iterFields S md fs, iterExtPart S md fs with
      | some a, some b =>
        match encItems S (fieldItems a), encItems S b with
        | some x, some y => some (x, y)
        | _, _ => none
      | _, _ => none
  | [] => by simp [encSlots, iterFields, iterExtPart, fieldItems, encItems]
  | (n, .taken) :: r => by
    simp only [encSlots, iterFields, iterExtPart, encSlots_iter hm r]
  | (n, .unknown u) :: r => by
    simp only [encSlots, iterFields, iterExtPart, encSlots_iter hm r]
    cases iterFields S md r with
    | none => rfl
    | some a => cases iterExtPart S md r with
      | none => rfl
      | some b =>
        simp only [Option.map_some, encItems, encItem]
        cases encItems S (fieldItems a) <;> cases encItems S b <;> rfl
  | (n, .val v) :: r => by
    simp only [encSlots, iterFields, iterExtPart, encSlots_iter hm r, field?_eq hm, ext?_eq hm]
    cases md.getField n with
    | none =>
      cases md.getExtension n with
      | none =>
        simp only [ifPresent]
        cases iterFields S md r with
        | none => rfl
        | some a => cases iterExtPart S md r with
          | none => rfl
          | some b =>
            simp only
            cases encItems S (fieldItems a) <;> cases encItems S b <;> simp
      | some g =>
        simp only [ifPresent]
        cases hasVal S g v with
        | none => cases iterFields S md r <;> rfl
        | some t =>
          cases t with
          | false =>
            cases iterFields S md r with
            | none => cases iterExtPart S md r <;> rfl
            | some a => cases iterExtPart S md r with
              | none => rfl
              | some b =>
                simp only
                cases encItems S (fieldItems a) <;> cases encItems S b <;> simp
          | true =>
            cases iterFields S md r with
            | none => simp only; cases encVal S g v <;> cases iterExtPart S md r <;> rfl
            | some a => cases iterExtPart S md r with
              | none => simp only; cases encVal S g v <;> rfl
              | some b =>
                simp only [encItems, encItem]
                cases encVal S g v <;> cases encItems S (fieldItems a) <;> cases encItems S b <;> simp
    | some f =>
      cases md.getExtension n with
      | none =>
        simp only [ifPresent]
        cases hasVal S f v with
        | none => cases iterFields S md r <;> rfl
        | some t =>
          cases t with
          | false =>
            cases iterFields S md r with
            | none => cases iterExtPart S md r <;> rfl
            | some a => cases iterExtPart S md r with
              | none => rfl
              | some b =>
                simp only
                cases encItems S (fieldItems a) <;> cases encItems S b <;> simp
          | true =>
            cases iterFields S md r with
            | none => simp only; cases encVal S f v <;> cases iterExtPart S md r <;> rfl
            | some a => cases iterExtPart S md r with
              | none => simp only; cases encVal S f v <;> rfl
              | some b =>
                simp only [encItems, encItem, fieldItems, List.map_cons]
                cases encVal S f v <;>
                  cases encItems S (a.map (fun p => Item.field p.1 p.2)) <;>
                  cases encItems S b <;> simp
      | some g =>
        simp only [ifPresent]
        cases hasVal S f v with
        | none => cases iterFields S md r <;> rfl
        | some t =>
          cases hasVal S g v with
          | none =>
            cases t <;> simp only <;> cases iterFields S md r <;> cases encVal S f v <;> rfl
          | some t' =>
            cases iterFields S md r with
            | none =>
              cases t <;> cases t' <;> simp only <;> cases encVal S f v <;> cases encVal S g v <;>
                cases iterExtPart S md r <;> rfl
            | some a => cases iterExtPart S md r with
              | none =>
                cases t <;> cases t' <;> simp only <;> cases encVal S f v <;> cases encVal S g v <;> rfl
              | some b =>
                cases t <;> cases t' <;>
                  simp only [encItems, encItem, fieldItems, List.map_cons] <;>
                  cases encVal S f v <;> cases encVal S g v <;>
                  cases encItems S (a.map (fun p => Item.field p.1 p.2)) <;>
                  cases encItems S b <;> simp

/-- `encode_raw` writes the items of `iter` in order. -/
theorem encMsg_eq_iter {S : Schema} {m : DynMsg} {md : MsgDesc} (hm : S.msg? m.desc = some md)
    (h : NumsOk md) (hs : SMap.sorted m.fields = true) :
    encMsg S m = (iter S md false m.fields).bind (encItems S) := by
  unfold encMsg iter
  rw [encSlots_iter hm, iterFieldPart_iterFields h hs]
  cases iterFields S md m.fields with
  | none => rfl
  | some a => cases iterExtPart S md m.fields with
    | none => rfl
    | some b =>
      simp only [Option.map_some, Option.bind_some, encItems_append, fieldItems]
      cases encItems S (a.map (fun p => Item.field p.1 p.2)) <;> cases encItems S b <;> rfl

theorem lenSlots_iter {S : Schema} {d : Nat} {md : MsgDesc} (hm : S.msg? d = some md) :
    ∀ fs : FieldSet, lenSlots S d fs =
      match iterFields S md fs, iterExtPart S md fs with
      | some a, some b =>
        match lenItems S (fieldItems a), lenItems S b with
        | some x, some y => some (x + y)
        | _, _ => none
      | _, _ => none
  | [] => by simp [lenSlots, iterFields, iterExtPart, fieldItems, lenItems]
  | (n, .taken) :: r => by
    simp only [lenSlots, iterFields, iterExtPart, lenSlots_iter hm r]
  | (n, .unknown u) :: r => by
    simp only [lenSlots, iterFields, iterExtPart, lenSlots_iter hm r]
    cases iterFields S md r with
    | none => rfl
    | some a => cases iterExtPart S md r with
      | none => rfl
      | some b =>
        simp only [Option.map_some, lenItems, lenItem]
        cases lenItems S (fieldItems a) <;> cases lenItems S b <;> simp <;> omega
  | (n, .val v) :: r => by
    simp only [lenSlots, iterFields, iterExtPart, lenSlots_iter hm r, field?_eq hm, ext?_eq hm]
    cases md.getField n with
    | none =>
      cases md.getExtension n with
      | none =>
        simp only [ifPresent]
        cases iterFields S md r with
        | none => rfl
        | some a => cases iterExtPart S md r with
          | none => rfl
          | some b =>
            simp only
            cases lenItems S (fieldItems a) <;> cases lenItems S b <;> simp <;> omega
      | some g =>
        simp only [ifPresent]
        cases hasVal S g v with
        | none => cases iterFields S md r <;> rfl
        | some t =>
          cases t with
          | false =>
            cases iterFields S md r with
            | none => cases iterExtPart S md r <;> rfl
            | some a => cases iterExtPart S md r with
              | none => rfl
              | some b =>
                simp only
                cases lenItems S (fieldItems a) <;> cases lenItems S b <;> simp <;> omega
          | true =>
            cases iterFields S md r with
            | none => simp only; cases lenVal S g v <;> cases iterExtPart S md r <;> rfl
            | some a => cases iterExtPart S md r with
              | none => simp only; cases lenVal S g v <;> rfl
              | some b =>
                simp only [lenItems, lenItem]
                cases lenVal S g v <;> cases lenItems S (fieldItems a) <;> cases lenItems S b <;> simp <;> omega
    | some f =>
      cases md.getExtension n with
      | none =>
        simp only [ifPresent]
        cases hasVal S f v with
        | none => cases iterFields S md r <;> rfl
        | some t =>
          cases t with
          | false =>
            cases iterFields S md r with
            | none => cases iterExtPart S md r <;> rfl
            | some a => cases iterExtPart S md r with
              | none => rfl
              | some b =>
                simp only
                cases lenItems S (fieldItems a) <;> cases lenItems S b <;> simp <;> omega
          | true =>
            cases iterFields S md r with
            | none => simp only; cases lenVal S f v <;> cases iterExtPart S md r <;> rfl
            | some a => cases iterExtPart S md r with
              | none => simp only; cases lenVal S f v <;> rfl
              | some b =>
                simp only [lenItems, lenItem, fieldItems, List.map_cons]
                cases lenVal S f v <;>
                  cases lenItems S (a.map (fun p => Item.field p.1 p.2)) <;>
                  cases lenItems S b <;> simp <;> omega
      | some g =>
        simp only [ifPresent]
        cases hasVal S f v with
        | none => cases iterFields S md r <;> rfl
        | some t =>
          cases hasVal S g v with
          | none =>
            cases t <;> simp only <;> cases iterFields S md r <;> cases lenVal S f v <;> rfl
          | some t' =>
            cases iterFields S md r with
            | none =>
              cases t <;> cases t' <;> simp only <;> cases lenVal S f v <;> cases lenVal S g v <;>
                cases iterExtPart S md r <;> rfl
            | some a => cases iterExtPart S md r with
              | none =>
                cases t <;> cases t' <;> simp only <;> cases lenVal S f v <;> cases lenVal S g v <;> rfl
              | some b =>
                cases t <;> cases t' <;>
                  simp only [lenItems, lenItem, fieldItems, List.map_cons] <;>
                  cases lenVal S f v <;> cases lenVal S g v <;>
                  cases lenItems S (a.map (fun p => Item.field p.1 p.2)) <;>
                  cases lenItems S b <;> simp <;> omega


/-- `encoded_len` sums over the items of `iter`. -/
theorem lenMsg_eq_iter {S : Schema} {m : DynMsg} {md : MsgDesc} (hm : S.msg? m.desc = some md)
    (h : NumsOk md) (hs : SMap.sorted m.fields = true) :
    lenMsg S m = (iter S md false m.fields).bind (lenItems S) := by
  unfold lenMsg iter
  rw [lenSlots_iter hm, iterFieldPart_iterFields h hs]
  cases iterFields S md m.fields with
  | none => rfl
  | some a => cases iterExtPart S md m.fields with
    | none => rfl
    | some b =>
      simp only [Option.map_some, Option.bind_some, lenItems_append, fieldItems]

end Verif.Dyn
