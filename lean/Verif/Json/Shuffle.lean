import Verif.Json.Object
/-!
The order of the entries of a JSON object.
-/
set_option autoImplicit false
namespace Verif.Json
open Verif.Wire Verif.Dyn Verif.Pool
open Verif.Text (anyHas oneofMembers anyHas_false)

section
variable {S : Schema} {o : DOpts} {md : MsgDesc} {val : FieldDesc → Json → Except JErr (Option Value)}

/-- The field or extension a key names (de/kind.rs:563-600): the lookups of `deEntry`. -/
def keyNames (md : MsgDesc) (key : Name) : Option FieldDesc :=
  match keyField md key with
  | some f => some f
  | none => keyExt md key

theorem anyHas_of {fs : FieldSet} {l : List FieldDesc} (h : ∀ f ∈ l, FieldSet.has S fs f = some false) :
    anyHas S fs l = some false := by
  induction l with
  | nil => rfl
  | cons a r ih =>
    unfold anyHas
    rw [h a List.mem_cons_self]
    exact ih fun f hf => h f (List.mem_cons_of_mem _ hf)

/-- An entry leaves every message as it is, or sets one field, whatever the message. -/
theorem deEntry_form {d : Nat} (hw : MsgWf S d md) {m m' : DynMsg} {key : Name} {j : Json}
    (h : deEntry S o val md m key j = .ok m') :
    (m' = m ∧ ∀ x, deEntry S o val md x key j = .ok x) ∨
    ∃ f v, keyNames md key = some f ∧ (f ∈ md.fields ∨ f ∈ md.extensions) ∧
      m' = ⟨m.desc, FieldSet.set (siblings md f) m.fields f v⟩ ∧ anyHas S m.fields (oneofMembers md f) = some false ∧
      ∀ x, anyHas S x.fields (oneofMembers md f) = some false →
        deEntry S o val md x key j = .ok ⟨x.desc, FieldSet.set (siblings md f) x.fields f v⟩ := by
  unfold deEntry at h
  cases hf : keyField md key with
  | some f =>
    simp only [hf] at h
    cases hv : deOpt S val f j with
    | error e => simp only [hv] at h; cases h
    | ok w =>
      cases w with
      | none =>
        simp only [hv] at h; cases h
        exact .inl ⟨rfl, fun x => by unfold deEntry; simp only [hf, hv]⟩
      | some v =>
        simp only [hv] at h
        cases ha : anyHas S m.fields (oneofMembers md f) with
        | none => simp only [ha] at h; cases h
        | some b =>
          cases b with
          | true => simp only [ha] at h; cases h
          | false =>
            simp only [ha] at h
            cases hval : validFor S f v with
            | none => simp only [DynMsg.setField, DynMsg.trySetField, hval] at h; cases h
            | some c =>
              cases c with
              | false => simp only [DynMsg.setField, DynMsg.trySetField, hval] at h; cases h
              | true =>
                simp only [DynMsg.setField, DynMsg.trySetField, hval] at h; cases h
                refine .inr ⟨f, v, by simp [keyNames, hf], .inl (keyField_mem hf), rfl, ha, fun x hx => ?_⟩
                unfold deEntry
                simp only [hf, hv, hx, DynMsg.setField, DynMsg.trySetField, hval]
  | none =>
    simp only [hf] at h
    cases hx : keyExt md key with
    | none =>
      simp only [hx] at h
      cases ho : o.deny with
      | true => simp [ho] at h
      | false =>
        simp [ho] at h; cases h
        exact .inl ⟨rfl, fun x => by unfold deEntry; simp [hf, hx, ho]⟩
    | some f =>
      simp only [hx] at h
      cases hv : deOpt S val f j with
      | error e => simp only [hv] at h; cases h
      | ok w =>
        cases w with
        | none =>
          simp only [hv] at h; cases h
          exact .inl ⟨rfl, fun x => by unfold deEntry; simp only [hf, hx, hv]⟩
        | some v =>
          simp only [hv] at h; cases h
          have hn := (hw.extNew f (keyExt_mem hx)).2
          refine .inr ⟨f, v, by simp [keyNames, hf, hx], .inr (keyExt_mem hx), ?_, ?_, fun x _ => ?_⟩
          · simp [DynMsg.setExt, siblings, hn]
          · simp [oneofMembers, hn, anyHas]
          · unfold deEntry
            simp [hf, hx, hv, DynMsg.setExt, siblings, hn]

/-- Two fields with different numbers that are not in one oneof. -/
structure Afar (f g : FieldDesc) : Prop where
  num : f.number ≠ g.number
  one : ∀ i, f.oneof = some i → g.oneof ≠ some i

theorem Afar.symm {f g : FieldDesc} (h : Afar f g) : Afar g f :=
  ⟨fun e => h.num e.symm, fun i a b => h.one i b a⟩

theorem same_of_number {d : Nat} (hw : MsgWf S d md) {f x : FieldDesc} (hf : f ∈ md.fields ∨ f ∈ md.extensions)
    (hx : x ∈ md.fields) (h : x.number = f.number) : x = f := by
  have h2 := getField_of_mem hw.nodup hx
  rcases hf with hf | hf
  · have h1 := getField_of_mem hw.nodup hf
    rw [← h, h2] at h1
    cases h1; rfl
  · have h1 := (hw.extNew f hf).1
    rw [← h, h2] at h1
    cases h1

theorem Afar.siblings {d : Nat} (hw : MsgWf S d md) {f g : FieldDesc} (hg : g ∈ md.fields ∨ g ∈ md.extensions)
    (h : Afar f g) : g.number ∉ siblings md f := by
  intro hm
  unfold Dyn.siblings at hm
  split at hm
  · cases hm
  · next i hi =>
    obtain ⟨x, hx, hn⟩ := List.mem_map.1 hm
    obtain ⟨hx, hc⟩ := List.mem_filter.1 hx
    have := same_of_number hw hg hx hn
    subst this
    simp at hc
    exact h.one i hi hc.1

theorem mem_oneofMembers {g x : FieldDesc} (h : x ∈ oneofMembers md g) :
    ∃ i, g.oneof = some i ∧ x.oneof = some i ∧ x ∈ md.fields := by
  unfold oneofMembers at h
  split at h
  · cases h
  · next i hi =>
    obtain ⟨hx, hc⟩ := List.mem_filter.1 h
    exact ⟨i, hi, by simpa using hc, hx⟩

/-- Setting a field does not touch the members of other oneofs. -/
theorem has_set {d : Nat} (hw : MsgWf S d md) {f g : FieldDesc} (hf : f ∈ md.fields ∨ f ∈ md.extensions)
    (h : Afar f g) {fs : FieldSet} (hs : SMap.sorted fs = true) (v : Value) {x : FieldDesc}
    (hx : x ∈ oneofMembers md g) :
    FieldSet.has S (FieldSet.set (siblings md f) fs f v) x = FieldSet.has S fs x := by
  obtain ⟨i, hg, hxo, hxm⟩ := mem_oneofMembers hx
  have h' : Afar f x := by
    refine ⟨fun e => ?_, fun k a b => ?_⟩
    · have := same_of_number hw hf hxm e.symm
      subst this
      exact h.one i hxo hg
    · rw [hxo] at b; cases b
      exact h.one i a hg
  unfold FieldSet.has FieldSet.getValue FieldSet.set
  rw [SMap.get?_insert, if_neg (Ne.symm h'.num), get?_clearAll _ _ hs, if_neg (h'.siblings hw (.inl hxm))]

theorem anyHas_set {d : Nat} (hw : MsgWf S d md) {f g : FieldDesc} (hf : f ∈ md.fields ∨ f ∈ md.extensions)
    (h : Afar f g) {fs : FieldSet} (hs : SMap.sorted fs = true) (v : Value) :
    anyHas S (FieldSet.set (siblings md f) fs f v) (oneofMembers md g) = some false ↔
    anyHas S fs (oneofMembers md g) = some false := by
  constructor
  · intro a
    exact anyHas_of fun x hx => by rw [← has_set hw hf h hs v hx]; exact anyHas_false a x hx
  · intro a
    exact anyHas_of fun x hx => by rw [has_set hw hf h hs v hx]; exact anyHas_false a x hx

/-- Two entries that name different fields can be swapped. -/
theorem deEntry_swap {d : Nat} (hw : MsgWf S d md) {m m1 m2 : DynMsg} (hs : SMap.sorted m.fields = true)
    {k k' : Name} {j j' : Json} (h1 : deEntry S o val md m k j = .ok m1) (h2 : deEntry S o val md m1 k' j' = .ok m2)
    (hk : ∀ f g, keyNames md k = some f → keyNames md k' = some g → f.number ≠ g.number) :
    ∃ m3, deEntry S o val md m k' j' = .ok m3 ∧ deEntry S o val md m3 k j = .ok m2 := by
  rcases deEntry_form hw h1 with ⟨rfl, a⟩ | ⟨f, v, hf, hfm, rfl, ha, a⟩
  · exact ⟨m2, h2, a m2⟩
  · rcases deEntry_form hw h2 with ⟨rfl, b⟩ | ⟨g, w, hg, hgm, rfl, hb, b⟩
    · exact ⟨m, b m, a m ha⟩
    · have af : Afar f g := by
        refine ⟨hk f g hf hg, fun i x y => ?_⟩
        rcases hfm with hfm | hfm
        · have hp : f.presence = true := by
            rcases (hw.fields f hfm).oneof with h | h
            · rw [x] at h; cases h
            · exact h
          have := anyHas_false hb f (by
            unfold oneofMembers
            rw [y]
            exact List.mem_filter.2 ⟨hfm, by simp [x]⟩)
          simp [FieldSet.has, FieldSet.getValue, FieldSet.set, SMap.get?_insert, hasVal, hp] at this
        · rw [(hw.extNew f hfm).2] at x; cases x
      have hb' := (anyHas_set hw hfm af hs v).1 hb
      refine ⟨_, b m hb', ?_⟩
      rw [a _ ((anyHas_set hw hgm af.symm hs w).2 ha)]
      have n1 : 0 < f.number := hfm.elim (fun h => (hw.fields f h).num.1) (fun h => (hw.exts f h).num.1)
      have n2 : 0 < g.number := hgm.elim (fun h => (hw.fields g h).num.1) (fun h => (hw.exts g h).num.1)
      have a1 := SMap.sorted_insert (a := Slot.val v) n1 (sorted_clearAll (siblings md f) _ hs)
      have a2 := SMap.sorted_insert (a := Slot.val w) n2 (sorted_clearAll (siblings md g) _ hs)
      congr 2
      unfold FieldSet.set
      apply SMap.sorted_ext
      · exact SMap.sorted_insert n1 (sorted_clearAll _ _ a2)
      · exact SMap.sorted_insert n2 (sorted_clearAll _ _ a1)
      · intro i
        rw [SMap.get?_insert, SMap.get?_insert, get?_clearAll _ _ a1, get?_clearAll _ _ a2,
          SMap.get?_insert, SMap.get?_insert, get?_clearAll _ _ hs, get?_clearAll _ _ hs]
        have x1 := af.num
        have x2 := af.siblings hw hgm
        have x3 := af.symm.siblings hw hfm
        by_cases hj : i = f.number
        · subst hj; simp [x1, x3]
        · by_cases hj' : i = g.number
          · subst hj'; simp [hj, x2]
          · simp only [if_neg hj, if_neg hj']
            split <;> split <;> rfl

/-- The keys name different fields. -/
def KeysApart (md : MsgDesc) (p q : Name × Json) : Prop :=
  ∀ f g, keyNames md p.1 = some f → keyNames md q.1 = some g → f.number ≠ g.number

theorem KeysApart.symm {p q : Name × Json} (h : KeysApart md p q) : KeysApart md q p :=
  fun f g a b e => h g f b a e.symm

theorem deEntries_perm {d : Nat} (hw : MsgWf S d md) {es es' : List (Name × Json)} (hp : es.Perm es') :
    ∀ {m m' : DynMsg}, SMap.sorted m.fields = true → es.Pairwise (KeysApart md) →
      deEntries S o val md m es = .ok m' → deEntries S o val md m es' = .ok m' := by
  induction hp with
  | nil => intro m m' _ _ h; exact h
  | cons p _ ih =>
    intro m m' hs hk h
    obtain ⟨key, j⟩ := p
    obtain ⟨m1, m2, h1, h2, h3⟩ := deEntries_split (a := []) h
    cases h1
    unfold deEntries
    rw [h2]
    exact ih (deEntry_sorted hw h2 hs) (List.pairwise_cons.1 hk).2 h3
  | swap p q l =>
    intro m m' hs hk h
    obtain ⟨k, j⟩ := p
    obtain ⟨k', j'⟩ := q
    obtain ⟨m1, m2, h1, h2, h3⟩ := deEntries_split (a := []) h
    cases h1
    obtain ⟨m1', m3, h1, h4, h5⟩ := deEntries_split (a := []) h3
    cases h1
    obtain ⟨x, y1, y2⟩ := deEntry_swap hw hs h2 h4 ((List.pairwise_cons.1 hk).1 _ List.mem_cons_self)
    unfold deEntries
    rw [y1]
    simp only
    unfold deEntries
    rw [y2]
    exact h5
  | trans p1 _ ih1 ih2 =>
    intro m m' hs hk h
    exact ih2 hs (p1.pairwise hk fun h => h.symm) (ih1 hs hk h)
end
end Verif.Json
