import Verif.Json.Safe
import Verif.Text.Once
/-!
What the entries of a JSON object do to the message that is read.
-/
set_option autoImplicit false
namespace Verif.Json
open Verif.Wire Verif.Dyn Verif.Pool
open Verif.Text (anyHas oneofMembers anyHas_false)

section
variable {env : JEnv} {S : Schema} {o : DOpts} {md : MsgDesc}
  {val : FieldDesc → Json → Except JErr (Option Value)}

theorem deEntries_append {m : DynMsg} {a b : List (Name × Json)} :
    deEntries S o val md m (a ++ b) =
      match deEntries S o val md m a with
      | .error e => .error e
      | .ok m' => deEntries S o val md m' b := by
  induction a generalizing m with
  | nil => rfl
  | cons p r ih =>
    obtain ⟨key, j⟩ := p
    simp only [List.cons_append, deEntries]
    cases deEntry S o val md m key j with
    | error e => rfl
    | ok m' => exact ih

/-- The runs of a successful reading before and after an entry. -/
theorem deEntries_split {m m' : DynMsg} {a b : List (Name × Json)} {key : Name} {j : Json}
    (h : deEntries S o val md m (a ++ (key, j) :: b) = .ok m') :
    ∃ m1 m2, deEntries S o val md m a = .ok m1 ∧ deEntry S o val md m1 key j = .ok m2 ∧
      deEntries S o val md m2 b = .ok m' := by
  rw [deEntries_append] at h
  cases h1 : deEntries S o val md m a with
  | error e => rw [h1] at h; cases h
  | ok m1 =>
    rw [h1] at h
    simp only [deEntries] at h
    cases h2 : deEntry S o val md m1 key j with
    | error e => rw [h2] at h; cases h
    | ok m2 => rw [h2] at h; exact ⟨m1, m2, rfl, h2, h⟩

theorem setField_eq {m m' : DynMsg} {f : FieldDesc} {v : Value}
    (h : DynMsg.setField S md m f v = some m') :
    m' = ⟨m.desc, FieldSet.set (siblings md f) m.fields f v⟩ := by
  unfold DynMsg.setField at h
  split at h
  · rename_i x hx
    cases h
    unfold DynMsg.trySetField at hx
    split at hx <;> cases hx
    rfl
  · cases h

/-- What an entry that is read without error does. -/
theorem deEntry_cases {m m' : DynMsg} {key : Name} {j : Json}
    (h : deEntry S o val md m key j = .ok m') :
    (m' = m ∧ (∀ f, keyField md key = some f → deOpt S val f j = .ok none)) ∨
    (∃ f v, keyField md key = some f ∧ deOpt S val f j = .ok (some v) ∧
      anyHas S m.fields (oneofMembers md f) = some false ∧
      m' = ⟨m.desc, FieldSet.set (siblings md f) m.fields f v⟩) ∨
    (∃ f v, keyField md key = none ∧ keyExt md key = some f ∧ deOpt S val f j = .ok (some v) ∧
      m' = DynMsg.setExt m f v) := by
  unfold deEntry at h
  split at h
  · rename_i f hf
    split at h
    · cases h
    · rename_i hn
      cases h
      exact .inl ⟨rfl, fun g hg => by rw [hf] at hg; cases hg; exact hn⟩
    · rename_i v hv
      split at h
      · cases h
      · cases h
      · rename_i hany
        split at h
        · cases h
        · rename_i m2 hs
          cases h
          exact .inr (.inl ⟨f, v, hf, hv, hany, setField_eq hs⟩)
  · rename_i hf
    split at h
    · rename_i f hx
      split at h
      · cases h
      · cases h
        exact .inl ⟨rfl, fun g hg => by rw [hf] at hg; cases hg⟩
      · rename_i v hv
        cases h
        exact .inr (.inr ⟨f, v, hf, hx, hv, rfl⟩)
    · split at h
      · cases h
      · cases h
        exact .inl ⟨rfl, fun g hg => by rw [hf] at hg; cases hg⟩

theorem keyExt_mem {key : Name} {f : FieldDesc} (h : keyExt md key = some f) : f ∈ md.extensions :=
  List.mem_of_find?_eq_some h

/-- Entries leave the slots in order. -/
theorem deEntry_sorted {d : Nat} (hw : MsgWf S d md) {m m' : DynMsg} {key : Name} {j : Json}
    (h : deEntry S o val md m key j = .ok m') (hm : SMap.sorted m.fields = true) :
    SMap.sorted m'.fields = true := by
  rcases deEntry_cases h with ⟨rfl, _⟩ | ⟨f, v, hf, _, _, rfl⟩ | ⟨f, v, _, hf, _, rfl⟩
  · exact hm
  · exact SMap.sorted_insert (hw.fields f (keyField_mem hf)).num.1 (sorted_clearAll _ _ hm)
  · exact SMap.sorted_insert (hw.exts f (keyExt_mem hf)).num.1 hm

theorem deEntries_sorted {d : Nat} (hw : MsgWf S d md) {es : List (Name × Json)} {m m' : DynMsg}
    (h : deEntries S o val md m es = .ok m') (hm : SMap.sorted m.fields = true) :
    SMap.sorted m'.fields = true := by
  induction es generalizing m with
  | nil => cases h; exact hm
  | cons p r ih =>
    obtain ⟨key, j⟩ := p
    obtain ⟨m1, m2, h1, h2, h3⟩ := deEntries_split (a := []) h
    cases h1
    exact ih h3 (deEntry_sorted hw h2 hm)

/-- A field that is set keeps its value through an entry that does not name it; a oneof keeps
its member through any entry. -/
theorem deEntry_keep {d : Nat} (hw : MsgWf S d md) {m m' : DynMsg} {key : Name} {j : Json}
    (h : deEntry S o val md m key j = .ok m') (hm : SMap.sorted m.fields = true)
    {f : FieldDesc} (hf : f ∈ md.fields) {v : Value} (hv : SMap.get? m.fields f.number = some (.val v))
    (hk : f.oneof = none → keyField md key ≠ some f) :
    SMap.get? m'.fields f.number = some (.val v) := by
  rcases deEntry_cases h with ⟨rfl, _⟩ | ⟨g, w, hg, _, hany, rfl⟩ | ⟨g, w, _, hg, _, rfl⟩
  · exact hv
  · have hgm := keyField_mem hg
    have hnm : ∀ i, f.oneof = some i → g.oneof ≠ some i := by
      intro i h1 h2
      have hp : f.presence = true := by
        rcases (hw.fields f hf).oneof with h | h
        · rw [h1] at h; cases h
        · exact h
      have := anyHas_false hany f (by
        unfold oneofMembers
        rw [h2]
        exact List.mem_filter.2 ⟨hf, by simp [h1]⟩)
      simp [FieldSet.has, FieldSet.getValue, hv, hasVal, hp] at this
    have hne : g ≠ f := by
      rintro rfl
      cases ho : g.oneof with
      | none => exact hk ho hg
      | some i => exact hnm i ho ho
    have hnum : f.number ≠ g.number := by
      intro e
      have h1 := getField_of_mem hw.nodup hf
      have h2 := getField_of_mem hw.nodup hgm
      rw [e, h2] at h1
      exact hne (Option.some.inj h1)
    show SMap.get? (SMap.insert _ _ _) _ = _
    rw [SMap.get?_insert, if_neg hnum, get?_clearAll _ _ hm, if_neg]
    · exact hv
    · intro hs
      unfold siblings at hs
      split at hs
      · cases hs
      · rename_i i hi
        obtain ⟨x, hx, hxn⟩ := List.mem_map.1 hs
        obtain ⟨hx1, hx2⟩ := List.mem_filter.1 hx
        simp only [Bool.and_eq_true, beq_iff_eq] at hx2
        have h1 := getField_of_mem hw.nodup hf
        have h2 := getField_of_mem hw.nodup hx1
        rw [hxn, h1] at h2
        cases h2
        exact hnm i hx2.1 hi
  · have hnum : f.number ≠ g.number := by
      intro e
      have h1 := getField_of_mem hw.nodup hf
      rw [e, (hw.extNew g (keyExt_mem hg)).1] at h1
      cases h1
    show SMap.get? (SMap.insert _ _ _) _ = _
    rw [SMap.get?_insert, if_neg hnum]
    exact hv

theorem deEntries_keep {d : Nat} (hw : MsgWf S d md) {es : List (Name × Json)} {m m' : DynMsg}
    (h : deEntries S o val md m es = .ok m') (hm : SMap.sorted m.fields = true)
    {f : FieldDesc} (hf : f ∈ md.fields) {v : Value} (hv : SMap.get? m.fields f.number = some (.val v))
    (hk : f.oneof = none → ∀ p ∈ es, keyField md p.1 ≠ some f) :
    SMap.get? m'.fields f.number = some (.val v) := by
  induction es generalizing m with
  | nil => cases h; exact hv
  | cons p r ih =>
    obtain ⟨key, j⟩ := p
    obtain ⟨m1, m2, h1, h2, h3⟩ := deEntries_split (a := []) h
    cases h1
    exact ih h3 (deEntry_sorted hw h2 hm)
      (deEntry_keep hw h2 hm hf hv (fun ho => hk ho _ (.head _))) (fun ho p hp => hk ho p (.tail _ hp))

/-- The fields have distinct names and distinct JSON names; a pool ensures this (`C68_names`). -/
def UniqueNames (md : MsgDesc) : Prop :=
  ∀ f ∈ md.fields, ∀ g ∈ md.fields, f.jsonName = g.jsonName ∨ f.name = g.name → f = g

/-- No field has the name of another one as its JSON name. -/
def NoCross (md : MsgDesc) : Prop :=
  ∀ f ∈ md.fields, ∀ g ∈ md.fields, f.jsonName = g.name → f = g

/-- The key is the JSON name of the field, or its name if it is the JSON name of no field. -/
def Names (md : MsgDesc) (key : Name) (f : FieldDesc) : Prop :=
  f ∈ md.fields ∧ (f.jsonName = key ∨ f.name = key ∧ ∀ g ∈ md.fields, g.jsonName ≠ key)

theorem Names.of_name (hx : NoCross md) {f : FieldDesc} (hf : f ∈ md.fields) : Names md f.name f := by
  refine ⟨hf, ?_⟩
  by_cases h : f.jsonName = f.name
  · exact .inl h
  · exact .inr ⟨rfl, fun g hg e => h (by rw [hx g hg f hf e] at e; exact e)⟩

theorem keyField_iff (hu : UniqueNames md) {key : Name} {f : FieldDesc} :
    keyField md key = some f ↔ Names md key f := by
  unfold keyField Names
  cases h1 : md.fields.find? (fun f => f.jsonName == key) with
  | some g =>
    have hg := List.mem_of_find?_eq_some h1
    have hn : g.jsonName = key := by simpa using List.find?_some h1
    constructor
    · intro h; cases h; exact ⟨hg, .inl hn⟩
    · rintro ⟨hf, h | h⟩
      · rw [hu f hf g hg (.inl (h.trans hn.symm))]
      · exact absurd hn (h.2 g hg)
  | none =>
    have h0 : ∀ g ∈ md.fields, g.jsonName ≠ key := by
      intro g hg
      simpa using List.find?_eq_none.1 h1 g hg
    show md.getFieldByName key = some f ↔ _
    unfold MsgDesc.getFieldByName
    constructor
    · intro h
      exact ⟨List.mem_of_find?_eq_some h, .inr ⟨by simpa using List.find?_some h, h0⟩⟩
    · rintro ⟨hf, h | ⟨h, _⟩⟩
      · exact absurd h (h0 f hf)
      · cases h2 : md.fields.find? (fun f => f.name == key) with
        | none =>
          have := List.find?_eq_none.1 h2 f hf
          simp [h] at this
        | some g =>
          have hg := List.mem_of_find?_eq_some h2
          have hn : g.name = key := by simpa using List.find?_some h2
          rw [hu g hg f hf (.inr (hn.trans h.symm))]

theorem deOpt_of_ne {f : FieldDesc} {j : Json} (h : j ≠ .null) : deOpt S val f j = val f j := by
  cases j <;> first | rfl | exact absurd rfl h

/-- With `deny_unknown_fields` nothing that is read is dropped. -/
theorem deVal_deny (ho : o.deny = true) {k : Nat} {f : FieldDesc} {j : Json} :
    deVal env S o k f j ≠ .ok none := by
  have hnull : ∀ j, visitNull o j ≠ .ok none := by
    intro j h
    unfold visitNull at h
    split at h
    · cases h
    · split at h
      · cases h
      · first | cases h | (rw [if_pos ho] at h; cases h)
    · cases h
  have henum : ∀ ed j, visitEnum o ed j ≠ .ok none := by
    intro ed j h
    unfold visitEnum at h
    split at h
    · split at h
      · cases h
      · rw [if_pos ho] at h; cases h
    · unfold tryInto at h
      split at h <;> cases h
    · unfold tryInto at h
      split at h <;> cases h
    · cases h
  have hmap : ∀ {α : Type} (x : Except JErr α) (g : α → Value), x.map (fun a => some (g a)) ≠ .ok none := by
    intro α x g h
    cases x <;> cases h
  cases k with
  | zero => intro h; cases h
  | succ k =>
    intro h
    unfold deVal at h
    split at h
    · split at h
      · exact hmap _ (fun (vs : List (Option Value)) => .list (vs.filterMap id)) h
      · cases h
    · split at h
      · split at h
        · split at h
          · split at h
            · cases h
            · exact hmap _ _ h
          · cases h
        · cases h
      · unfold deKind at h
        split at h
        · exact hmap _ _ h
        · unfold deEnum at h
          split at h
          · cases h
          · split at h
            · generalize hx : visitNull o j = x at h
              cases x with
              | error e => cases h
              | ok a =>
                cases a with
                | none => exact hnull _ hx
                | some v => cases h
            · rename_i ed _ _
              generalize hx : visitEnum o ed j = x at h
              cases x with
              | error e => cases h
              | ok a =>
                cases a with
                | none => exact henum _ _ hx
                | some v => cases h
        · cases hx : deScalar env f.kind j with
          | error e => rw [hx] at h; cases h
          | ok a => rw [hx] at h; cases h

end

end Verif.Json
