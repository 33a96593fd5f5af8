import Verif.Text.Across
import Verif.Text.Parse
/-!
Two schemas that show the same types under other numbers: setting fields, and what both readers of text need.
-/
set_option autoImplicit false
namespace Verif.Dyn
open Verif.Wire

/-- Both fail alike, or the second result is the first but for `r`, and the first is as `P` says. -/
def Tallies {ε α β : Type} (r : α → β) (P : α → Prop) (x : Except ε α) (y : Except ε β) : Prop :=
  (∃ e, x = .error e ∧ y = .error e) ∨ ∃ a, P a ∧ x = .ok a ∧ y = .ok (r a)

section
variable {ε α β γ δ : Type} {r : α → β} {P : α → Prop} {x : Except ε α} {y : Except ε β}

theorem Tallies.error (e : ε) : Tallies r P (.error e) (.error e) := .inl ⟨e, rfl, rfl⟩
theorem Tallies.ok {a : α} (h : P a) : Tallies r P (.ok a : Except ε α) (.ok (r a)) := .inr ⟨a, h, rfl, rfl⟩

theorem Tallies.map {f : α → γ} {g : β → δ} {r' : γ → δ} {P' : γ → Prop} (h : Tallies r P x y)
    (h' : ∀ a, P a → P' (f a) ∧ g (r a) = r' (f a)) : Tallies r' P' (x.map f) (y.map g) := by
  rcases h with ⟨e, rfl, rfl⟩ | ⟨a, ha, rfl, rfl⟩
  · exact .error e
  · refine .inr ⟨f a, (h' a ha).1, rfl, ?_⟩
    rw [← (h' a ha).2]; rfl

theorem Tallies.eq (h : Tallies r P x y) : y = x.map r := by
  rcases h with ⟨e, rfl, rfl⟩ | ⟨a, _, rfl, rfl⟩ <;> rfl

theorem Tallies.holds (h : Tallies r P x y) {a : α} (hx : x = .ok a) : P a := by
  rcases h with ⟨e, rfl, rfl⟩ | ⟨b, hb, rfl, rfl⟩
  · cases hx
  · cases hx; exact hb

theorem Tallies.same {x : Except ε α} : Tallies id (fun _ => True) x x := by
  cases x with
  | error e => exact .error e
  | ok a => exact .ok trivial

end

section
variable {S T : Schema} {ρ σ : Nat → Nat} {R : Nat → Prop}

theorem all_valid_ren (k : Kind) : ∀ vs : List Value,
    (renVals ρ vs).all (·.isValid (renKind ρ σ k)) = vs.all (·.isValid k)
  | [] => rfl
  | v :: r => by simp only [renVals, List.all_cons, renKind_valid, all_valid_ren k r]

mutual
theorem Across.validFor (h : Across S T ρ σ R) : (v : Value) → (f : FieldDesc) → InAcross S T σ R f →
    validFor T (renField ρ σ f) (renVal ρ v) = validFor S f v
  | .list vs, f, hf => by
    simp only [renVal, Dyn.validFor, h.isList hf]
    rw [show (renField ρ σ f).kind = renKind ρ σ f.kind from rfl, all_valid_ren]
  | .map kvs, f, hf => by
    simp only [renVal, Dyn.validFor, h.isMap hf]
    rw [show (renField ρ σ f).kind = renKind ρ σ f.kind from rfl]
    cases hk : f.kind with
    | message i =>
      simp only [renKind]
      split
      · rw [h.mapKV (hf.msg i hk)]
        cases hkv : S.mapKV i with
        | none => rfl
        | some p =>
          obtain ⟨kd, vd⟩ := p
          exact Across.validMap h kvs kd vd (h.mapKV_in (hf.msg i hk) hkv).2
      · rfl
    | _ => simp only [renKind]
  | .bool _, f, _ | .i32 _, f, _ | .i64 _, f, _ | .u32 _, f, _ | .u64 _, f, _ | .f32 _, f, _ | .f64 _, f, _
  | .str _, f, _ | .bytes _, f, _ | .enum _, f, _ | .msg _ _, f, _ => by
    have := renKind_valid (ρ := ρ) (σ := σ) f.kind
    simp only [renVal, Dyn.validFor]
    rw [show (renField ρ σ f).kind = renKind ρ σ f.kind from rfl, ← this]
    simp only [renVal]
theorem Across.validMap (h : Across S T ρ σ R) : (kvs : List (MapKey × Value)) → (kd vd : FieldDesc) →
    InAcross S T σ R vd → validMap T (renField ρ σ kd) (renField ρ σ vd) (renMap ρ kvs) = validMap S kd vd kvs
  | [], _, _, _ => by simp only [renMap, Dyn.validMap]
  | (k, v) :: r, kd, vd, hf => by
    simp only [renMap, Dyn.validMap, Across.validFor h v vd hf, Across.validMap h r kd vd hf]
    rw [show (renField ρ σ kd).kind = renKind ρ σ kd.kind from rfl, renKind_keyValid]
end

theorem set_ren (sib : List Nat) (fs : FieldSet) (f : FieldDesc) (v : Value) :
    FieldSet.set sib (renSlots ρ fs) (renField ρ σ f) (renVal ρ v) = renSlots ρ (FieldSet.set sib fs f v) := by
  unfold FieldSet.set
  rw [clearAll_renSlots]
  exact insert_renSlots f.number (.val v) _

theorem set_within {sib : List Nat} {fs : FieldSet} {f : FieldDesc} {v : Value} (h : WithinSlots R fs)
    (hv : Within R v) : WithinSlots R (FieldSet.set sib fs f v) :=
  withinSlots_insert (withinSlots_clearAll h) fun w hw => by cases hw; exact hv

theorem getFieldByName_ren {md td : MsgDesc} (h : td.fields = md.fields.map (renField ρ σ)) (n : Name) :
    td.getFieldByName n = (md.getFieldByName n).map (renField ρ σ) := by
  unfold MsgDesc.getFieldByName
  rw [h, List.find?_map]
  rfl

theorem Across.trySetField (h : Across S T ρ σ R) {md td : MsgDesc} (ht : td.fields = md.fields.map (renField ρ σ))
    {f : FieldDesc} (hf : InAcross S T σ R f) (m : DynMsg) (v : Value) :
    DynMsg.trySetField T td (renMsg ρ m) (renField ρ σ f) (renVal ρ v) =
      (DynMsg.trySetField S md m f v).map fun p => (renMsg ρ p.1, match p.2 with
        | .ok () => .ok ()
        | .error (.invalidType f v) => .error (.invalidType (renField ρ σ f) (renVal ρ v))
        | .error e => .error e) := by
  unfold DynMsg.trySetField
  rw [h.validFor v f hf, siblings_ren ht]
  cases Dyn.validFor S f v with
  | none => rfl
  | some b =>
    cases b with
    | false => rfl
    | true =>
      simp only [Option.map_some]
      rw [show (renMsg ρ m).fields = renSlots ρ m.fields from rfl, set_ren]
      rfl

theorem Across.setField (h : Across S T ρ σ R) {md td : MsgDesc} (ht : td.fields = md.fields.map (renField ρ σ))
    {f : FieldDesc} (hf : InAcross S T σ R f) (m : DynMsg) (v : Value) :
    DynMsg.setField T td (renMsg ρ m) (renField ρ σ f) (renVal ρ v) = (DynMsg.setField S md m f v).map (renMsg ρ) := by
  unfold DynMsg.setField DynMsg.trySetField
  rw [h.validFor v f hf, siblings_ren ht]
  cases Dyn.validFor S f v with
  | none => rfl
  | some b =>
    cases b with
    | false => rfl
    | true =>
      simp only [Option.map_some]
      rw [show (renMsg ρ m).fields = renSlots ρ m.fields from rfl, set_ren]
      rfl

theorem trySetField_within {md : MsgDesc} {f : FieldDesc} {m m' : DynMsg} {v : Value} {r : Except SetErr Unit}
    (hm : WithinMsg R m) (hv : Within R v) (h : DynMsg.trySetField S md m f v = some (m', r)) : WithinMsg R m' := by
  unfold DynMsg.trySetField at h
  split at h
  · cases h
  · cases h; exact ⟨hm.1, set_within hm.2 hv⟩
  · cases h; exact hm

theorem setField_within {md : MsgDesc} {f : FieldDesc} {m m' : DynMsg} {v : Value} (hm : WithinMsg R m)
    (hv : Within R v) (h : DynMsg.setField S md m f v = some m') : WithinMsg R m' := by
  unfold DynMsg.setField at h
  split at h
  · next m'' ht => cases h; exact trySetField_within hm hv ht
  · cases h

theorem setExt_ren (m : DynMsg) (f : FieldDesc) (v : Value) :
    DynMsg.setExt (renMsg ρ m) (renField ρ σ f) (renVal ρ v) = renMsg ρ (DynMsg.setExt m f v) := by
  unfold DynMsg.setExt
  rw [show (renMsg ρ m).fields = renSlots ρ m.fields from rfl, set_ren]
  rfl

theorem Across.anyHas (h : Across S T ρ σ R) {fs : FieldSet} (hw : WithinSlots R fs) : ∀ l : List FieldDesc,
    (∀ f ∈ l, InAcross S T σ R f) → Text.anyHas T (renSlots ρ fs) (l.map (renField ρ σ)) = Text.anyHas S fs l
  | [], _ => rfl
  | f :: r, hl => by
    simp only [List.map_cons, Text.anyHas, h.has (hl f (by simp)) hw,
      Across.anyHas h hw r fun g hg => hl g (List.mem_cons_of_mem _ hg)]

theorem oneofMembers_ren {md td : MsgDesc} (h : td.fields = md.fields.map (renField ρ σ)) (f : FieldDesc) :
    Text.oneofMembers td (renField ρ σ f) = (Text.oneofMembers md f).map (renField ρ σ) := by
  unfold Text.oneofMembers
  simp only [renField]
  cases f.oneof with
  | none => rfl
  | some o =>
    simp only [h]
    rw [List.filter_map]
    rfl

theorem oneofMembers_mem {md : MsgDesc} {f g : FieldDesc} (h : g ∈ Text.oneofMembers md f) : g ∈ md.fields := by
  unfold Text.oneofMembers at h
  split at h
  · cases h
  · exact (List.mem_filter.1 h).1

end
end Verif.Dyn
