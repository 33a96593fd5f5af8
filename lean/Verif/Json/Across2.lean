import Verif.Text.Across2
import Verif.Json.Across
import Verif.Json.De
/-!
Two schemas that show the same types under other numbers read JSON alike.
-/
set_option autoImplicit false
namespace Verif.Json
open Verif.Wire Verif.Dyn Verif.Pool

section
variable {S T : Schema} {ρ σ : Nat → Nat} {R : Nat → Prop}

/-- A value, if there is one, in `R`. -/
def OptIn (R : Nat → Prop) (o : Option Value) : Prop := ∀ v, o = some v → Within R v

/-- The two readers of values agree on fields in `R`. -/
def ReadAcross (S T : Schema) (ρ σ : Nat → Nat) (R : Nat → Prop)
    (f g : FieldDesc → Json → Except JErr (Option Value)) : Prop :=
  ∀ fd j, InAcross S T σ R fd → Tallies (Option.map (renVal ρ)) (OptIn R) (f fd j) (g (renField ρ σ fd) j)

theorem optIn_none : OptIn R none := fun _ h => by cases h
theorem optIn_some {v : Value} (h : Within R v) : OptIn R (some v) := fun _ h' => by cases h'; exact h

theorem makeMsg_across (h : Across S T ρ σ R) {d : Nat} (hd : R d) (w : Wkt) (fs : FieldSet) :
    Tallies (renMsg ρ) (WithinMsg R) (makeMsg S d w fs) (makeMsg T (ρ d) w fs) := by
  unfold makeMsg
  cases encMsg stdSchema ⟨w.std, fs⟩ with
  | none => exact .error _
  | some b =>
    simp only [h.decode hd, ofDecode_map]
    cases hb : ofDecode (decode S d b) with
    | error e => exact .error e
    | ok m => exact .ok ((h.self.decode hd b).2 m (ofDecode_ok hb))

theorem msgOpt_across {x : Except JErr DynMsg} {y : Except JErr DynMsg} (h : Tallies (renMsg ρ) (WithinMsg R) x y) :
    Tallies (Option.map (renVal ρ)) (OptIn R) (x.map fun m => some m.toValue) (y.map fun m => some m.toValue) :=
  h.map fun m hm => ⟨optIn_some hm, by simp only [Option.map_some, DynMsg.toValue, renVal, renMsg]⟩

theorem deNull_across (h : AcrossNamed S T ρ σ R) {f : FieldDesc} (hf : InAcross S T σ R f) :
    Tallies (Option.map (renVal ρ)) (OptIn R) (deNull S f) (deNull T (renField ρ σ f)) := by
  unfold deNull
  rw [show (renField ρ σ f).kind = renKind ρ σ f.kind from rfl]
  cases hk : f.kind with
  | message d =>
    have hd := hf.msg d hk
    obtain ⟨md, td, h1, h2, _⟩ := h.msgs d hd
    simp only [renKind, h1, h2, h.name d md td hd h1 h2]
    split
    · exact msgOpt_across (makeMsg_across h.toAcross hd _ _)
    · exact .ok optIn_none
  | enum e =>
    simp only [renKind, hf.enum e hk]
    cases S.enums[e]? with
    | none => exact .error _
    | some ed =>
      simp only
      split
      · refine .inr ⟨_, optIn_some (v := .enum 0) trivial, rfl, ?_⟩
        simp only [Option.map_some, renVal]
      · exact .ok optIn_none
  | _ => exact .ok optIn_none

variable {f g : FieldDesc → Json → Except JErr (Option Value)}

theorem deOpt_across (h : AcrossNamed S T ρ σ R) (hv : ReadAcross S T ρ σ R f g) {fd : FieldDesc}
    (hf : InAcross S T σ R fd) (j : Json) :
    Tallies (Option.map (renVal ρ)) (OptIn R) (deOpt S f fd j) (deOpt T g (renField ρ σ fd) j) := by
  cases j <;> simp only [deOpt] <;> first | exact deNull_across h hf | exact hv fd _ hf

theorem keyField_ren {md td : MsgDesc} (h : td.fields = md.fields.map (renField ρ σ)) (key : Name) :
    keyField td key = (keyField md key).map (renField ρ σ) := by
  unfold keyField
  rw [getFieldByName_ren h, h, List.find?_map]
  rw [show ((fun f : FieldDesc => f.jsonName == key) ∘ renField ρ σ) = fun f => f.jsonName == key from rfl]
  cases md.fields.find? (fun f => f.jsonName == key) <;> rfl

theorem keyField_mem {md : MsgDesc} {key : Name} {fd : FieldDesc} (h : keyField md key = some fd) :
    fd ∈ md.fields := by
  unfold keyField at h
  split at h
  · next f' hf => cases h; exact List.mem_of_find?_eq_some hf
  · exact List.mem_of_find?_eq_some h

theorem deEntry_across (h : AcrossNamed S T ρ σ R) (o : DOpts) (hv : ReadAcross S T ρ σ R f g) {d : Nat}
    {md td : MsgDesc} (hd : R d) (h1 : S.msg? d = some md) (h2 : T.msg? (ρ d) = some td)
    (ht : td.fields = md.fields.map (renField ρ σ)) {m : DynMsg} (hm : WithinMsg R m) (key : Name) (j : Json) :
    Tallies (renMsg ρ) (WithinMsg R) (deEntry S o f md m key j) (deEntry T o g td (renMsg ρ m) key j) := by
  unfold deEntry
  rw [keyField_ren ht, show keyExt td key = (keyExt md key).map (renField ρ σ) from h.extJson d md td hd h1 h2 key]
  cases hk : keyField md key with
  | some fd =>
    have hf : InAcross S T σ R fd := h.inner d md hd h1 fd (.inl (keyField_mem hk))
    simp only [Option.map_some]
    rcases deOpt_across h hv hf j with ⟨e, e1, e2⟩ | ⟨w, hw, e1, e2⟩
    · rw [e1, e2]; exact .error e
    · rw [e1, e2]
      cases w with
      | none => exact .ok hm
      | some v =>
        have hv := hw v rfl
        simp only [Option.map_some]
        rw [show (renMsg ρ m).fields = renSlots ρ m.fields from rfl, oneofMembers_ren ht,
          h.toAcross.anyHas hm.2 _ fun g hg => h.inner d md hd h1 g (.inl (oneofMembers_mem hg)),
          h.toAcross.setField ht hf]
        cases Text.anyHas S m.fields (Text.oneofMembers md fd) with
        | none => exact .error _
        | some b =>
          cases b with
          | true => exact .error _
          | false =>
            simp only
            cases hs : DynMsg.setField S md m fd v with
            | none => exact .error _
            | some m' => exact .ok (setField_within hm hv hs)
  | none =>
    simp only [Option.map_none]
    cases hx : keyExt md key with
    | some fd =>
      have hf : InAcross S T σ R fd := h.inner d md hd h1 fd (.inr (List.mem_of_find?_eq_some hx))
      simp only [Option.map_some]
      rcases deOpt_across h hv hf j with ⟨e, e1, e2⟩ | ⟨w, hw, e1, e2⟩
      · rw [e1, e2]; exact .error e
      · rw [e1, e2]
        cases w with
        | none => exact .ok hm
        | some v =>
          simp only [Option.map_some, setExt_ren]
          exact .ok (P := WithinMsg R) ⟨hm.1, set_within hm.2 (hw v rfl)⟩
    | none =>
      simp only [Option.map_none]
      split
      · exact .error _
      · exact .ok hm

theorem deEntries_across (h : AcrossNamed S T ρ σ R) (o : DOpts) (hv : ReadAcross S T ρ σ R f g) {d : Nat}
    {md td : MsgDesc} (hd : R d) (h1 : S.msg? d = some md) (h2 : T.msg? (ρ d) = some td)
    (ht : td.fields = md.fields.map (renField ρ σ)) : ∀ (es : List (Name × Json)) (m : DynMsg), WithinMsg R m →
    Tallies (renMsg ρ) (WithinMsg R) (deEntries S o f md m es) (deEntries T o g td (renMsg ρ m) es)
  | [], m, hm => by simp only [deEntries]; exact .ok hm
  | (key, j) :: r, m, hm => by
    simp only [deEntries]
    rcases deEntry_across h o hv hd h1 h2 ht hm key j with ⟨e, e1, e2⟩ | ⟨m', hm', e1, e2⟩
    · rw [e1, e2]; exact .error e
    · rw [e1, e2]; exact deEntries_across h o hv hd h1 h2 ht r m' hm'

theorem asMsg_across {w : Option Value} (hw : OptIn R w) :
    Tallies (renMsg ρ) (WithinMsg R) (asMsg w) (asMsg (w.map (renVal ρ))) := by
  cases w with
  | none => exact .error _
  | some v =>
    have := hw v rfl
    cases v with
    | msg d fs =>
      simp only [Option.map_some, renVal, asMsg]
      exact .ok (r := renMsg ρ) (a := ⟨d, fs⟩) this
    | _ => simp only [Option.map_some, renVal, asMsg]; exact .error _

theorem empty_within {d : Nat} (hd : R d) : WithinMsg R (DynMsg.empty d) :=
  ⟨hd, by simp only [DynMsg.empty, WithinSlots]⟩

theorem anyPayload_across (env : JEnv) (h : AcrossNamed S T ρ σ R) (o : DOpts) (hv : ReadAcross S T ρ σ R f g)
    (n : Name) {d : Nat} (hd : R d) (buf rest : List (List Char × Json)) :
    Tallies (renMsg ρ) (WithinMsg R) (anyPayload env S o f n d buf rest)
      (anyPayload env T o g n (ρ d) buf rest) := by
  have hpl : InAcross S T σ R (plainField (.message d)) :=
    ⟨fun i hi => (by cases hi; exact hd), fun e he => (by cases he), fun v hv => (by cases hv)⟩
  have hre : plainField (.message (ρ d)) = renField ρ σ (plainField (.message d)) := rfl
  obtain ⟨md, td, h1, h2, _, h3, _⟩ := h.msgs d hd
  unfold anyPayload
  split
  · have key : ∀ x : Option (List (List Char × Json) × Json × List (List Char × Json)),
        Tallies (renMsg ρ) (WithinMsg R)
          (match x with
            | none => .error .err
            | some (buf, j, rest) =>
              match f (plainField (.message d)) j with
              | .error e => .error e
              | .ok v => if o.deny && !(buf.isEmpty && rest.isEmpty) then .error .err else asMsg v)
          (match x with
            | none => .error .err
            | some (buf, j, rest) =>
              match g (plainField (.message (ρ d))) j with
              | .error e => .error e
              | .ok v => if o.deny && !(buf.isEmpty && rest.isEmpty) then .error .err else asMsg v) := by
      intro x
      cases x with
      | none => exact .error _
      | some p =>
        obtain ⟨buf', j, rest'⟩ := p
        simp only [hre]
        rcases hv _ j hpl with ⟨e, e1, e2⟩ | ⟨w, hw, e1, e2⟩
        · rw [e1, e2]; exact .error e
        · rw [e1, e2]
          simp only
          split
          · exact .error _
          · exact asMsg_across hw
    exact key _
  · simp only [h1, h2]
    have := deEntries_across h o hv hd h1 h2 h3 (env.order buf) _ (empty_within hd)
    rw [show renMsg ρ (DynMsg.empty d) = DynMsg.empty (ρ d) by simp only [renMsg, DynMsg.empty, renSlots]] at this
    rcases this with ⟨e, e1, e2⟩ | ⟨m, hm, e1, e2⟩
    · rw [e1, e2]; exact .error e
    · rw [e1, e2]; exact deEntries_across h o hv hd h1 h2 h3 rest m hm

theorem deAny_across (env : JEnv) (h : AcrossNamed S T ρ σ R) (o : DOpts) (hv : ReadAcross S T ρ σ R f g)
    (j : Json) : deAny env T o g j = deAny env S o f j := by
  cases j with
  | obj es =>
    simp only [deAny]
    cases findKey typeKey [] es with
    | none => rfl
    | some p =>
      obtain ⟨buf, u, rest⟩ := p
      cases u with
      | str url =>
        simp only
        cases Text.urlName url with
        | none => rfl
        | some n =>
          simp only [h.byName]
          cases hd : Text.Schema.msgByName S n with
          | none => rfl
          | some d =>
            simp only [Option.map_some]
            rcases anyPayload_across env h o hv n (h.named n d hd) buf rest with ⟨e, e1, e2⟩ | ⟨m, hm, e1, e2⟩
            · rw [e1, e2]
            · rw [e1, e2]
              simp only [h.toAcross.encMsg hm]
      | _ => rfl
  | _ => rfl

theorem deMsg_across (env : JEnv) (h : AcrossNamed S T ρ σ R) (o : DOpts) (k : Nat) (hv : ReadAcross S T ρ σ R f g)
    {d : Nat} (hd : R d) (j : Json) :
    Tallies (renMsg ρ) (WithinMsg R) (deMsg env S o k f d j) (deMsg env T o k g (ρ d) j) := by
  obtain ⟨md, td, h1, h2, _, h3, _⟩ := h.msgs d hd
  have hn := h.name d md td hd h1 h2
  have std : ∀ w, Tallies (renMsg ρ) (WithinMsg R)
      (match deStd env k j w with | .error e => .error e | .ok fs => makeMsg S d w fs)
      (match deStd env k j w with | .error e => .error e | .ok fs => makeMsg T (ρ d) w fs) := by
    intro w
    cases deStd env k j w with
    | error e => exact .error e
    | ok fs => exact makeMsg_across h.toAcross hd w fs
  unfold deMsg
  simp only [h1, h2, hn]
  cases wkt? md.name with
  | none =>
    cases j with
    | obj es =>
      have := deEntries_across h o hv hd h1 h2 h3 es _ (empty_within hd)
      rw [show renMsg ρ (DynMsg.empty d) = DynMsg.empty (ρ d) by simp only [renMsg, DynMsg.empty, renSlots]] at this
      exact this
    | _ => exact .error _
  | some w =>
    cases w with
    | any =>
      simp only [deAny_across env h o hv]
      cases deAny env S o f j with
      | error e => exact .error e
      | ok fs => exact makeMsg_across h.toAcross hd .any fs
    | _ => exact std _

theorem map_holdsNone {α : Type} {x : Except JErr α} {c : α → Value} {v : Value} (hc : ∀ a, (c a).holdsNone = true)
    (h : x.map c = .ok v) : v.holdsNone = true := by
  cases x with
  | error e => cases h
  | ok a => cases h; exact hc a

theorem renVal_scalar (env : JEnv) (k : Kind) (j : Json) : Tallies (Option.map (renVal ρ)) (OptIn R)
    ((deScalar env k j).map some) ((deScalar env k j).map some) := by
  cases hs : deScalar env k j with
  | error e => exact .error e
  | ok v =>
    have hh : v.holdsNone = true := by
      unfold deScalar at hs
      cases k <;> first | exact map_holdsNone (fun _ => rfl) hs | cases hs
    refine .inr ⟨some v, optIn_some (flat_within hh), rfl, ?_⟩
    simp only [Option.map_some, flat_ren hh]
    rfl

theorem deKind_across (env : JEnv) (h : AcrossNamed S T ρ σ R) (o : DOpts) (k : Nat) (hv : ReadAcross S T ρ σ R f g)
    {fd : FieldDesc} (hf : InAcross S T σ R fd) (j : Json) :
    Tallies (Option.map (renVal ρ)) (OptIn R) (deKind env S o k f fd.kind j)
      (deKind env T o k g (renKind ρ σ fd.kind) j) := by
  unfold deKind
  cases hk : fd.kind with
  | message d => exact msgOpt_across (deMsg_across env h o k hv (hf.msg d hk) j)
  | enum e =>
    simp only [renKind, deEnum, hf.enum e hk]
    cases S.enums[e]? with
    | none => exact .error _
    | some ed =>
      simp only
      generalize (if ed.name = nullName then visitNull o j else visitEnum o ed j) = x
      cases x with
      | error e => exact .error e
      | ok v =>
        cases v with
        | none => exact .ok optIn_none
        | some v =>
          refine .inr ⟨some (.enum v), optIn_some trivial, rfl, ?_⟩
          simp only [Option.map_some, renVal]
          rfl
  | _ => exact renVal_scalar env _ j

theorem deKey_ren (k : Kind) (s : List Char) : deKey (renKind ρ σ k) s = deKey k s := by
  cases k <;> rfl

theorem deMap_across (key : List Char → Except JErr MapKey) {a b : Json → Except JErr (Option Value)}
    (hv : ∀ j, Tallies (Option.map (renVal ρ)) (OptIn R) (a j) (b j)) : ∀ (es : List (List Char × Json))
    (acc : List (MapKey × Value)), WithinMap R acc →
    Tallies (renMap ρ) (WithinMap R) (deMap key a acc es) (deMap key b (renMap ρ acc) es)
  | [], acc, ha => by simp only [deMap]; exact .ok ha
  | (s, j) :: r, acc, ha => by
    simp only [deMap]
    cases key s with
    | error e => exact .error e
    | ok k =>
      simp only
      rcases hv j with ⟨e, e1, e2⟩ | ⟨w, hw, e1, e2⟩
      · rw [e1, e2]; exact .error e
      · rw [e1, e2]
        cases w with
        | none => exact deMap_across key hv r acc ha
        | some v =>
          simp only [Option.map_some]
          rw [← insert_renMap]
          exact deMap_across key hv r _ (withinMap_insert ha (hw v rfl))

theorem mapE_across {a b : Json → Except JErr (Option Value)}
    (hv : ∀ j, Tallies (Option.map (renVal ρ)) (OptIn R) (a j) (b j)) : ∀ xs : List Json,
    Tallies (List.map (Option.map (renVal ρ))) (fun l => ∀ w ∈ l, OptIn R w) (mapE a xs) (mapE b xs)
  | [] => .ok (r := List.map (Option.map (renVal ρ))) (a := []) fun w hw => by cases hw
  | j :: r => by
    simp only [mapE]
    rcases hv j with ⟨e, e1, e2⟩ | ⟨w, hw, e1, e2⟩
    · rw [e1, e2]; exact .error e
    · rw [e1, e2]
      rcases mapE_across hv r with ⟨e, e1, e2⟩ | ⟨ws, hws, e1, e2⟩
      · rw [e1, e2]; exact .error e
      · rw [e1, e2]
        refine .inr ⟨w :: ws, ?_, rfl, rfl⟩
        intro u hu
        rcases List.mem_cons.1 hu with rfl | hu
        · exact hw
        · exact hws u hu

theorem filterMap_ren : ∀ l : List (Option Value),
    (l.map (Option.map (renVal ρ))).filterMap id = renVals ρ (l.filterMap id)
  | [] => rfl
  | none :: r => by simpa using filterMap_ren r
  | some v :: r => by
    simp only [List.map_cons, Option.map_some, List.filterMap_cons, id, renVals, filterMap_ren r]

theorem filterMap_within : ∀ {l : List (Option Value)}, (∀ w ∈ l, OptIn R w) → WithinVals R (l.filterMap id)
  | [], _ => by simp only [List.filterMap_nil, WithinVals]
  | none :: r, h => by
    simpa using filterMap_within (l := r) fun w hw => h w (List.mem_cons_of_mem _ hw)
  | some v :: r, h => by
    simp only [List.filterMap_cons, id, WithinVals]
    exact ⟨h (some v) (by simp) v rfl, filterMap_within fun w hw => h w (List.mem_cons_of_mem _ hw)⟩

theorem deVal_across (env : JEnv) (h : AcrossNamed S T ρ σ R) (o : DOpts) : ∀ k,
    ReadAcross S T ρ σ R (deVal env S o k) (deVal env T o k)
  | 0 => fun fd j _ => by simp only [deVal]; exact .error _
  | k + 1 => by
    intro fd j hf
    have ih := deVal_across env h o k
    have hK := fun j => deKind_across env h o k ih hf j
    simp only [deVal, h.toAcross.isList hf, h.toAcross.isMap hf,
      show (renField ρ σ fd).kind = renKind ρ σ fd.kind from rfl]
    split
    · cases j with
      | arr xs =>
        refine (mapE_across hK xs).map fun l hl => ⟨optIn_some ?_, ?_⟩
        · simp only [Within]; exact filterMap_within hl
        · simp only [Option.map_some, renVal, filterMap_ren]
      | _ => exact .error _
    · split
      · cases j with
        | obj es =>
          cases hk : fd.kind with
          | message i =>
            simp only [renKind, h.toAcross.mapKV (hf.msg i hk)]
            cases hkv : S.mapKV i with
            | none => exact .error _
            | some p =>
              obtain ⟨kd, vd⟩ := p
              simp only [Option.map_some, show (renField ρ σ kd).kind = renKind ρ σ kd.kind from rfl]
              rw [show deKey (renKind ρ σ kd.kind) = deKey kd.kind from funext fun s => deKey_ren kd.kind s]
              have := deMap_across (deKey kd.kind) (fun j => ih vd j (h.toAcross.mapKV_in (hf.msg i hk) hkv).2) es []
                (by simp only [WithinMap])
              simp only [renMap] at this
              refine this.map fun kvs hkvs => ⟨optIn_some ?_, ?_⟩
              · simp only [Within]; exact hkvs
              · simp only [Option.map_some, renVal]
          | _ => exact .error _
        | _ => exact .error _
      · exact hK j

/-- Reading a message from JSON. -/
theorem fromJson_across (env : JEnv) (h : AcrossNamed S T ρ σ R) (o : DOpts) (k : Nat) {d : Nat} (hd : R d)
    (j : Json) : Tallies (renMsg ρ) (WithinMsg R) (fromJson env S o k d j) (fromJson env T o k (ρ d) j) :=
  deMsg_across env h o k (deVal_across env h o k) hd j

end
end Verif.Json
