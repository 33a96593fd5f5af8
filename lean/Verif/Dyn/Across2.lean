import Verif.Dyn.Across
/-!
Decoding commutes with the change of type numbers.
-/
set_option autoImplicit false
namespace Verif.Dyn
open Verif.Wire

section
variable {S T : Schema} {ρ σ : Nat → Nat} {R : Nat → Prop}

theorem InAcross.self {f : FieldDesc} (h : InAcross S T σ R f) : InAgree S S R f :=
  ⟨h.msg, fun _ _ => rfl, fun v hv => flat_within (h.default v hv)⟩

/-- The types in `R` refer to `R` only. -/
theorem Across.self (h : Across S T ρ σ R) : ViewAgree S S R :=
  ⟨fun _ _ => rfl, fun d md hd hm f hf => (h.inner d md hd hm f hf).self⟩

/-! ### Loops -/

theorem mapV_mapV {α β γ δ : Type} (g : β → γ) (f : α → β) (r : Wire.R (α × δ)) :
    mapV g (mapV f r) = mapV (fun x => g (f x)) r := by
  cases r <;> rfl

theorem loopTo_map {α β : Type} (φ : α → β) {f : α → Bytes → Wire.R (α × Bytes)} {g : β → Bytes → Wire.R (β × Bytes)}
    {I : α → Prop} {limit : Nat} (hI : ∀ st b st' b', I st → f st b = .ok (st', b') → I st')
    (he : ∀ st b, I st → g (φ st) b = mapV φ (f st b)) :
    ∀ (n : Nat) st b, I st → loopTo limit g n (φ st) b = mapV φ (loopTo limit f n st b)
  | 0, _, _, _ => rfl
  | n + 1, st, b, hi => by
    simp only [loopTo, he st b hi]
    split
    · rfl
    · cases hr : f st b with
      | error e => rfl
      | ok p =>
        obtain ⟨st', b'⟩ := p
        exact loopTo_map φ hI he n st' b' (hI st b st' b' hi hr)

theorem mergeLoop_map {α β : Type} (φ : α → β) {f : α → Bytes → Wire.R (α × Bytes)}
    {g : β → Bytes → Wire.R (β × Bytes)} {I : α → Prop}
    (hI : ∀ st b st' b', I st → f st b = .ok (st', b') → I st')
    (he : ∀ st b, I st → g (φ st) b = mapV φ (f st b)) {st : α} (hi : I st) (b : Bytes) :
    mergeLoop g (φ st) b = mapV φ (mergeLoop f st b) := by
  unfold mergeLoop
  cases decodeVarint b with
  | error e => rfl
  | ok p =>
    simp only [loopTo_map φ hI he _ st p.2 hi]
    split
    · rfl
    · cases loopTo (p.2.length - p.1) f (p.2.length + 1) st p.2 with
      | error e => rfl
      | ok q => simp only [mapV]; split <;> rfl

theorem keyThen_map {α β : Type} (φ : α → β) {f : FieldFn α} {g : FieldFn β} {st : α} {b : Bytes}
    (he : ∀ n w b, g (φ st) n w b = mapV φ (f st n w b)) : keyThen g (φ st) b = mapV φ (keyThen f st b) := by
  unfold keyThen
  cases decodeKey b with
  | error e => rfl
  | ok p => simp only [he]

theorem groupLoop_map {α β : Type} (φ : α → β) {f : FieldFn α} {g : FieldFn β} {I : α → Prop} {tag : Nat}
    (hI : ∀ st n w b st' b', I st → f st n w b = .ok (st', b') → I st')
    (he : ∀ st n w b, I st → g (φ st) n w b = mapV φ (f st n w b)) :
    ∀ (k : Nat) st b, I st → groupLoop tag g k (φ st) b = mapV φ (groupLoop tag f k st b)
  | 0, _, _, _ => rfl
  | k + 1, st, b, hi => by
    simp only [groupLoop]
    cases decodeKey b with
    | error e => rfl
    | ok p =>
      simp only [he _ _ _ _ hi]
      split
      · split <;> rfl
      · cases hr : f st p.1 p.2.1 p.2.2 with
        | error e => rfl
        | ok q => exact groupLoop_map φ hI he k q.1 q.2 (hI _ _ _ _ _ _ hi hr)

/-! ### Nested levels -/

/-- Two field functions that do the same up to the change of numbers; the first stays within `R`. -/
def FnAcross (ρ : Nat → Nat) (R : Nat → Prop) (f g : FieldFn DynMsg) : Prop :=
  FnAgree R f f ∧ ∀ m n w b, WithinMsg R m → g (renMsg ρ m) n w b = mapV (renMsg ρ) (f m n w b)

/-- The same for the nested level. -/
def NestedAcross (ρ : Nat → Nat) (R : Nat → Prop) : Option (FieldFn DynMsg) → Option (FieldFn DynMsg) → Prop
  | none, none => True
  | some f, some g => FnAcross ρ R f g
  | _, _ => False

theorem NestedAcross.self {nf ng : Option (FieldFn DynMsg)} (h : NestedAcross ρ R nf ng) : NestedAgree R nf nf := by
  cases nf <;> cases ng <;> simp only [NestedAcross] at h
  · trivial
  · exact h.1

theorem messageMerge_across {nf ng : Option (FieldFn DynMsg)} (h : NestedAcross ρ R nf ng) {m : DynMsg}
    (hm : WithinMsg R m) (w : WireType) (b : Bytes) :
    messageMerge ng w (renMsg ρ m) b = mapV (renMsg ρ) (messageMerge nf w m b) := by
  unfold messageMerge
  split
  · rfl
  · cases nf <;> cases ng <;> simp only [NestedAcross] at h
    · rfl
    · rename_i f g
      have hI : ∀ st b st' b', WithinMsg R st → keyThen f st b = .ok (st', b') → WithinMsg R st' :=
        fun st b st' b' hi hk => keyThen_inv (I := WithinMsg R)
          (fun st n w b st' b' _ _ hi h' => (h.1 st n w b hi).2 _ _ h') hi hk
      exact mergeLoop_map (renMsg ρ) hI (fun st b hi => keyThen_map (renMsg ρ) fun n w b => h.2 st n w b hi) hm b

theorem groupMerge_across {nf ng : Option (FieldFn DynMsg)} (h : NestedAcross ρ R nf ng) {m : DynMsg}
    (hm : WithinMsg R m) (tag : Nat) (w : WireType) (b : Bytes) :
    groupMerge ng tag w (renMsg ρ m) b = mapV (renMsg ρ) (groupMerge nf tag w m b) := by
  unfold groupMerge
  split
  · rfl
  · cases nf <;> cases ng <;> simp only [NestedAcross] at h
    · rfl
    · rename_i f g
      have hI : ∀ st n w b st' b', WithinMsg R st → f st n w b = .ok (st', b') → WithinMsg R st' :=
        fun st n w b st' b' hi h' => (h.1 st n w b hi).2 _ _ h'
      exact groupLoop_map (renMsg ρ) hI (fun st n w b hi => h.2 st n w b hi) _ m b hm

/-! ### Values -/

theorem scalarDec_ren {k : Kind} {w : WireType} {b : Bytes} :
    mapV (renVal ρ) (scalarDec k w b) = scalarDec k w b := by
  cases h : scalarDec k w b with
  | error e => rfl
  | ok p =>
    obtain ⟨v, r⟩ := p
    have hs := scalarDec_ok h
    simp only [mapV]
    cases v <;> first | rfl | (cases k <;> simp [scalarOk, Value.isValid] at hs)

theorem singularMerge_across {nf ng : Option (FieldFn DynMsg)} (h : NestedAcross ρ R nf ng) (f : FieldDesc)
    {v : Value} (hv : Within R v) (w : WireType) (b : Bytes) :
    singularMerge ng (renField ρ σ f) (renVal ρ v) w b = mapV (renVal ρ) (singularMerge nf f v w b) := by
  have key : (if (renVal ρ v).isValid (renKind ρ σ f.kind) = true then scalarDec f.kind w b else .error .panic) =
      mapV (renVal ρ) (if v.isValid f.kind = true then scalarDec f.kind w b else .error .panic) := by
    rw [renKind_valid]
    by_cases hk : v.isValid f.kind = true
    · rw [if_pos hk, scalarDec_ren]
    · rw [if_neg hk]; rfl
  have ek : (renField ρ σ f).kind = renKind ρ σ f.kind := rfl
  cases v with
  | msg d fs =>
    simp only [Within] at hv
    unfold singularMerge
    simp only [renVal]
    rw [ek]
    cases hk : f.kind <;> simp only [renKind] <;> try rfl
    have e : (⟨ρ d, renSlots ρ fs⟩ : DynMsg) = renMsg ρ ⟨d, fs⟩ := rfl
    have hm : WithinMsg R ⟨d, fs⟩ := hv
    rw [e, groupMerge_across h hm, messageMerge_across h hm, mapV_mapV]
    have ev : (fun x : DynMsg => renVal ρ x.toValue) = fun x => (renMsg ρ x).toValue := by
      funext x; simp only [DynMsg.toValue, renVal, renMsg]
    rw [ev]
    by_cases hg : f.group = true
    · rw [if_pos (show (renField ρ σ f).group = true from hg), if_pos hg]
      exact mapV_mapV _ _ _
    · rw [if_neg (show ¬(renField ρ σ f).group = true from hg), if_neg hg]
      exact mapV_mapV _ _ _
  | _ =>
    unfold singularMerge
    simp only [renVal] at key ⊢
    rw [ek, renKind_dec]
    exact key

theorem renVals_append (a b : List Value) : renVals ρ (a ++ b) = renVals ρ a ++ renVals ρ b := by
  induction a with
  | nil => rfl
  | cons v r ih => simp only [List.cons_append, renVals, ih]

theorem listMerge_across {nf ng : Option (FieldFn DynMsg)} (hn : NestedAcross ρ R nf ng)
    {f : FieldDesc} (hf : InAcross S T σ R f) {vs : List Value} (hv : WithinVals R vs) (w : WireType)
    (b : Bytes) : listMerge T ng (renField ρ σ f) (renVals ρ vs) w b = mapV (renVals ρ) (listMerge S nf f vs w b) := by
  unfold Dyn.listMerge
  have ek : Dyn.kindDefault T (renField ρ σ f).kind = (Dyn.kindDefault S f.kind).map (renVal ρ) :=
    Across.kindDefault hf
  rw [ek]
  cases hk : Dyn.kindDefault S f.kind with
  | none => rfl
  | some v0 =>
    have h0 := kindDefault_across hf hk
    have push : ∀ (vs : List Value) (w : WireType) (b : Bytes),
        mapV (fun v => renVals ρ vs ++ [v]) (singularMerge ng (renField ρ σ f) (renVal ρ v0) w b) =
          mapV (renVals ρ) (mapV (fun v => vs ++ [v]) (singularMerge nf f v0 w b)) := by
      intro vs w b
      rw [singularMerge_across hn f h0, mapV_mapV, mapV_mapV]
      simp only [renVals_append, renVals]
    have hI : ∀ st b st' b', WithinVals R st →
        mapV (fun v => st ++ [v]) (singularMerge nf f v0 f.kind.wireType b) = .ok (st', b') →
        WithinVals R st' := by
      intro st b st' b' hi h'
      obtain ⟨v, hv, rfl⟩ := mapV_ok h'
      rw [withinVals_append]
      exact ⟨hi, by simp only [WithinVals, and_true]; exact (singularMerge_agree hn.self f h0 _ b).2 _ _ hv⟩
    simp only [Option.map_some, renField, renKind_packable, renKind_wireType]
    split
    · exact mergeLoop_map (renVals ρ) hI (fun st b _ => push st _ b) hv b
    · exact push vs w b

theorem Across.entryValue (h : Across S T ρ σ R) {nf ng : Option (FieldFn DynMsg)} (hn : NestedAcross ρ R nf ng)
    {f : FieldDesc} (hf : InAcross S T σ R f) {v : Value} (hv : Within R v) (w : WireType) (b : Bytes) :
    entryValueMerge T ng (renField ρ σ f) (renVal ρ v) w b = mapV (renVal ρ) (entryValueMerge S nf f v w b) := by
  cases v with
  | list vs =>
    simp only [Within] at hv
    simp only [entryValueMerge, renVal, h.isList hf]
    split
    · rw [listMerge_across hn hf hv, mapV_mapV, mapV_mapV]; simp only [renVal]
    · rfl
  | map kvs => simp only [entryValueMerge, renVal, mapV]
  | _ => exact singularMerge_across hn f hv w b

theorem insert_renMap (k : MapKey) (v : Value) : ∀ kvs : List (MapKey × Value),
    renMap ρ (KMap.insert k v kvs) = KMap.insert k (renVal ρ v) (renMap ρ kvs)
  | [] => by simp only [KMap.insert, renMap]
  | (j, u) :: r => by
    simp only [KMap.insert, renMap]
    split <;> simp only [renMap, insert_renMap k v r]

theorem Across.mapMerge (h : Across S T ρ σ R) (d : Nat) {nf ng : Option (FieldFn DynMsg)}
    (hn : NestedAcross ρ R nf ng) {i : Nat} (hi : R i) {kvs : List (MapKey × Value)} (b : Bytes) :
    mapMerge T d ng (ρ i) (renMap ρ kvs) b = mapV (renMap ρ) (mapMerge S d nf i kvs b) := by
  unfold Dyn.mapMerge
  rw [h.mapKV hi]
  cases hkv : S.mapKV i with
  | none => rfl
  | some p =>
    obtain ⟨kd, vd⟩ := p
    obtain ⟨h1, h2⟩ := h.mapKV_in hi hkv
    simp only [Option.map_some, h.fieldDefault h2]
    have ek : MapKey.default (renField ρ σ kd).kind = MapKey.default kd.kind := renKind_key kd.kind
    rw [ek]
    cases hk0 : MapKey.default kd.kind with
    | none => rfl
    | some k0 =>
      cases hv0 : Dyn.fieldDefault S vd with
      | none => rfl
      | some v0 =>
        simp only [Option.map_some]
        let I : MapKey × Value → Prop := fun kv => Within R kv.2
        let φ : MapKey × Value → MapKey × Value := fun kv => (kv.1, renVal ρ kv.2)
        have h0 : I (k0, v0) := fieldDefault_across h2 hv0
        have step : ∀ (st : MapKey × Value) n w b, I st →
            entryField T d ng (renField ρ σ kd) (renField ρ σ vd) (φ st) n w b =
              mapV φ (entryField S d nf kd vd st n w b) ∧
            ∀ st' b', entryField S d nf kd vd st n w b = .ok (st', b') → I st' := by
          intro st n w b hst
          unfold entryField
          split
          · constructor
            · rw [mapV_mapV]
              have : keyMerge (renField ρ σ kd) (φ st).1 w b = keyMerge kd st.1 w b := by
                simp only [keyMerge, renField, renKind_keyValid, renKind_dec, φ]
              rw [this]
            · intro st' b' h'
              obtain ⟨x, hx, rfl⟩ := mapV_ok h'
              exact hst
          · split
            · constructor
              · have e := h.entryValue hn h2 hst w b
                simp only [φ]
                rw [e, mapV_mapV, mapV_mapV]
              · intro st' b' h'
                obtain ⟨x, hx, rfl⟩ := mapV_ok h'
                exact (h.self.entryValue hn.self h2.self hst w b).2 _ _ hx
            · constructor
              · cases skipField d w n b <;> rfl
              · intro st' b' h'
                split at h'
                · cases h'
                · cases h'; exact hst
        have hI : ∀ st b st' b', I st → keyThen (entryField S d nf kd vd) st b = .ok (st', b') → I st' :=
          fun st b st' b' hi hk => keyThen_inv (I := I)
            (fun st n w b st' b' _ _ hi h' => (step st n w b hi).2 _ _ h') hi hk
        have e := mergeLoop_map φ (g := keyThen (entryField T d ng (renField ρ σ kd) (renField ρ σ vd))) hI
          (fun st b hi => keyThen_map φ fun n w b => (step st n w b hi).1) h0 b
        have e' : φ (k0, v0) = (k0, renVal ρ v0) := rfl
        rw [← e', e, mapV_mapV, mapV_mapV]
        simp only [insert_renMap, φ]

theorem Across.valueMerge (h : Across S T ρ σ R) (d : Nat) {nf ng : Option (FieldFn DynMsg)}
    (hn : NestedAcross ρ R nf ng) {f : FieldDesc} (hf : InAcross S T σ R f) {v : Value} (hv : Within R v)
    (w : WireType) (b : Bytes) :
    valueMerge T d ng (renField ρ σ f) (renVal ρ v) w b = mapV (renVal ρ) (valueMerge S d nf f v w b) := by
  cases v with
  | list vs =>
    simp only [Within] at hv
    simp only [Dyn.valueMerge, renVal, h.isList hf]
    split
    · rw [listMerge_across hn hf hv, mapV_mapV, mapV_mapV]; simp only [renVal]
    · rfl
  | map kvs =>
    simp only [Dyn.valueMerge, renVal, h.isMap hf]
    simp only [renField]
    cases hk : f.kind <;> simp only [renKind] <;> try rfl
    split
    · rw [h.mapMerge d hn (hf.msg _ hk), mapV_mapV, mapV_mapV]; simp only [renVal]
    · rfl
  | _ => exact singularMerge_across hn f hv w b

/-! ### Fields -/

theorem erase_renSlots (n : Nat) : ∀ fs : FieldSet, SMap.erase n (renSlots ρ fs) = renSlots ρ (SMap.erase n fs)
  | [] => rfl
  | (k, s) :: r => by
    cases s <;> simp only [renSlots, SMap.erase] <;> (repeat' split) <;> simp only [renSlots, erase_renSlots n r]

/-- The slot with types renumbered. -/
def renSlot (ρ : Nat → Nat) : Slot → Slot
  | .val v => .val (renVal ρ v)
  | s => s

theorem renSlots_cons (n : Nat) (s : Slot) (r : FieldSet) :
    renSlots ρ ((n, s) :: r) = (n, renSlot ρ s) :: renSlots ρ r := by
  cases s <;> simp only [renSlots, renSlot]

theorem insert_renSlots (n : Nat) (s : Slot) : ∀ fs : FieldSet,
    SMap.insert n (renSlot ρ s) (renSlots ρ fs) = renSlots ρ (SMap.insert n s fs)
  | [] => by simp only [SMap.insert, renSlots_cons, renSlots]
  | (k, t) :: r => by
    simp only [renSlots_cons, SMap.insert]
    (repeat' split) <;> simp only [renSlots_cons, insert_renSlots n s r]

theorem clearAll_renSlots (ns : List Nat) : ∀ fs : FieldSet,
    FieldSet.clearAll ns (renSlots ρ fs) = renSlots ρ (FieldSet.clearAll ns fs) := by
  induction ns with
  | nil => intro fs; rfl
  | cons n r ih =>
    intro fs
    have := ih (SMap.erase n fs)
    simp only [FieldSet.clearAll, List.foldl_cons, erase_renSlots] at this ⊢
    exact this

theorem Across.getMut (h : Across S T ρ σ R) {sib : List Nat} {fs : FieldSet} {f : FieldDesc}
    (hf : InAcross S T σ R f) : FieldSet.getMut T sib (renSlots ρ fs) (renField ρ σ f) =
      (FieldSet.getMut S sib fs f).map fun p => (renSlots ρ p.1, renVal ρ p.2) := by
  unfold FieldSet.getMut
  simp only [h.fieldDefault hf, clearAll_renSlots]
  have en : (renField ρ σ f).number = f.number := rfl
  rw [en, get?_renSlots]
  have hi := fun v => insert_renSlots (ρ := ρ) f.number (Slot.val v) (FieldSet.clearAll sib fs)
  simp only [renSlot] at hi
  cases hd : Dyn.fieldDefault S f with
  | none =>
    cases SMap.get? (FieldSet.clearAll sib fs) f.number with
    | none => rfl
    | some s => cases s <;> rfl
  | some v =>
    cases SMap.get? (FieldSet.clearAll sib fs) f.number with
    | none => simp only [Option.map_none, Option.map_some, hi]
    | some s => cases s <;> simp only [Option.map_some, hi]

theorem Across.mergeInto (h : Across S T ρ σ R) (d : Nat) {nf ng : Option (FieldFn DynMsg)}
    (hn : NestedAcross ρ R nf ng) {sib : List Nat} {f : FieldDesc} (hf : InAcross S T σ R f) {m : DynMsg}
    (hm : WithinMsg R m) (w : WireType) (b : Bytes) :
    mergeInto T d ng sib (renField ρ σ f) (renMsg ρ m) w b = mapV (renMsg ρ) (mergeInto S d nf sib f m w b) := by
  unfold Dyn.mergeInto
  have eg : FieldSet.getMut T sib (renMsg ρ m).fields (renField ρ σ f) = _ := h.getMut hf
  rw [eg]
  cases hg : FieldSet.getMut S sib m.fields f with
  | none => rfl
  | some p =>
    obtain ⟨fs, v⟩ := p
    have k2 := ((h.self.getMut (sib := sib) hm.2 hf.self).2 fs v hg).2
    simp only [Option.map_some, h.valueMerge d hn hf k2 w b, mapV_mapV]
    congr 1
    funext v'
    have := insert_renSlots (ρ := ρ) f.number (Slot.val v') fs
    simp only [renSlot] at this
    simp only [renMsg, FieldSet.write, ← this]
    rfl

theorem addUnknown_ren (fs : FieldSet) (n : Nat) (u : UField) :
    FieldSet.addUnknown (renSlots ρ fs) n u = (FieldSet.addUnknown fs n u).map (renSlots ρ) := by
  unfold FieldSet.addUnknown
  rw [get?_renSlots]
  have e := fun us => insert_renSlots (ρ := ρ) n (.unknown us) fs
  simp only [renSlot] at e
  cases SMap.get? fs n with
  | none => simp only [Option.map_none, Option.map_some, e]
  | some s => cases s <;> simp only [Option.map_some, Option.map_none, e]

theorem Across.mergeField (h : Across S T ρ σ R) (d : Nat) {nf ng : Option (FieldFn DynMsg)}
    (hn : NestedAcross ρ R nf ng) : FnAcross ρ R (mergeField S d nf) (mergeField T d ng) := by
  refine ⟨h.self.mergeField d hn.self, ?_⟩
  intro m n w b hm
  obtain ⟨md, td, h1, h2, _, h3, h4⟩ := h.msgs _ hm.1
  unfold Dyn.mergeField
  have e : T.msg? (renMsg ρ m).desc = some td := h2
  simp only [e, h1, getField_ren h3, h4]
  cases hf : md.getField n with
  | some f =>
    simp only [Option.map_some, siblings_ren h3]
    exact h.mergeInto d hn (h.inner _ md hm.1 h1 f (.inl (List.mem_of_find?_eq_some hf))) hm w b
  | none =>
    simp only [Option.map_none]
    cases he : md.getExtension n with
    | some f =>
      exact h.mergeInto d hn (h.inner _ md hm.1 h1 f (.inr (List.mem_of_find?_eq_some he))) hm w b
    | none =>
      simp only [Option.map_none]
      cases decUVal d n w b with
      | error e => rfl
      | ok p =>
        simp only
        have ea := addUnknown_ren (ρ := ρ) m.fields n (n, p.1)
        have ea' : FieldSet.addUnknown (renMsg ρ m).fields n (n, p.1) = _ := ea
        rw [ea']
        cases FieldSet.addUnknown m.fields n (n, p.1) <;> rfl

theorem Across.msgMerge (h : Across S T ρ σ R) : ∀ d, FnAcross ρ R (msgMerge S d) (msgMerge T d)
  | 0 => h.mergeField 0 trivial
  | d + 1 => h.mergeField (d + 1) (Across.msgMerge h d)

theorem Across.merge (h : Across S T ρ σ R) {m : DynMsg} (hm : WithinMsg R m) (b : Bytes) :
    merge T (renMsg ρ m) b = (merge S m b).map (renMsg ρ) := by
  have hM := h.msgMerge recursionLimit
  have hI : ∀ st b st' b', WithinMsg R st → keyThen (Dyn.msgMerge S recursionLimit) st b = .ok (st', b') →
      WithinMsg R st' :=
    fun st b st' b' hi hk => keyThen_inv (I := WithinMsg R)
      (fun st n w b st' b' _ _ hi h' => (hM.1 st n w b hi).2 _ _ h') hi hk
  have e : mergeAll (Dyn.msgMerge T recursionLimit) (renMsg ρ m) b =
      mapV (renMsg ρ) (mergeAll (Dyn.msgMerge S recursionLimit) m b) :=
    loopTo_map (renMsg ρ) hI (fun st b hi => keyThen_map (renMsg ρ) fun n w b => hM.2 st n w b hi) _ m b hm
  unfold Dyn.merge
  rw [e]
  cases mergeAll (Dyn.msgMerge S recursionLimit) m b <;> rfl

theorem Across.decode (h : Across S T ρ σ R) {d : Nat} (hd : R d) (b : Bytes) :
    decode T (ρ d) b = (decode S d b).map (renMsg ρ) := by
  have := h.merge (m := DynMsg.empty d) ⟨hd, by simp only [DynMsg.empty, WithinSlots]⟩ b
  simpa only [Dyn.decode, renMsg, DynMsg.empty, renSlots] using this

end
end Verif.Dyn
