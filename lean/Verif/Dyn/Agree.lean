import Verif.Dyn.Conf
/-!
Two schemas that agree on the types reachable from some messages treat those messages alike: the
encoder, the length and the decoder look at nothing else.
-/
set_option autoImplicit false
namespace Verif.Dyn
open Verif.Wire

mutual
/-- All messages inside a value have a type in `R`. -/
def Within (R : Nat → Prop) : Value → Prop
  | .msg d fs => R d ∧ WithinSlots R fs
  | .list vs => WithinVals R vs
  | .map kvs => WithinMap R kvs
  | _ => True
def WithinVals (R : Nat → Prop) : List Value → Prop
  | [] => True
  | v :: r => Within R v ∧ WithinVals R r
def WithinMap (R : Nat → Prop) : List (MapKey × Value) → Prop
  | [] => True
  | (_, v) :: r => Within R v ∧ WithinMap R r
def WithinSlots (R : Nat → Prop) : List (Nat × Slot) → Prop
  | [] => True
  | (_, .val v) :: r => Within R v ∧ WithinSlots R r
  | (_, .taken) :: r => WithinSlots R r
  | (_, .unknown _) :: r => WithinSlots R r
end

/-- The type of a field is in `R`, or an enum both schemas know alike. -/
structure InAgree (S S' : Schema) (R : Nat → Prop) (f : FieldDesc) : Prop where
  msg : ∀ i, f.kind = .message i → R i
  enum : ∀ e, f.kind = .enum e → S'.enums[e]? = S.enums[e]?
  default : ∀ v, f.default = some v → Within R v

/-- Both schemas have the same messages in `R`, and these refer to `R` only. -/
structure ViewAgree (S S' : Schema) (R : Nat → Prop) : Prop where
  msgs : ∀ d, R d → S'.msg? d = S.msg? d
  inner : ∀ d md, R d → S.msg? d = some md → ∀ f, f ∈ md.fields ∨ f ∈ md.extensions → InAgree S S' R f

section
variable {S S' : Schema} {R : Nat → Prop}

theorem ViewAgree.field (h : ViewAgree S S' R) {d : Nat} (hd : R d) (n : Nat) : S'.field? d n = S.field? d n := by
  simp only [Schema.field?, h.msgs d hd]

theorem ViewAgree.ext (h : ViewAgree S S' R) {d : Nat} (hd : R d) (n : Nat) : S'.ext? d n = S.ext? d n := by
  simp only [Schema.ext?, h.msgs d hd]

theorem ViewAgree.field_in (h : ViewAgree S S' R) {d : Nat} (hd : R d) {n : Nat} {f : FieldDesc}
    (hf : S.field? d n = some f) : InAgree S S' R f := by
  simp only [Schema.field?, Option.bind_eq_some_iff] at hf
  obtain ⟨md, h1, h2⟩ := hf
  exact h.inner d md hd h1 f (.inl (List.mem_of_find?_eq_some h2))

theorem ViewAgree.ext_in (h : ViewAgree S S' R) {d : Nat} (hd : R d) {n : Nat} {f : FieldDesc}
    (hf : S.ext? d n = some f) : InAgree S S' R f := by
  simp only [Schema.ext?, Option.bind_eq_some_iff] at hf
  obtain ⟨md, h1, h2⟩ := hf
  exact h.inner d md hd h1 f (.inr (List.mem_of_find?_eq_some h2))

variable {f : FieldDesc}

theorem ViewAgree.isMap (h : ViewAgree S S' R) (hf : InAgree S S' R f) : isMap S' f = isMap S f := by
  unfold Dyn.isMap
  cases hk : f.kind <;> simp only
  simp only [Schema.isMapEntry, h.msgs _ (hf.msg _ hk)]

theorem ViewAgree.isList (h : ViewAgree S S' R) (hf : InAgree S S' R f) : isList S' f = isList S f := by
  simp only [Dyn.isList, h.isMap hf]

theorem ViewAgree.kindDefault (hf : InAgree S S' R f) : kindDefault S' f.kind = kindDefault S f.kind := by
  unfold Dyn.kindDefault
  cases hk : f.kind <;> simp only
  simp only [Schema.enumDefault, hf.enum _ hk]

theorem ViewAgree.fieldDefault (h : ViewAgree S S' R) (hf : InAgree S S' R f) :
    fieldDefault S' f = fieldDefault S f := by
  simp only [Dyn.fieldDefault, h.isMap hf, h.isList hf, ViewAgree.kindDefault hf]

theorem ViewAgree.isDefault (h : ViewAgree S S' R) (hf : InAgree S S' R f) (v : Value) :
    isDefault S' f v = isDefault S f v := by
  simp only [Dyn.isDefault, h.fieldDefault hf]

theorem ViewAgree.hasVal (h : ViewAgree S S' R) (hf : InAgree S S' R f) (v : Value) :
    hasVal S' f v = hasVal S f v := by
  simp only [Dyn.hasVal, h.isDefault hf]

theorem ViewAgree.unless (h : ViewAgree S S' R) (hf : InAgree S S' R f) {α : Type} (v : Value) (z : α)
    (k : Option α) : unlessDefault S' f v z k = unlessDefault S f v z k := by
  simp only [unlessDefault, h.isDefault hf]

theorem ViewAgree.mapKV (h : ViewAgree S S' R) {i : Nat} (hi : R i) : S'.mapKV i = S.mapKV i := by
  simp only [Schema.mapKV, h.field hi]

theorem ViewAgree.mapKV_in (h : ViewAgree S S' R) {i : Nat} (hi : R i) {kd vd : FieldDesc}
    (hkv : S.mapKV i = some (kd, vd)) : InAgree S S' R kd ∧ InAgree S S' R vd := by
  unfold Schema.mapKV at hkv
  split at hkv
  · next k v hk hv =>
    cases hkv
    exact ⟨h.field_in hi hk, h.field_in hi hv⟩
  · cases hkv

theorem ViewAgree.ifPresent {α : Type} (h : ViewAgree S S' R) {f? : Option FieldDesc}
    (hf : ∀ f, f? = some f → InAgree S S' R f) (v : Value) (z : α) {k k' : FieldDesc → Option α}
    (hk : ∀ f, f? = some f → k' f = k f) : ifPresent S' f? v z k' = ifPresent S f? v z k := by
  cases hff : f? with
  | none => rfl
  | some f => simp only [Dyn.ifPresent, h.hasVal (hf f hff), hk f hff]

mutual
theorem ViewAgree.lenVal (h : ViewAgree S S' R) {f : FieldDesc} (hf : InAgree S S' R f) :
    (v : Value) → Within R v → lenVal S' f v = lenVal S f v
  | .msg d fs, hw => by
    simp only [Within] at hw
    simp only [Dyn.lenVal, h.unless hf, ViewAgree.lenSlots h hw.1 fs hw.2]
  | .list vs, hw => by
    simp only [Within] at hw
    simp only [Dyn.lenVal, h.unless hf, h.isList hf, ViewAgree.lenVals h hf vs hw]
  | .map kvs, hw => by
    simp only [Within] at hw
    simp only [Dyn.lenVal, h.unless hf, h.isMap hf]
    congr 1
    cases hk : f.kind <;> simp only
    rename_i i
    have hi := hf.msg i hk
    rw [h.mapKV hi]
    cases hkv : S.mapKV i with
    | none => rfl
    | some p =>
      obtain ⟨kd, vd⟩ := p
      obtain ⟨_, h2⟩ := h.mapKV_in hi hkv
      simp only [ViewAgree.lenMapEntries h h2 kd f.number kvs hw]
  | .bool _, _ | .i32 _, _ | .i64 _, _ | .u32 _, _ | .u64 _, _ | .f32 _, _ | .f64 _, _ | .str _, _
  | .bytes _, _ | .enum _, _ => by simp only [Dyn.lenVal, h.unless hf]
theorem ViewAgree.lenVals (h : ViewAgree S S' R) {f : FieldDesc} (hf : InAgree S S' R f) :
    (vs : List Value) → WithinVals R vs → lenVals S' f vs = lenVals S f vs
  | [], _ => by simp only [Dyn.lenVals]
  | v :: r, hw => by
    simp only [WithinVals] at hw
    simp only [Dyn.lenVals, ViewAgree.lenVal h hf v hw.1, ViewAgree.lenVals h hf r hw.2]
theorem ViewAgree.lenMapEntries (h : ViewAgree S S' R) {vd : FieldDesc} (hf : InAgree S S' R vd)
    (kd : FieldDesc) (n : Nat) : (kvs : List (MapKey × Value)) → WithinMap R kvs →
      lenMapEntries S' n kd vd kvs = lenMapEntries S n kd vd kvs
  | [], _ => by simp only [Dyn.lenMapEntries]
  | (k, v) :: r, hw => by
    simp only [WithinMap] at hw
    simp only [Dyn.lenMapEntries, ViewAgree.lenVal h hf v hw.1, ViewAgree.lenMapEntries h hf kd n r hw.2]
theorem ViewAgree.lenSlots (h : ViewAgree S S' R) {d : Nat} (hd : R d) :
    (fs : List (Nat × Slot)) → WithinSlots R fs → lenSlots S' d fs = lenSlots S d fs
  | [], _ => by simp only [Dyn.lenSlots]
  | (_, .taken) :: r, hw => by
    simp only [WithinSlots] at hw
    simp only [Dyn.lenSlots, ViewAgree.lenSlots h hd r hw]
  | (_, .unknown u) :: r, hw => by
    simp only [WithinSlots] at hw
    simp only [Dyn.lenSlots, ViewAgree.lenSlots h hd r hw]
  | (n, .val v) :: r, hw => by
    simp only [WithinSlots] at hw
    simp only [Dyn.lenSlots, ViewAgree.lenSlots h hd r hw.2, h.field hd, h.ext hd]
    rw [h.ifPresent (fun f hf => h.field_in hd hf) v 0 (fun f hf => ViewAgree.lenVal h (h.field_in hd hf) v hw.1),
      h.ifPresent (fun f hf => h.ext_in hd hf) v 0 (fun f hf => ViewAgree.lenVal h (h.ext_in hd hf) v hw.1)]
end

mutual
theorem ViewAgree.encVal (h : ViewAgree S S' R) {f : FieldDesc} (hf : InAgree S S' R f) :
    (v : Value) → Within R v → encVal S' f v = encVal S f v
  | .msg d fs, hw => by
    simp only [Within] at hw
    simp only [Dyn.encVal, h.unless hf, ViewAgree.encSlots h hw.1 fs hw.2, h.lenSlots hw.1 fs hw.2]
  | .list vs, hw => by
    simp only [Within] at hw
    simp only [Dyn.encVal, h.unless hf, h.isList hf, ViewAgree.encVals h hf vs hw]
  | .map kvs, hw => by
    simp only [Within] at hw
    simp only [Dyn.encVal, h.unless hf, h.isMap hf]
    congr 1
    cases hk : f.kind <;> simp only
    rename_i i
    have hi := hf.msg i hk
    rw [h.mapKV hi]
    cases hkv : S.mapKV i with
    | none => rfl
    | some p =>
      obtain ⟨kd, vd⟩ := p
      obtain ⟨_, h2⟩ := h.mapKV_in hi hkv
      simp only [ViewAgree.encMapEntries h h2 kd f.number kvs hw]
  | .bool _, _ | .i32 _, _ | .i64 _, _ | .u32 _, _ | .u64 _, _ | .f32 _, _ | .f64 _, _ | .str _, _
  | .bytes _, _ | .enum _, _ => by simp only [Dyn.encVal, h.unless hf]
theorem ViewAgree.encVals (h : ViewAgree S S' R) {f : FieldDesc} (hf : InAgree S S' R f) :
    (vs : List Value) → WithinVals R vs → encVals S' f vs = encVals S f vs
  | [], _ => by simp only [Dyn.encVals]
  | v :: r, hw => by
    simp only [WithinVals] at hw
    simp only [Dyn.encVals, ViewAgree.encVal h hf v hw.1, ViewAgree.encVals h hf r hw.2]
theorem ViewAgree.encMapEntries (h : ViewAgree S S' R) {vd : FieldDesc} (hf : InAgree S S' R vd)
    (kd : FieldDesc) (n : Nat) : (kvs : List (MapKey × Value)) → WithinMap R kvs →
      encMapEntries S' n kd vd kvs = encMapEntries S n kd vd kvs
  | [], _ => by simp only [Dyn.encMapEntries]
  | (k, v) :: r, hw => by
    simp only [WithinMap] at hw
    simp only [Dyn.encMapEntries, h.lenVal hf v hw.1, ViewAgree.encVal h hf v hw.1,
      ViewAgree.encMapEntries h hf kd n r hw.2]
theorem ViewAgree.encSlots (h : ViewAgree S S' R) {d : Nat} (hd : R d) :
    (fs : List (Nat × Slot)) → WithinSlots R fs → encSlots S' d fs = encSlots S d fs
  | [], _ => by simp only [Dyn.encSlots]
  | (_, .taken) :: r, hw => by
    simp only [WithinSlots] at hw
    simp only [Dyn.encSlots, ViewAgree.encSlots h hd r hw]
  | (_, .unknown u) :: r, hw => by
    simp only [WithinSlots] at hw
    simp only [Dyn.encSlots, ViewAgree.encSlots h hd r hw]
  | (n, .val v) :: r, hw => by
    simp only [WithinSlots] at hw
    simp only [Dyn.encSlots, ViewAgree.encSlots h hd r hw.2, h.field hd, h.ext hd]
    rw [h.ifPresent (fun f hf => h.field_in hd hf) v [] (fun f hf => ViewAgree.encVal h (h.field_in hd hf) v hw.1),
      h.ifPresent (fun f hf => h.ext_in hd hf) v [] (fun f hf => ViewAgree.encVal h (h.ext_in hd hf) v hw.1)]
end

/-- A message of a type in `R`, down to its innermost messages. -/
def WithinMsg (R : Nat → Prop) (m : DynMsg) : Prop := R m.desc ∧ WithinSlots R m.fields

theorem ViewAgree.encMsg (h : ViewAgree S S' R) {m : DynMsg} (hm : WithinMsg R m) : encMsg S' m = encMsg S m := by
  simp only [Dyn.encMsg, h.encSlots hm.1 m.fields hm.2]

theorem ViewAgree.lenMsg (h : ViewAgree S S' R) {m : DynMsg} (hm : WithinMsg R m) : lenMsg S' m = lenMsg S m :=
  h.lenSlots hm.1 m.fields hm.2

/-! ### Decoding -/

theorem loopTo_congr {σ : Type} {f g : σ → Bytes → Wire.R (σ × Bytes)} {I : σ → Prop} {limit : Nat}
    (hI : ∀ st b st' b', I st → f st b = .ok (st', b') → I st') (he : ∀ st b, I st → g st b = f st b) :
    ∀ (n : Nat) st b, I st → loopTo limit g n st b = loopTo limit f n st b
  | 0, _, _, _ => rfl
  | n + 1, st, b, hi => by
    simp only [loopTo, he st b hi]
    split
    · rfl
    · cases hr : f st b with
      | error e => rfl
      | ok p =>
        obtain ⟨st', b'⟩ := p
        exact loopTo_congr hI he n st' b' (hI st b st' b' hi hr)

theorem mergeLoop_congr {σ : Type} {f g : σ → Bytes → Wire.R (σ × Bytes)} {I : σ → Prop}
    (hI : ∀ st b st' b', I st → f st b = .ok (st', b') → I st') (he : ∀ st b, I st → g st b = f st b)
    {st : σ} (hi : I st) (b : Bytes) : mergeLoop g st b = mergeLoop f st b := by
  unfold mergeLoop
  cases decodeVarint b with
  | error e => rfl
  | ok p => simp only [loopTo_congr hI he _ st p.2 hi]

theorem keyThen_congr {σ : Type} {f g : FieldFn σ} {st : σ} {b : Bytes}
    (he : ∀ n w b, g st n w b = f st n w b) : keyThen g st b = keyThen f st b := by
  unfold keyThen
  cases decodeKey b with
  | error e => rfl
  | ok p => simp only [he]

theorem groupLoop_congr {σ : Type} {f g : FieldFn σ} {I : σ → Prop} {tag : Nat}
    (hI : ∀ st n w b st' b', I st → f st n w b = .ok (st', b') → I st')
    (he : ∀ st n w b, I st → g st n w b = f st n w b) :
    ∀ (k : Nat) st b, I st → groupLoop tag g k st b = groupLoop tag f k st b
  | 0, _, _, _ => rfl
  | k + 1, st, b, hi => by
    simp only [groupLoop]
    cases decodeKey b with
    | error e => rfl
    | ok p =>
      simp only [he _ _ _ _ hi]
      split
      · rfl
      · cases hr : f st p.1 p.2.1 p.2.2 with
        | error e => rfl
        | ok q => exact groupLoop_congr hI he k q.1 q.2 (hI _ _ _ _ _ _ hi hr)

/-- Two field functions that agree on messages within `R` and stay there. -/
def FnAgree (R : Nat → Prop) (f g : FieldFn DynMsg) : Prop :=
  ∀ m n w b, WithinMsg R m → g m n w b = f m n w b ∧
    ∀ m' b', f m n w b = .ok (m', b') → WithinMsg R m'

/-- The same for the nested level. -/
def NestedAgree (R : Nat → Prop) : Option (FieldFn DynMsg) → Option (FieldFn DynMsg) → Prop
  | none, none => True
  | some f, some g => FnAgree R f g
  | _, _ => False

theorem messageMerge_agree {nf ng : Option (FieldFn DynMsg)} (h : NestedAgree R nf ng) {m : DynMsg}
    (hm : WithinMsg R m) (w : WireType) (b : Bytes) : messageMerge ng w m b = messageMerge nf w m b ∧
      ∀ m' b', messageMerge nf w m b = .ok (m', b') → WithinMsg R m' := by
  unfold messageMerge
  split
  · exact ⟨rfl, fun _ _ h => by cases h⟩
  · cases nf <;> cases ng <;> simp only [NestedAgree] at h
    · exact ⟨rfl, fun _ _ h => by cases h⟩
    · rename_i f g
      have hI : ∀ st b st' b', WithinMsg R st → keyThen f st b = .ok (st', b') → WithinMsg R st' :=
        fun st b st' b' hi hk => keyThen_inv (I := WithinMsg R)
          (fun st n w b st' b' _ _ hi h' => (h st n w b hi).2 _ _ h') hi hk
      exact ⟨mergeLoop_congr hI (fun st b hi => keyThen_congr fun n w b => (h st n w b hi).1) hm b,
        fun m' b' h' => mergeLoop_inv hI hm h'⟩

theorem groupMerge_agree {nf ng : Option (FieldFn DynMsg)} (h : NestedAgree R nf ng) {m : DynMsg}
    (hm : WithinMsg R m) (tag : Nat) (w : WireType) (b : Bytes) :
    groupMerge ng tag w m b = groupMerge nf tag w m b ∧
      ∀ m' b', groupMerge nf tag w m b = .ok (m', b') → WithinMsg R m' := by
  unfold groupMerge
  split
  · exact ⟨rfl, fun _ _ h => by cases h⟩
  · cases nf <;> cases ng <;> simp only [NestedAgree] at h
    · exact ⟨rfl, fun _ _ h => by cases h⟩
    · rename_i f g
      have hI : ∀ st n w b st' b', WithinMsg R st → f st n w b = .ok (st', b') → WithinMsg R st' :=
        fun st n w b st' b' hi h' => (h st n w b hi).2 _ _ h'
      exact ⟨groupLoop_congr hI (fun st n w b hi => (h st n w b hi).1) _ m b hm,
        fun m' b' h' => groupLoop_inv (fun st n w b st' b' _ _ => hI st n w b st' b') _ _ _ _ _ _ hm h'⟩

theorem scalarDec_within {k : Kind} {w : WireType} {b r : Bytes} {v : Value}
    (h : scalarDec k w b = .ok (v, r)) : Within R v := by
  have hs := scalarDec_ok h
  cases v <;> first | trivial | (cases k <;> simp [scalarOk, Value.isValid] at hs)

theorem singularMerge_agree {nf ng : Option (FieldFn DynMsg)} (h : NestedAgree R nf ng) (f : FieldDesc)
    {v : Value} (hv : Within R v) (w : WireType) (b : Bytes) :
    singularMerge ng f v w b = singularMerge nf f v w b ∧
      ∀ v' b', singularMerge nf f v w b = .ok (v', b') → Within R v' := by
  cases v with
  | msg d fs =>
    simp only [Within] at hv
    unfold singularMerge
    simp only
    cases hk : f.kind <;> first
      | exact ⟨rfl, fun _ _ h => by cases h⟩
      | skip
    simp only
    have key : ∀ (r r' : Wire.R (DynMsg × Bytes)), (r' = r ∧ ∀ m' b', r = .ok (m', b') → WithinMsg R m') →
        mapV DynMsg.toValue r' = mapV DynMsg.toValue r ∧
        ∀ v' b', mapV DynMsg.toValue r = .ok (v', b') → Within R v' := by
      rintro r r' ⟨rfl, h2⟩
      refine ⟨rfl, fun v' b' h' => ?_⟩
      obtain ⟨m, hm, rfl⟩ := mapV_ok h'
      have := h2 _ _ hm
      simp only [DynMsg.toValue, Within]
      exact this
    split
    · exact key _ _ (groupMerge_agree h ⟨hv.1, hv.2⟩ f.number w b)
    · exact key _ _ (messageMerge_agree h ⟨hv.1, hv.2⟩ w b)
  | _ =>
    unfold singularMerge
    simp only
    refine ⟨trivial, fun v' b' h' => ?_⟩
    split at h'
    · exact scalarDec_within h'
    · cases h'

theorem withinVals_append {a b : List Value} : WithinVals R (a ++ b) ↔ WithinVals R a ∧ WithinVals R b := by
  induction a with
  | nil => simp [WithinVals]
  | cons v r ih => simp [WithinVals, ih, and_assoc]

theorem kindDefault_within {f : FieldDesc} (hf : InAgree S S' R f) {v : Value}
    (hv : kindDefault S f.kind = some v) : Within R v := by
  cases hk : f.kind <;> rw [hk] at hv <;> simp only [Dyn.kindDefault] at hv
  case enum e =>
    rw [Option.map_eq_some_iff] at hv
    obtain ⟨_, _, rfl⟩ := hv
    trivial
  case message i =>
    cases hv
    simp only [Within, WithinSlots, and_true]
    exact hf.msg i hk
  all_goals cases hv; trivial

theorem fieldDefault_within {f : FieldDesc} (hf : InAgree S S' R f) {v : Value}
    (hv : fieldDefault S f = some v) : Within R v := by
  unfold Dyn.fieldDefault at hv
  split at hv
  · cases hv; simp only [Within, WithinVals]
  · split at hv
    · cases hv; simp only [Within, WithinMap]
    · split at hv
      · next v' hd => cases hv; exact hf.default _ hd
      · exact kindDefault_within hf hv

theorem ViewAgree.listMerge (_ : ViewAgree S S' R) {nf ng : Option (FieldFn DynMsg)} (hn : NestedAgree R nf ng)
    {f : FieldDesc} (hf : InAgree S S' R f) {vs : List Value} (hv : WithinVals R vs) (w : WireType)
    (b : Bytes) : listMerge S' ng f vs w b = listMerge S nf f vs w b ∧
      ∀ vs' b', listMerge S nf f vs w b = .ok (vs', b') → WithinVals R vs' := by
  unfold Dyn.listMerge
  rw [ViewAgree.kindDefault hf]
  cases hk : Dyn.kindDefault S f.kind with
  | none => exact ⟨rfl, fun _ _ h => by cases h⟩
  | some v0 =>
    have h0 := kindDefault_within hf hk
    have push : ∀ (vs : List Value) (w : WireType) (b : Bytes), WithinVals R vs →
        mapV (fun v => vs ++ [v]) (singularMerge ng f v0 w b) =
          mapV (fun v => vs ++ [v]) (singularMerge nf f v0 w b) ∧
        ∀ vs' b', mapV (fun v => vs ++ [v]) (singularMerge nf f v0 w b) = .ok (vs', b') →
          WithinVals R vs' := by
      intro vs w b hvs
      obtain ⟨e1, e2⟩ := singularMerge_agree hn f h0 w b
      refine ⟨by rw [e1], fun vs' b' h' => ?_⟩
      obtain ⟨v, hv, rfl⟩ := mapV_ok h'
      rw [withinVals_append]
      exact ⟨hvs, by simp only [WithinVals, and_true]; exact e2 _ _ hv⟩
    simp only
    split
    · have hI : ∀ st b st' b', WithinVals R st →
          mapV (fun v => st ++ [v]) (singularMerge nf f v0 f.kind.wireType b) = .ok (st', b') →
          WithinVals R st' := fun st b st' b' hi h' => (push st _ b hi).2 st' b' h'
      exact ⟨mergeLoop_congr hI (fun st b hi => (push st _ b hi).1) hv b,
        fun vs' b' h' => mergeLoop_inv hI hv h'⟩
    · exact push vs w b hv

theorem ViewAgree.entryValue (h : ViewAgree S S' R) {nf ng : Option (FieldFn DynMsg)} (hn : NestedAgree R nf ng)
    {f : FieldDesc} (hf : InAgree S S' R f) {v : Value} (hv : Within R v) (w : WireType)
    (b : Bytes) : entryValueMerge S' ng f v w b = entryValueMerge S nf f v w b ∧
      ∀ v' b', entryValueMerge S nf f v w b = .ok (v', b') → Within R v' := by
  cases v with
  | list vs =>
    simp only [Within] at hv
    simp only [entryValueMerge, h.isList hf]
    split
    · obtain ⟨e1, e2⟩ := h.listMerge hn hf hv w b
      refine ⟨by rw [e1], fun v' b' h' => ?_⟩
      obtain ⟨x, hx, rfl⟩ := mapV_ok h'
      simp only [Within]; exact e2 _ _ hx
    · exact ⟨rfl, fun _ _ h => by cases h⟩
  | map kvs => exact ⟨rfl, fun _ _ h => by cases h⟩
  | _ => exact singularMerge_agree hn f hv w b

theorem withinMap_insert {kvs : List (MapKey × Value)} {k : MapKey} {v : Value} (h : WithinMap R kvs)
    (hv : Within R v) : WithinMap R (KMap.insert k v kvs) := by
  have iff : ∀ l : List (MapKey × Value), WithinMap R l ↔ ∀ p ∈ l, Within R p.2 := by
    intro l
    induction l with
    | nil => simp [WithinMap]
    | cons p r ih => obtain ⟨k, v⟩ := p; simp [WithinMap, ih]
  rw [iff] at *
  intro p hp
  rcases KMap.mem_insert hp with rfl | hp
  · exact hv
  · exact h p hp

theorem ViewAgree.mapMerge (h : ViewAgree S S' R) (d : Nat) {nf ng : Option (FieldFn DynMsg)}
    (hn : NestedAgree R nf ng) {i : Nat} (hi : R i) {kvs : List (MapKey × Value)} (hv : WithinMap R kvs)
    (b : Bytes) : mapMerge S' d ng i kvs b = mapMerge S d nf i kvs b ∧
      ∀ kvs' b', mapMerge S d nf i kvs b = .ok (kvs', b') → WithinMap R kvs' := by
  unfold Dyn.mapMerge
  rw [h.mapKV hi]
  cases hkv : S.mapKV i with
  | none => exact ⟨rfl, fun _ _ h => by cases h⟩
  | some p =>
    obtain ⟨kd, vd⟩ := p
    obtain ⟨h1, h2⟩ := h.mapKV_in hi hkv
    simp only [h.fieldDefault h2]
    split
    · next k0 v0 hk0 hv0 =>
      let I : MapKey × Value → Prop := fun kv => Within R kv.2
      have h0 : I (k0, v0) := fieldDefault_within h2 hv0
      have step : ∀ (st : MapKey × Value) n w b, I st →
          entryField S' d ng kd vd st n w b = entryField S d nf kd vd st n w b ∧
          ∀ st' b', entryField S d nf kd vd st n w b = .ok (st', b') → I st' := by
        intro st n w b hst
        unfold entryField
        split
        · refine ⟨rfl, fun st' b' h' => ?_⟩
          obtain ⟨x, hx, rfl⟩ := mapV_ok h'
          exact hst
        · split
          · obtain ⟨e1, e2⟩ := h.entryValue hn h2 hst w b
            refine ⟨by rw [e1], fun st' b' h' => ?_⟩
            obtain ⟨x, hx, rfl⟩ := mapV_ok h'
            exact e2 _ _ hx
          · refine ⟨rfl, fun st' b' h' => ?_⟩
            split at h'
            · cases h'
            · cases h'; exact hst
      have hI : ∀ st b st' b', I st → keyThen (entryField S d nf kd vd) st b = .ok (st', b') → I st' :=
        fun st b st' b' hi hk => keyThen_inv (I := I)
          (fun st n w b st' b' _ _ hi h' => (step st n w b hi).2 _ _ h') hi hk
      have e := mergeLoop_congr (g := keyThen (entryField S' d ng kd vd)) hI
        (fun st b hi => keyThen_congr fun n w b => (step st n w b hi).1) h0 b
      refine ⟨by rw [e], fun kvs' b' h' => ?_⟩
      obtain ⟨x, hx, rfl⟩ := mapV_ok h'
      exact withinMap_insert hv (mergeLoop_inv hI h0 hx)
    · exact ⟨rfl, fun _ _ h => by cases h⟩

theorem ViewAgree.valueMerge (h : ViewAgree S S' R) (d : Nat) {nf ng : Option (FieldFn DynMsg)}
    (hn : NestedAgree R nf ng) {f : FieldDesc} (hf : InAgree S S' R f) {v : Value} (hv : Within R v)
    (w : WireType) (b : Bytes) : valueMerge S' d ng f v w b = valueMerge S d nf f v w b ∧
      ∀ v' b', valueMerge S d nf f v w b = .ok (v', b') → Within R v' := by
  cases v with
  | list vs =>
    simp only [Within] at hv
    simp only [Dyn.valueMerge, h.isList hf]
    split
    · obtain ⟨e1, e2⟩ := h.listMerge hn hf hv w b
      refine ⟨by rw [e1], fun v' b' h' => ?_⟩
      obtain ⟨x, hx, rfl⟩ := mapV_ok h'
      simp only [Within]; exact e2 _ _ hx
    · exact ⟨rfl, fun _ _ h => by cases h⟩
  | map kvs =>
    simp only [Within] at hv
    simp only [Dyn.valueMerge, h.isMap hf]
    cases hk : f.kind <;> first
      | exact ⟨rfl, fun _ _ h => by cases h⟩
      | skip
    rename_i i
    simp only
    split
    · obtain ⟨e1, e2⟩ := h.mapMerge d hn (hf.msg i hk) hv b
      refine ⟨by rw [e1], fun v' b' h' => ?_⟩
      obtain ⟨x, hx, rfl⟩ := mapV_ok h'
      simp only [Within]; exact e2 _ _ hx
    · exact ⟨rfl, fun _ _ h => by cases h⟩
  | _ => exact singularMerge_agree hn f hv w b

theorem withinSlots_iff (l : FieldSet) : WithinSlots R l ↔ ∀ n v, (n, Slot.val v) ∈ l → Within R v := by
  induction l with
  | nil => simp [WithinSlots]
  | cons p r ih =>
    obtain ⟨n, s⟩ := p
    cases s with
    | val v =>
      simp only [WithinSlots, ih, List.mem_cons, Prod.mk.injEq, Slot.val.injEq]
      constructor
      · rintro ⟨h1, h2⟩ n' v' (⟨_, rfl⟩ | h)
        · exact h1
        · exact h2 _ _ h
      · intro h
        exact ⟨h n v (.inl ⟨rfl, rfl⟩), fun n' v' h' => h n' v' (.inr h')⟩
    | _ => simp [WithinSlots, ih]

theorem withinSlots_erase {l : FieldSet} {n : Nat} (h : WithinSlots R l) : WithinSlots R (SMap.erase n l) := by
  rw [withinSlots_iff] at *
  exact fun n' v' h' => h n' v' (SMap.mem_erase h')

theorem withinSlots_insert {l : FieldSet} {n : Nat} {s : Slot} (h : WithinSlots R l)
    (hs : ∀ v, s = .val v → Within R v) : WithinSlots R (SMap.insert n s l) := by
  rw [withinSlots_iff] at *
  intro n' v' h'
  rcases SMap.mem_insert h' with e | h'
  · cases e; exact hs _ rfl
  · exact h n' v' h'

theorem withinSlots_clearAll {ns : List Nat} : ∀ {l : FieldSet}, WithinSlots R l →
    WithinSlots R (FieldSet.clearAll ns l) := by
  induction ns with
  | nil => intro l h; exact h
  | cons n ns ih => intro l h; exact ih (withinSlots_erase h)

theorem ViewAgree.getMut (h : ViewAgree S S' R) {sib : List Nat} {fs : FieldSet} (hfs : WithinSlots R fs)
    {f : FieldDesc} (hf : InAgree S S' R f) :
    FieldSet.getMut S' sib fs f = FieldSet.getMut S sib fs f ∧
      ∀ fs' v, FieldSet.getMut S sib fs f = some (fs', v) → WithinSlots R fs' ∧ Within R v := by
  have hc := withinSlots_clearAll (ns := sib) hfs
  unfold FieldSet.getMut
  simp only [h.fieldDefault hf]
  split
  · next v hg =>
    refine ⟨trivial, fun fs' v' h' => ?_⟩
    cases h'
    exact ⟨hc, (withinSlots_iff _).1 hc _ _ (SMap.mem_of_get? hg)⟩
  · refine ⟨trivial, fun fs' v' h' => ?_⟩
    split at h'
    · next v hd =>
      cases h'
      have := fieldDefault_within hf hd
      exact ⟨withinSlots_insert hc fun v e => by cases e; exact this, this⟩
    · cases h'

theorem ViewAgree.mergeInto (h : ViewAgree S S' R) (d : Nat) {nf ng : Option (FieldFn DynMsg)}
    (hn : NestedAgree R nf ng) {sib : List Nat} {f : FieldDesc} (hf : InAgree S S' R f) {m : DynMsg}
    (hm : WithinMsg R m) (w : WireType) (b : Bytes) :
    mergeInto S' d ng sib f m w b = mergeInto S d nf sib f m w b ∧
      ∀ m' b', mergeInto S d nf sib f m w b = .ok (m', b') → WithinMsg R m' := by
  obtain ⟨g1, g2⟩ := h.getMut (sib := sib) hm.2 hf
  unfold Dyn.mergeInto
  rw [g1]
  cases hg : FieldSet.getMut S sib m.fields f with
  | none => exact ⟨rfl, fun _ _ h => by cases h⟩
  | some p =>
    obtain ⟨fs, v⟩ := p
    obtain ⟨k1, k2⟩ := g2 fs v hg
    obtain ⟨e1, e2⟩ := h.valueMerge d hn hf k2 w b
    simp only
    refine ⟨by rw [e1], fun m' b' h' => ?_⟩
    obtain ⟨x, hx, rfl⟩ := mapV_ok h'
    exact ⟨hm.1, withinSlots_insert k1 fun v e => by cases e; exact e2 _ _ hx⟩

theorem ViewAgree.mergeField (h : ViewAgree S S' R) (d : Nat) {nf ng : Option (FieldFn DynMsg)}
    (hn : NestedAgree R nf ng) : FnAgree R (mergeField S d nf) (mergeField S' d ng) := by
  intro m n w b hm
  unfold Dyn.mergeField
  rw [h.msgs _ hm.1]
  cases hmd : S.msg? m.desc with
  | none => exact ⟨rfl, fun _ _ h => by cases h⟩
  | some md =>
    simp only
    cases hf : md.getField n with
    | some f => exact h.mergeInto d hn (h.inner _ md hm.1 hmd f (.inl (List.mem_of_find?_eq_some hf))) hm w b
    | none =>
      simp only
      cases he : md.getExtension n with
      | some f => exact h.mergeInto d hn (h.inner _ md hm.1 hmd f (.inr (List.mem_of_find?_eq_some he))) hm w b
      | none =>
        simp only
        refine ⟨trivial, fun m' b' h' => ?_⟩
        split at h'
        · cases h'
        · split at h'
          · cases h'
          · next hu =>
            cases h'
            refine ⟨hm.1, ?_⟩
            unfold FieldSet.addUnknown at hu
            split at hu <;> cases hu <;>
              exact withinSlots_insert hm.2 fun v e => by cases e

theorem ViewAgree.msgMerge (h : ViewAgree S S' R) : ∀ d, FnAgree R (msgMerge S d) (msgMerge S' d)
  | 0 => h.mergeField 0 trivial
  | d + 1 => h.mergeField (d + 1) (ViewAgree.msgMerge h d)

theorem ViewAgree.merge (h : ViewAgree S S' R) {m : DynMsg} (hm : WithinMsg R m) (b : Bytes) :
    merge S' m b = merge S m b ∧ ∀ m', merge S m b = .ok m' → WithinMsg R m' := by
  have hM := h.msgMerge recursionLimit
  have hI : ∀ st b st' b', WithinMsg R st → keyThen (Dyn.msgMerge S recursionLimit) st b = .ok (st', b') →
      WithinMsg R st' :=
    fun st b st' b' hi hk => keyThen_inv (I := WithinMsg R)
      (fun st n w b st' b' _ _ hi h' => (hM st n w b hi).2 _ _ h') hi hk
  have e : mergeAll (Dyn.msgMerge S' recursionLimit) m b = mergeAll (Dyn.msgMerge S recursionLimit) m b :=
    loopTo_congr hI (fun st b hi => keyThen_congr fun n w b => (hM st n w b hi).1) _ m b hm
  unfold Dyn.merge
  rw [e]
  refine ⟨rfl, fun m' h' => ?_⟩
  split at h'
  · cases h'
  · next hr => cases h'; exact loopTo_inv hI _ _ _ _ _ _ hm hr

theorem ViewAgree.decode (h : ViewAgree S S' R) {d : Nat} (hd : R d) (b : Bytes) :
    decode S' d b = decode S d b ∧ ∀ m, decode S d b = .ok m → WithinMsg R m :=
  h.merge (m := DynMsg.empty d) ⟨hd, by simp only [DynMsg.empty, WithinSlots]⟩ b

end
mutual
theorem conf_within {S S' : Schema} {R : Nat → Prop} (hA : ViewAgree S S' R) : (v : Value) → (f : FieldDesc) →
    InAgree S S' R f → confVal S f v = true → Within R v
  | .msg d fs, f, hf, h => by
    simp only [confVal, Bool.and_eq_true, beq_iff_eq] at h
    simp only [Within]
    have hd := hf.msg d h.1.2
    exact ⟨hd, confSlots_within hA fs d hd h.2.2⟩
  | .list vs, f, hf, h => by
    simp only [confVal, Bool.and_eq_true] at h
    simp only [Within]
    exact confVals_within hA vs f.elem ⟨hf.msg, hf.enum, hf.default⟩ h.2
  | .map kvs, f, hf, h => by
    simp only [confVal, Bool.and_eq_true] at h
    simp only [Within]
    have h2 := h.2
    cases hk : f.kind <;> rw [hk] at h2 <;> simp only at h2 <;> first
      | cases h2; done
      | skip
    next i =>
      cases hkv : S.mapKV i with
      | none => rw [hkv] at h2; cases h2
      | some q =>
        obtain ⟨kd, vd⟩ := q
        rw [hkv] at h2
        simp only [Bool.and_eq_true] at h2
        exact confMap_within hA kvs kd vd (hA.field_in (hf.msg i hk) (mapKV_some hkv).2) h2.2
  | .bool _, _, _, _ | .i32 _, _, _, _ | .i64 _, _, _, _ | .u32 _, _, _, _ | .u64 _, _, _, _
  | .f32 _, _, _, _ | .f64 _, _, _, _ | .str _, _, _, _ | .bytes _, _, _, _ | .enum _, _, _, _ => by
    simp only [Within]
theorem confVals_within {S S' : Schema} {R : Nat → Prop} (hA : ViewAgree S S' R) : (vs : List Value) →
    (f : FieldDesc) → InAgree S S' R f → confVals S f vs = true → WithinVals R vs
  | [], _, _, _ => by simp only [WithinVals]
  | v :: r, f, hf, h => by
    simp only [confVals, Bool.and_eq_true] at h
    simp only [WithinVals]
    exact ⟨conf_within hA v f hf h.1, confVals_within hA r f hf h.2⟩
theorem confMap_within {S S' : Schema} {R : Nat → Prop} (hA : ViewAgree S S' R) : (kvs : List (MapKey × Value)) →
    (kd vd : FieldDesc) → InAgree S S' R vd → confMap S kd vd kvs = true → WithinMap R kvs
  | [], _, _, _, _ => by simp only [WithinMap]
  | (k, v) :: r, kd, vd, hf, h => by
    simp only [confMap, Bool.and_eq_true] at h
    simp only [WithinMap]
    exact ⟨conf_within hA v vd hf h.1.2, confMap_within hA r kd vd hf h.2⟩
theorem confSlots_within {S S' : Schema} {R : Nat → Prop} (hA : ViewAgree S S' R) : (fs : List (Nat × Slot)) →
    (d : Nat) → R d → confSlots S d fs = true → WithinSlots R fs
  | [], _, _, _ => by simp only [WithinSlots]
  | (n, .taken) :: r, d, hd, h => by
    simp only [confSlots] at h
    simp only [WithinSlots]
    exact confSlots_within hA r d hd h
  | (n, .unknown u) :: r, d, hd, h => by
    simp only [confSlots, Bool.and_eq_true] at h
    simp only [WithinSlots]
    exact confSlots_within hA r d hd h.2
  | (n, .val v) :: r, d, hd, h => by
    simp only [confSlots, Bool.and_eq_true] at h
    simp only [WithinSlots]
    refine ⟨?_, confSlots_within hA r d hd h.2⟩
    have h1 := h.1
    split at h1
    · next f hf => exact conf_within hA v f (hA.field_in hd hf) h1
    · split at h1
      · next f hf => exact conf_within hA v f (hA.ext_in hd hf) h1
      · cases h1
end

/-- A conforming message of a type in `R` holds messages of types in `R` only. -/
theorem ViewAgree.within {S S' : Schema} {R : Nat → Prop} (hA : ViewAgree S S' R) {m : DynMsg}
    (hm : confMsg S m = true) (hd : R m.desc) : WithinMsg R m := by
  unfold confMsg at hm
  simp only [Bool.and_eq_true] at hm
  exact ⟨hd, confSlots_within hA m.fields m.desc hd hm.2⟩

end Verif.Dyn
