import Verif.Dyn.Agree
import Verif.Dyn.Ren
/-!
Two schemas that show the same types under other numbers treat messages alike: equality, length, encoding and
decoding commute with the change of numbers.
-/
set_option autoImplicit false
namespace Verif.Dyn
open Verif.Wire

/-- The kind with types renumbered. -/
def renKind (ρ σ : Nat → Nat) : Kind → Kind
  | .message i => .message (ρ i)
  | .enum e => .enum (σ e)
  | k => k

/-- The field with types renumbered. -/
def renField (ρ σ : Nat → Nat) (f : FieldDesc) : FieldDesc := { f with kind := renKind ρ σ f.kind }

/-- Neither a message nor a list nor a map. -/
def Value.holdsNone : Value → Bool
  | .msg _ _ | .list _ | .map _ => false
  | _ => true

/-- The type of a field is in `R`, or an enum both schemas show alike; the default value holds no message. -/
structure InAcross (S T : Schema) (σ : Nat → Nat) (R : Nat → Prop) (f : FieldDesc) : Prop where
  msg : ∀ i, f.kind = .message i → R i
  enum : ∀ e, f.kind = .enum e → T.enums[σ e]? = S.enums[e]?
  default : ∀ v, f.default = some v → v.holdsNone = true

/-- The messages in `R` are found in the other schema under the number `ρ` gives, with the same fields and
extensions but for the numbers of types, and refer to `R` only. -/
structure Across (S T : Schema) (ρ σ : Nat → Nat) (R : Nat → Prop) : Prop where
  inj : ∀ a b, R a → R b → ρ a = ρ b → a = b
  msgs : ∀ d, R d → ∃ md td, S.msg? d = some md ∧ T.msg? (ρ d) = some td ∧ td.mapEntry = md.mapEntry ∧
    td.fields = md.fields.map (renField ρ σ) ∧
    ∀ n, td.getExtension n = (md.getExtension n).map (renField ρ σ)
  inner : ∀ d md, R d → S.msg? d = some md → ∀ f, f ∈ md.fields ∨ f ∈ md.extensions → InAcross S T σ R f

section
variable {S T : Schema} {ρ σ : Nat → Nat} {R : Nat → Prop}

theorem getField_ren {md td : MsgDesc} (h : td.fields = md.fields.map (renField ρ σ)) (n : Nat) :
    td.getField n = (md.getField n).map (renField ρ σ) := by
  unfold MsgDesc.getField
  rw [h, List.find?_map]
  rfl

theorem siblings_ren {md td : MsgDesc} (h : td.fields = md.fields.map (renField ρ σ)) (f : FieldDesc) :
    siblings td (renField ρ σ f) = siblings md f := by
  unfold siblings
  simp only [renField]
  cases f.oneof with
  | none => rfl
  | some o =>
    simp only [h]
    rw [List.filter_map, List.map_map]
    rfl

theorem Across.field (h : Across S T ρ σ R) {d : Nat} (hd : R d) (n : Nat) :
    T.field? (ρ d) n = (S.field? d n).map (renField ρ σ) := by
  obtain ⟨md, td, h1, h2, _, h3, _⟩ := h.msgs d hd
  simp only [Schema.field?, h1, h2, Option.bind_some, getField_ren h3]

theorem Across.ext (h : Across S T ρ σ R) {d : Nat} (hd : R d) (n : Nat) :
    T.ext? (ρ d) n = (S.ext? d n).map (renField ρ σ) := by
  obtain ⟨md, td, h1, h2, _, _, h3⟩ := h.msgs d hd
  simp only [Schema.ext?, h1, h2, Option.bind_some, h3]

theorem Across.field_in (h : Across S T ρ σ R) {d : Nat} (hd : R d) {n : Nat} {f : FieldDesc}
    (hf : S.field? d n = some f) : InAcross S T σ R f := by
  simp only [Schema.field?, Option.bind_eq_some_iff] at hf
  obtain ⟨md, h1, h2⟩ := hf
  exact h.inner d md hd h1 f (.inl (List.mem_of_find?_eq_some h2))

theorem Across.ext_in (h : Across S T ρ σ R) {d : Nat} (hd : R d) {n : Nat} {f : FieldDesc}
    (hf : S.ext? d n = some f) : InAcross S T σ R f := by
  simp only [Schema.ext?, Option.bind_eq_some_iff] at hf
  obtain ⟨md, h1, h2⟩ := hf
  exact h.inner d md hd h1 f (.inr (List.mem_of_find?_eq_some h2))

/-! ### Kinds -/

theorem renKind_scalarEnc (k : Kind) (v : Value) : scalarEnc (renKind ρ σ k) (renVal ρ v) = scalarEnc k v := by
  cases k <;> cases v <;> rfl
theorem renKind_scalarLen (k : Kind) (v : Value) : scalarLen (renKind ρ σ k) (renVal ρ v) = scalarLen k v := by
  cases k <;> cases v <;> rfl
theorem renKind_packedEnc (k : Kind) (v : Value) : packedEnc (renKind ρ σ k) (renVal ρ v) = packedEnc k v := by
  cases k <;> cases v <;> rfl
theorem renKind_packedLen (k : Kind) (v : Value) : packedLen (renKind ρ σ k) (renVal ρ v) = packedLen k v := by
  cases k <;> cases v <;> rfl
theorem renKind_wireType (k : Kind) : (renKind ρ σ k).wireType = k.wireType := by cases k <;> rfl
theorem renKind_packable (k : Kind) : (renKind ρ σ k).packable = k.packable := by cases k <;> rfl
theorem renKind_key (k : Kind) : MapKey.default (renKind ρ σ k) = MapKey.default k := by cases k <;> rfl
theorem renKind_keyValid (k : Kind) (m : MapKey) : m.isValid (renKind ρ σ k) = m.isValid k := by
  cases k <;> cases m <;> rfl
theorem renKind_valid (k : Kind) (v : Value) : (renVal ρ v).isValid (renKind ρ σ k) = v.isValid k := by
  cases k <;> cases v <;> rfl
theorem renKind_dec (k : Kind) (w : WireType) (b : Bytes) : scalarDec (renKind ρ σ k) w b = scalarDec k w b := by
  cases k <;> rfl

theorem renKind_packedEncAll (k : Kind) : ∀ vs : List Value,
    packedEncAll (renKind ρ σ k) (renVals ρ vs) = packedEncAll k vs
  | [] => rfl
  | v :: r => by simp only [renVals, packedEncAll, renKind_packedEnc, renKind_packedEncAll k r]
theorem renKind_packedLenAll (k : Kind) : ∀ vs : List Value,
    packedLenAll (renKind ρ σ k) (renVals ρ vs) = packedLenAll k vs
  | [] => rfl
  | v :: r => by simp only [renVals, packedLenAll, renKind_packedLen, renKind_packedLenAll k r]

theorem encPacked_ren (f : FieldDesc) (vs : List Value) :
    encPackedList (renField ρ σ f) (renVals ρ vs) = encPackedList f vs := by
  simp only [encPackedList, renField, renKind_packable, renKind_packedEncAll, renKind_packedLenAll]
theorem lenPacked_ren (f : FieldDesc) (vs : List Value) :
    lenPackedList (renField ρ σ f) (renVals ρ vs) = lenPackedList f vs := by
  simp only [lenPackedList, renField, renKind_packable, renKind_packedLenAll]

theorem encKey_ren (f : FieldDesc) (k : MapKey) : encKey (renField ρ σ f) k = encKey f k := by
  have := renKind_scalarEnc (ρ := ρ) (σ := σ) f.kind k.toValue
  rw [renVal_key] at this
  simp only [encKey, renField, this, renKind_wireType, renKind_key]
theorem lenKey_ren (f : FieldDesc) (k : MapKey) : lenKey (renField ρ σ f) k = lenKey f k := by
  have := renKind_scalarLen (ρ := ρ) (σ := σ) f.kind k.toValue
  rw [renVal_key] at this
  simp only [lenKey, renField, this, renKind_key]

theorem flat_ren {v : Value} (h : v.holdsNone = true) : renVal ρ v = v := by
  cases v <;> first | rfl | cases h
theorem flat_within {v : Value} (h : v.holdsNone = true) : Within R v := by
  cases v <;> first | trivial | cases h

/-! ### Equality -/

theorem renMap_length : ∀ kvs : List (MapKey × Value), (renMap ρ kvs).length = kvs.length
  | [] => rfl
  | (_, _) :: r => by simp only [renMap, List.length_cons, renMap_length r]

theorem withinMap_get : ∀ {kvs : List (MapKey × Value)} {k : MapKey} {v : Value}, WithinMap R kvs →
    KMap.get? kvs k = some v → Within R v
  | [], _, _, _, h => by cases h
  | (k', v') :: r, k, v, hw, h => by
    simp only [WithinMap] at hw
    simp only [KMap.get?] at h
    split at h
    · cases h; exact hw.1
    · exact withinMap_get hw.2 h

mutual
theorem Across.beq (h : Across S T ρ σ R) : (v w : Value) → Within R v → Within R w →
    (renVal ρ v).beq (renVal ρ w) = v.beq w
  | .msg d fs, w, hv, hw => by
    cases w with
    | msg e gs =>
      simp only [Within] at hv hw
      simp only [renVal, Value.beq, Across.beqSlots h fs gs hv.2 hw.2]
      by_cases hde : d = e
      · simp [hde]
      · have : ρ d ≠ ρ e := fun he => hde (h.inj _ _ hv.1 hw.1 he)
        simp only [beq_eq_false_iff_ne.2 hde, beq_eq_false_iff_ne.2 this]
    | _ => simp only [renVal, Value.beq]
  | .list vs, w, hv, hw => by
    cases w with
    | list ws =>
      simp only [Within] at hv hw
      simp only [renVal, Value.beq, Across.beqVals h vs ws hv hw]
    | _ => simp only [renVal, Value.beq]
  | .map vs, w, hv, hw => by
    cases w with
    | map ws =>
      simp only [Within] at hv hw
      simp only [renVal, Value.beq, Across.beqMap h vs ws hv hw, renMap_length]
    | _ => simp only [renVal, Value.beq]
  | .bool _, w, _, _ | .i32 _, w, _, _ | .i64 _, w, _, _ | .u32 _, w, _, _ | .u64 _, w, _, _
  | .f32 _, w, _, _ | .f64 _, w, _, _ | .str _, w, _, _ | .bytes _, w, _, _ | .enum _, w, _, _ => by
    cases w <;> simp only [renVal, Value.beq]
theorem Across.beqVals (h : Across S T ρ σ R) : (a b : List Value) → WithinVals R a → WithinVals R b →
    beqVals (renVals ρ a) (renVals ρ b) = beqVals a b
  | [], [], _, _ => by simp only [renVals, Dyn.beqVals]
  | [], _ :: _, _, _ => by simp only [renVals, Dyn.beqVals]
  | _ :: _, [], _, _ => by simp only [renVals, Dyn.beqVals]
  | v :: a, w :: b, ha, hb => by
    simp only [WithinVals] at ha hb
    simp only [renVals, Dyn.beqVals, Across.beq h v w ha.1 hb.1, Across.beqVals h a b ha.2 hb.2]
theorem Across.beqMap (h : Across S T ρ σ R) : (a b : List (MapKey × Value)) → WithinMap R a → WithinMap R b →
    beqMap (renMap ρ a) (renMap ρ b) = beqMap a b
  | [], _, _, _ => by simp only [renMap, Dyn.beqMap]
  | (k, v) :: a, b, ha, hb => by
    simp only [WithinMap] at ha
    simp only [renMap, Dyn.beqMap, Across.beqMap h a b ha.2 hb, get?_renMap]
    congr 1
    cases hg : KMap.get? b k with
    | none => rfl
    | some w => exact Across.beq h v w ha.1 (withinMap_get hb hg)
theorem Across.beqSlots (h : Across S T ρ σ R) : (a b : List (Nat × Slot)) → WithinSlots R a → WithinSlots R b →
    beqSlots (renSlots ρ a) (renSlots ρ b) = beqSlots a b
  | [], [], _, _ => by simp only [renSlots, Dyn.beqSlots]
  | [], (_, .taken) :: _, _, _ => by simp only [renSlots, Dyn.beqSlots]
  | [], (_, .val _) :: _, _, _ => by simp only [renSlots, Dyn.beqSlots]
  | [], (_, .unknown _) :: _, _, _ => by simp only [renSlots, Dyn.beqSlots]
  | (_, .taken) :: _, [], _, _ => by simp only [renSlots, Dyn.beqSlots]
  | (_, .val _) :: _, [], _, _ => by simp only [renSlots, Dyn.beqSlots]
  | (_, .unknown _) :: _, [], _, _ => by simp only [renSlots, Dyn.beqSlots]
  | (_, .taken) :: a, (_, .taken) :: b, ha, hb => by
    simp only [WithinSlots] at ha hb
    simp only [renSlots, Dyn.beqSlots, Across.beqSlots h a b ha hb]
  | (_, .unknown _) :: a, (_, .unknown _) :: b, ha, hb => by
    simp only [WithinSlots] at ha hb
    simp only [renSlots, Dyn.beqSlots, Across.beqSlots h a b ha hb]
  | (_, .val v) :: a, (_, .val w) :: b, ha, hb => by
    simp only [WithinSlots] at ha hb
    simp only [renSlots, Dyn.beqSlots, Across.beq h v w ha.1 hb.1, Across.beqSlots h a b ha.2 hb.2]
  | (_, .taken) :: _, (_, .val _) :: _, _, _ => by simp only [renSlots, Dyn.beqSlots]
  | (_, .taken) :: _, (_, .unknown _) :: _, _, _ => by simp only [renSlots, Dyn.beqSlots]
  | (_, .val _) :: _, (_, .taken) :: _, _, _ => by simp only [renSlots, Dyn.beqSlots]
  | (_, .val _) :: _, (_, .unknown _) :: _, _, _ => by simp only [renSlots, Dyn.beqSlots]
  | (_, .unknown _) :: _, (_, .taken) :: _, _, _ => by simp only [renSlots, Dyn.beqSlots]
  | (_, .unknown _) :: _, (_, .val _) :: _, _, _ => by simp only [renSlots, Dyn.beqSlots]
end

/-! ### Defaults -/

variable {f : FieldDesc}

theorem Across.isMapEntry (h : Across S T ρ σ R) {d : Nat} (hd : R d) : T.isMapEntry (ρ d) = S.isMapEntry d := by
  obtain ⟨md, td, h1, h2, h3, _⟩ := h.msgs d hd
  simp only [Schema.isMapEntry, h1, h2, h3]

theorem Across.isMap (h : Across S T ρ σ R) (hf : InAcross S T σ R f) : isMap T (renField ρ σ f) = isMap S f := by
  unfold Dyn.isMap
  simp only [renField]
  cases hk : f.kind <;> simp only [renKind]
  rw [h.isMapEntry (hf.msg _ hk)]

theorem Across.isList (h : Across S T ρ σ R) (hf : InAcross S T σ R f) : isList T (renField ρ σ f) = isList S f := by
  simp only [Dyn.isList, h.isMap hf]
  rfl

theorem Across.kindDefault (hf : InAcross S T σ R f) :
    kindDefault T (renKind ρ σ f.kind) = (kindDefault S f.kind).map (renVal ρ) := by
  unfold Dyn.kindDefault
  cases hk : f.kind <;> simp only [renKind, Option.map_some, renVal, renSlots]
  simp only [Schema.enumDefault, hf.enum _ hk, Option.map_map]
  rfl

theorem Across.fieldDefault (h : Across S T ρ σ R) (hf : InAcross S T σ R f) :
    fieldDefault T (renField ρ σ f) = (fieldDefault S f).map (renVal ρ) := by
  unfold Dyn.fieldDefault
  rw [h.isMap hf, h.isList hf]
  split
  · rfl
  · split
    · rfl
    · simp only [renField]
      cases hd : f.default with
      | none => exact Across.kindDefault hf
      | some v => simp only [Option.map_some, flat_ren (hf.default v hd)]

theorem kindDefault_across (hf : InAcross S T σ R f) {v : Value}
    (hv : kindDefault S f.kind = some v) : Within R v := by
  cases hk : f.kind <;> rw [hk] at hv <;> simp only [Dyn.kindDefault] at hv
  case enum e =>
    rw [Option.map_eq_some_iff] at hv
    obtain ⟨_, _, rfl⟩ := hv
    trivial
  case message i =>
    cases hv
    simp only [Within, WithinSlots, and_true]
    exact hf.msg i hk
  all_goals cases hv; trivial

theorem fieldDefault_across (hf : InAcross S T σ R f) {v : Value}
    (hv : fieldDefault S f = some v) : Within R v := by
  unfold Dyn.fieldDefault at hv
  split at hv
  · cases hv; simp only [Within, WithinVals]
  · split at hv
    · cases hv; simp only [Within, WithinMap]
    · split at hv
      · next v' hd => cases hv; exact flat_within (hf.default _ hd)
      · exact kindDefault_across hf hv

theorem Across.isDefault (h : Across S T ρ σ R) (hf : InAcross S T σ R f) {v : Value} (hv : Within R v) :
    isDefault T (renField ρ σ f) (renVal ρ v) = isDefault S f v := by
  unfold Dyn.isDefault
  rw [h.fieldDefault hf, Option.map_map]
  cases hd : Dyn.fieldDefault S f with
  | none => rfl
  | some w => simp only [Option.map_some, Function.comp, h.beq v w hv (fieldDefault_across hf hd)]

theorem Across.hasVal (h : Across S T ρ σ R) (hf : InAcross S T σ R f) {v : Value} (hv : Within R v) :
    hasVal T (renField ρ σ f) (renVal ρ v) = hasVal S f v := by
  simp only [Dyn.hasVal, h.isDefault hf hv]
  rfl

theorem Across.unless (h : Across S T ρ σ R) (hf : InAcross S T σ R f) {α : Type} {v : Value} (hv : Within R v) (z : α)
    (k : Option α) : unlessDefault T (renField ρ σ f) (renVal ρ v) z k = unlessDefault S f v z k := by
  simp only [unlessDefault, h.isDefault hf hv]
  rfl

theorem Across.mapKV (h : Across S T ρ σ R) {i : Nat} (hi : R i) :
    T.mapKV (ρ i) = (S.mapKV i).map fun p => (renField ρ σ p.1, renField ρ σ p.2) := by
  simp only [Schema.mapKV, h.field hi]
  cases S.field? i 1 <;> cases S.field? i 2 <;> rfl

theorem Across.mapKV_in (h : Across S T ρ σ R) {i : Nat} (hi : R i) {kd vd : FieldDesc}
    (hkv : S.mapKV i = some (kd, vd)) : InAcross S T σ R kd ∧ InAcross S T σ R vd := by
  unfold Schema.mapKV at hkv
  split at hkv
  · next k v hk hv =>
    cases hkv
    exact ⟨h.field_in hi hk, h.field_in hi hv⟩
  · cases hkv

theorem Across.ifPresent {α : Type} (h : Across S T ρ σ R) {f? : Option FieldDesc}
    (hf : ∀ f, f? = some f → InAcross S T σ R f) {v : Value} (hv : Within R v) (z : α) {k k' : FieldDesc → Option α}
    (hk : ∀ f, f? = some f → k' (renField ρ σ f) = k f) :
    ifPresent T (f?.map (renField ρ σ)) (renVal ρ v) z k' = ifPresent S f? v z k := by
  cases hff : f? with
  | none => rfl
  | some f => simp only [Dyn.ifPresent, Option.map_some, h.hasVal (hf f hff) hv, hk f hff]

/-! ### Encoding -/

mutual
theorem Across.lenVal (h : Across S T ρ σ R) {f : FieldDesc} (hf : InAcross S T σ R f) :
    (v : Value) → Within R v → lenVal T (renField ρ σ f) (renVal ρ v) = lenVal S f v
  | .msg d fs, hw => by
    have hu := fun k => h.unless (α := Nat) hf hw 0 k
    simp only [Within] at hw
    simp only [renVal] at hu
    simp only [renVal, Dyn.lenVal, hu, Across.lenSlots h hw.1 fs hw.2]
    congr 1
    simp only [renField]
    cases f.kind <;> rfl
  | .list vs, hw => by
    have hu := fun k => h.unless (α := Nat) hf hw 0 k
    simp only [Within] at hw
    simp only [renVal] at hu
    simp only [renVal, Dyn.lenVal, hu, h.isList hf, Across.lenVals h hf vs hw, lenPacked_ren]
    rfl
  | .map kvs, hw => by
    have hu := fun k => h.unless (α := Nat) hf hw 0 k
    simp only [Within] at hw
    simp only [renVal] at hu
    simp only [renVal, Dyn.lenVal, hu, h.isMap hf]
    congr 1
    simp only [renField]
    cases hk : f.kind <;> simp only [renKind]
    rename_i i
    have hi := hf.msg i hk
    rw [h.mapKV hi]
    cases hkv : S.mapKV i with
    | none => rfl
    | some p =>
      obtain ⟨kd, vd⟩ := p
      obtain ⟨_, h2⟩ := h.mapKV_in hi hkv
      simp only [Option.map_some, Across.lenMapEntries h h2 kd f.number kvs hw]
  | .bool _, hw | .i32 _, hw | .i64 _, hw | .u32 _, hw | .u64 _, hw | .f32 _, hw | .f64 _, hw | .str _, hw
  | .bytes _, hw | .enum _, hw => by
    have hu := fun k => h.unless (α := Nat) hf hw 0 k
    have hs := renKind_scalarLen (ρ := ρ) (σ := σ) f.kind
    simp only [renVal] at hu
    simp only [renVal, Dyn.lenVal, hu]
    congr 1
    refine congrArg (Option.map _) (Eq.trans ?_ (hs _))
    rfl
theorem Across.lenVals (h : Across S T ρ σ R) {f : FieldDesc} (hf : InAcross S T σ R f) :
    (vs : List Value) → WithinVals R vs → lenVals T (renField ρ σ f) (renVals ρ vs) = lenVals S f vs
  | [], _ => by simp only [renVals, Dyn.lenVals]
  | v :: r, hw => by
    simp only [WithinVals] at hw
    simp only [renVals, Dyn.lenVals, Across.lenVal h hf v hw.1, Across.lenVals h hf r hw.2]
theorem Across.lenMapEntries (h : Across S T ρ σ R) {vd : FieldDesc} (hf : InAcross S T σ R vd)
    (kd : FieldDesc) (n : Nat) : (kvs : List (MapKey × Value)) → WithinMap R kvs →
      lenMapEntries T n (renField ρ σ kd) (renField ρ σ vd) (renMap ρ kvs) = lenMapEntries S n kd vd kvs
  | [], _ => by simp only [renMap, Dyn.lenMapEntries]
  | (k, v) :: r, hw => by
    simp only [WithinMap] at hw
    simp only [renMap, Dyn.lenMapEntries, lenKey_ren, Across.lenVal h hf v hw.1, Across.lenMapEntries h hf kd n r hw.2]
theorem Across.lenSlots (h : Across S T ρ σ R) {d : Nat} (hd : R d) :
    (fs : List (Nat × Slot)) → WithinSlots R fs → lenSlots T (ρ d) (renSlots ρ fs) = lenSlots S d fs
  | [], _ => by simp only [renSlots, Dyn.lenSlots]
  | (_, .taken) :: r, hw => by
    simp only [WithinSlots] at hw
    simp only [renSlots, Dyn.lenSlots, Across.lenSlots h hd r hw]
  | (_, .unknown u) :: r, hw => by
    simp only [WithinSlots] at hw
    simp only [renSlots, Dyn.lenSlots, Across.lenSlots h hd r hw]
  | (n, .val v) :: r, hw => by
    simp only [WithinSlots] at hw
    simp only [renSlots, Dyn.lenSlots, Across.lenSlots h hd r hw.2, h.field hd, h.ext hd]
    rw [h.ifPresent (fun f hf => h.field_in hd hf) hw.1 0 (fun f hf => Across.lenVal h (h.field_in hd hf) v hw.1),
      h.ifPresent (fun f hf => h.ext_in hd hf) hw.1 0 (fun f hf => Across.lenVal h (h.ext_in hd hf) v hw.1)]
end

mutual
theorem Across.encVal (h : Across S T ρ σ R) {f : FieldDesc} (hf : InAcross S T σ R f) :
    (v : Value) → Within R v → encVal T (renField ρ σ f) (renVal ρ v) = encVal S f v
  | .msg d fs, hw => by
    have hu := fun k => h.unless (α := Bytes) hf hw [] k
    simp only [Within] at hw
    simp only [renVal] at hu
    simp only [renVal, Dyn.encVal, hu, Across.encSlots h hw.1 fs hw.2, h.lenSlots hw.1 fs hw.2]
    congr 1
    simp only [renField]
    cases f.kind <;> rfl
  | .list vs, hw => by
    have hu := fun k => h.unless (α := Bytes) hf hw [] k
    simp only [Within] at hw
    simp only [renVal] at hu
    simp only [renVal, Dyn.encVal, hu, h.isList hf, Across.encVals h hf vs hw, encPacked_ren]
    rfl
  | .map kvs, hw => by
    have hu := fun k => h.unless (α := Bytes) hf hw [] k
    simp only [Within] at hw
    simp only [renVal] at hu
    simp only [renVal, Dyn.encVal, hu, h.isMap hf]
    congr 1
    simp only [renField]
    cases hk : f.kind <;> simp only [renKind]
    rename_i i
    have hi := hf.msg i hk
    rw [h.mapKV hi]
    cases hkv : S.mapKV i with
    | none => rfl
    | some p =>
      obtain ⟨kd, vd⟩ := p
      obtain ⟨_, h2⟩ := h.mapKV_in hi hkv
      simp only [Option.map_some, Across.encMapEntries h h2 kd f.number kvs hw]
  | .bool _, hw | .i32 _, hw | .i64 _, hw | .u32 _, hw | .u64 _, hw | .f32 _, hw | .f64 _, hw | .str _, hw
  | .bytes _, hw | .enum _, hw => by
    have hu := fun k => h.unless (α := Bytes) hf hw [] k
    have hs := renKind_scalarEnc (ρ := ρ) (σ := σ) f.kind
    simp only [renVal] at hu
    simp only [renVal, Dyn.encVal, hu]
    congr 1
    simp only [renField, renKind_wireType]
    refine congrArg (Option.map _) (Eq.trans ?_ (hs _))
    rfl
theorem Across.encVals (h : Across S T ρ σ R) {f : FieldDesc} (hf : InAcross S T σ R f) :
    (vs : List Value) → WithinVals R vs → encVals T (renField ρ σ f) (renVals ρ vs) = encVals S f vs
  | [], _ => by simp only [renVals, Dyn.encVals]
  | v :: r, hw => by
    simp only [WithinVals] at hw
    simp only [renVals, Dyn.encVals, Across.encVal h hf v hw.1, Across.encVals h hf r hw.2]
theorem Across.encMapEntries (h : Across S T ρ σ R) {vd : FieldDesc} (hf : InAcross S T σ R vd)
    (kd : FieldDesc) (n : Nat) : (kvs : List (MapKey × Value)) → WithinMap R kvs →
      encMapEntries T n (renField ρ σ kd) (renField ρ σ vd) (renMap ρ kvs) = encMapEntries S n kd vd kvs
  | [], _ => by simp only [renMap, Dyn.encMapEntries]
  | (k, v) :: r, hw => by
    simp only [WithinMap] at hw
    simp only [renMap, Dyn.encMapEntries, lenKey_ren, encKey_ren, h.lenVal hf v hw.1, Across.encVal h hf v hw.1,
      Across.encMapEntries h hf kd n r hw.2]
theorem Across.encSlots (h : Across S T ρ σ R) {d : Nat} (hd : R d) :
    (fs : List (Nat × Slot)) → WithinSlots R fs → encSlots T (ρ d) (renSlots ρ fs) = encSlots S d fs
  | [], _ => by simp only [renSlots, Dyn.encSlots]
  | (_, .taken) :: r, hw => by
    simp only [WithinSlots] at hw
    simp only [renSlots, Dyn.encSlots, Across.encSlots h hd r hw]
  | (_, .unknown u) :: r, hw => by
    simp only [WithinSlots] at hw
    simp only [renSlots, Dyn.encSlots, Across.encSlots h hd r hw]
  | (n, .val v) :: r, hw => by
    simp only [WithinSlots] at hw
    simp only [renSlots, Dyn.encSlots, Across.encSlots h hd r hw.2, h.field hd, h.ext hd]
    rw [h.ifPresent (fun f hf => h.field_in hd hf) hw.1 [] (fun f hf => Across.encVal h (h.field_in hd hf) v hw.1),
      h.ifPresent (fun f hf => h.ext_in hd hf) hw.1 [] (fun f hf => Across.encVal h (h.ext_in hd hf) v hw.1)]
end

theorem Across.encMsg (h : Across S T ρ σ R) {m : DynMsg} (hm : WithinMsg R m) :
    encMsg T (renMsg ρ m) = encMsg S m := by
  simp only [Dyn.encMsg, renMsg, h.encSlots hm.1 m.fields hm.2]

theorem Across.lenMsg (h : Across S T ρ σ R) {m : DynMsg} (hm : WithinMsg R m) :
    lenMsg T (renMsg ρ m) = lenMsg S m := h.lenSlots hm.1 m.fields hm.2

theorem Across.beqMsg (h : Across S T ρ σ R) {m m' : DynMsg} (hm : WithinMsg R m) (hm' : WithinMsg R m') :
    (renMsg ρ m).beq (renMsg ρ m') = m.beq m' := by
  have := h.beq (.msg m.desc m.fields) (.msg m'.desc m'.fields) hm hm'
  simpa only [renVal, Value.beq, DynMsg.beq, renMsg] using this

end
end Verif.Dyn
