import Verif.Dyn.Alike
/-!
Messages of one schema as messages of another: `transcode_to`/`transcode_from` move a message
between a pool's copy of a well-known type and the built-in one.  `Emb` says when part of one
schema is also found in the other; encoding, conformance, canonical form and likeness are then
the same on both sides.
-/
set_option autoImplicit false
namespace Verif.Dyn
open Verif.Wire

mutual
/-- The value with the type index of every nested message changed. -/
def renVal (ρ : Nat → Nat) : Value → Value
  | .msg d fs => .msg (ρ d) (renSlots ρ fs)
  | .list vs => .list (renVals ρ vs)
  | .map kvs => .map (renMap ρ kvs)
  | v => v
def renVals (ρ : Nat → Nat) : List Value → List Value
  | [] => []
  | v :: r => renVal ρ v :: renVals ρ r
def renMap (ρ : Nat → Nat) : List (MapKey × Value) → List (MapKey × Value)
  | [] => []
  | (k, v) :: r => (k, renVal ρ v) :: renMap ρ r
def renSlots (ρ : Nat → Nat) : List (Nat × Slot) → List (Nat × Slot)
  | [] => []
  | (n, .taken) :: r => (n, .taken) :: renSlots ρ r
  | (n, .unknown u) :: r => (n, .unknown u) :: renSlots ρ r
  | (n, .val v) :: r => (n, .val (renVal ρ v)) :: renSlots ρ r
end

/-- The message with the type index of every message changed. -/
def renMsg (ρ : Nat → Nat) (m : DynMsg) : DynMsg := ⟨ρ m.desc, renSlots ρ m.fields⟩

/-- The same kind: message types correspond and stay in `I`, enums are any enums. -/
def KindSim (ρ : Nat → Nat) (I : Nat → Prop) : Kind → Kind → Prop
  | .message i, k => I i ∧ k = .message (ρ i)
  | .enum _, k => ∃ e, k = .enum e
  | a, b => b = a

/-- Neither a message nor an enum. -/
def Kind.plain : Kind → Bool
  | .message _ | .enum _ => false
  | _ => true

/-- The same field. -/
structure FSim (ρ : Nat → Nat) (I : Nat → Prop) (f g : FieldDesc) : Prop where
  number : g.number = f.number
  card : g.card = f.card
  presence : g.presence = f.presence
  packed : g.packed = f.packed
  group : g.group = f.group
  fdef : f.default = none
  gdef : g.default = none
  kind : KindSim ρ I f.kind g.kind
  lone : f.presence = false → f.card ≠ .repeated → f.kind.plain = true

/-- The message types of `S` in `I` are found in `T` under the index `ρ` gives: the same fields
(names aside), the same oneofs, no extensions. -/
structure Emb (S T : Schema) (ρ : Nat → Nat) (I : Nat → Prop) : Prop where
  desc : ∀ d, I d → ∃ md td, S.msg? d = some md ∧ T.msg? (ρ d) = some td ∧
    td.mapEntry = md.mapEntry ∧ md.extensions = [] ∧ td.extensions = [] ∧
    ∀ n, (md.getField n = none ∧ td.getField n = none) ∨
      ∃ f g, md.getField n = some f ∧ td.getField n = some g ∧ FSim ρ I f g ∧
        ∀ k, k ∈ siblings td g ↔ k ∈ siblings md f

section
variable {S T : Schema} {ρ : Nat → Nat} {I : Nat → Prop}

theorem Emb.field (h : Emb S T ρ I) {d : Nat} (hd : I d) (n : Nat) :
    (S.field? d n = none ∧ T.field? (ρ d) n = none) ∨
      ∃ f g, S.field? d n = some f ∧ T.field? (ρ d) n = some g ∧ FSim ρ I f g := by
  obtain ⟨md, td, h1, h2, _, _, _, h3⟩ := h.desc d hd
  rw [field?_eq h1, field?_eq h2]
  rcases h3 n with h3 | ⟨f, g, h3, h4, h5, _⟩
  · exact .inl h3
  · exact .inr ⟨f, g, h3, h4, h5⟩

theorem Emb.ext (h : Emb S T ρ I) {d : Nat} (hd : I d) (n : Nat) :
    S.ext? d n = none ∧ T.ext? (ρ d) n = none := by
  obtain ⟨md, td, h1, h2, _, h3, h4, _⟩ := h.desc d hd
  rw [ext?_eq h1, ext?_eq h2]
  simp [MsgDesc.getExtension, h3, h4]

theorem Emb.entry (h : Emb S T ρ I) {d : Nat} (hd : I d) : T.isMapEntry (ρ d) = S.isMapEntry d := by
  obtain ⟨md, td, h1, h2, h3, _⟩ := h.desc d hd
  unfold Schema.isMapEntry
  rw [h1, h2]; exact h3

theorem Emb.mapKV (h : Emb S T ρ I) {d : Nat} (hd : I d) :
    (S.mapKV d = none ∧ T.mapKV (ρ d) = none) ∨
      ∃ kd vd kd' vd', S.mapKV d = some (kd, vd) ∧ T.mapKV (ρ d) = some (kd', vd') ∧
        FSim ρ I kd kd' ∧ FSim ρ I vd vd' := by
  unfold Schema.mapKV
  rcases h.field hd 1 with ⟨h1, h2⟩ | ⟨f, g, h1, h2, h3⟩
  · rw [h1, h2]; exact .inl ⟨rfl, rfl⟩
  · rcases h.field hd 2 with ⟨h4, h5⟩ | ⟨f', g', h4, h5, h6⟩
    · rw [h1, h2, h4, h5]; exact .inl ⟨rfl, rfl⟩
    · rw [h1, h2, h4, h5]; exact .inr ⟨f, f', g, g', rfl, rfl, h3, h6⟩

theorem isMap_sim (h : Emb S T ρ I) {f g : FieldDesc} (hs : FSim ρ I f g) : isMap T g = isMap S f := by
  unfold isMap
  rw [hs.card]
  have := hs.kind
  cases hk : f.kind <;> rw [hk] at this <;> simp only [KindSim] at this
  case message i => rw [this.2]; simp only; rw [h.entry this.1]
  case enum e => obtain ⟨e', he⟩ := this; rw [he]
  all_goals rw [this]

theorem isList_sim (h : Emb S T ρ I) {f g : FieldDesc} (hs : FSim ρ I f g) : isList T g = isList S f := by
  unfold isList; rw [isMap_sim h hs, hs.card]

theorem FSim.elem {f g : FieldDesc} (hs : FSim ρ I f g) (hp : f.presence = true ∨ f.kind.plain = true) :
    FSim ρ I f.elem g.elem :=
  ⟨hs.number, rfl, hs.presence, hs.packed, hs.group, hs.fdef, hs.gdef, hs.kind, fun h1 _ => by
    rcases hp with hp | hp
    · rw [FieldDesc.elem] at h1; rw [hp] at h1; cases h1
    · exact hp⟩

theorem plain_kind {a b : Kind} (h : KindSim ρ I a b) (hp : a.plain = true) : b = a := by
  cases a <;> simp only [KindSim] at h <;> first | exact h | (simp [Kind.plain] at hp; done)

theorem beq_nil_list (v : Value) : (renVal ρ v).beq (.list []) = v.beq (.list []) := by
  cases v <;> simp only [renVal, Value.beq]
  rename_i vs
  cases vs <;> simp [renVals, beqVals]

theorem beq_nil_map (v : Value) : (renVal ρ v).beq (.map []) = v.beq (.map []) := by
  cases v <;> simp only [renVal, Value.beq]
  rename_i vs
  cases vs with
  | nil => simp [renMap]
  | cons p r => obtain ⟨k, v⟩ := p; simp [renMap]

theorem beq_plain {k : Kind} (hp : k.plain = true) {w : Value} (hw : kindDefault S k = some w) (v : Value) :
    (renVal ρ v).beq w = v.beq w := by
  cases k <;> first
    | (simp only [kindDefault, Option.some.injEq] at hw; subst hw; cases v <;> simp only [renVal, Value.beq]; done)
    | (simp [Kind.plain] at hp; done)

theorem hasVal_sim (h : Emb S T ρ I) {f g : FieldDesc} (hs : FSim ρ I f g) (v : Value) :
    hasVal T g (renVal ρ v) = hasVal S f v := by
  unfold hasVal
  rw [hs.presence]
  by_cases hp : f.presence = true
  · simp [hp]
  · have hp' : f.presence = false := by simpa using hp
    simp only [hp', Bool.false_eq_true, if_false]
    unfold isDefault fieldDefault
    rw [isList_sim h hs, isMap_sim h hs, hs.fdef, hs.gdef]
    by_cases h1 : isList S f = true
    · simp only [h1, if_true, Option.map_some, beq_nil_list]
    · by_cases h2 : isMap S f = true
      · simp only [h1, h2, Bool.false_eq_true, if_false, if_true, Option.map_some, beq_nil_map]
      · simp only [h1, h2]
        have hc : f.card ≠ .repeated := by
          intro hc; unfold isList at h1; simp [hc, h2] at h1
        have hpl := hs.lone hp' hc
        have hk := plain_kind hs.kind hpl
        rw [hk]
        have he : kindDefault T f.kind = kindDefault S f.kind := by
          cases hfk : f.kind <;> rw [hfk] at hpl <;> first | rfl | (simp [Kind.plain] at hpl; done)
        simp only [Bool.false_eq_true, if_false]
        rw [he]
        cases hw : kindDefault S f.kind with
        | none => rfl
        | some w => simp only [Option.map_some]; rw [beq_plain hpl hw]

theorem unlessDefault_sim {α : Type} (h : Emb S T ρ I) {f g : FieldDesc} (hs : FSim ρ I f g) (v : Value)
    (z : α) {a b : Option α} (hab : a = b) :
    unlessDefault T g (renVal ρ v) z a = unlessDefault S f v z b := by
  subst hab
  have hh := hasVal_sim h hs v
  unfold unlessDefault
  unfold hasVal at hh
  rw [hs.presence] at hh ⊢
  by_cases hp : f.presence = true
  · simp [hp]
  · simp only [hp, Bool.false_eq_true, if_false] at hh ⊢
    cases h1 : isDefault T g (renVal ρ v) with
    | none =>
      rw [h1] at hh
      cases h2 : isDefault S f v with
      | none => rfl
      | some b => rw [h2] at hh; cases hh
    | some a =>
      rw [h1] at hh
      cases h2 : isDefault S f v with
      | none => rw [h2] at hh; cases hh
      | some b =>
        rw [h2] at hh
        simp only [Option.map_some, Option.some.injEq, Bool.not_eq_eq_eq_not, Bool.not_not] at hh
        rw [hh]

/-! ### Scalars -/

theorem scalarEnc_sim {a b : Kind} (hk : KindSim ρ I a b) (v : Value) :
    scalarEnc b (renVal ρ v) = scalarEnc a v := by
  cases a <;> simp only [KindSim] at hk <;>
    first
    | (obtain ⟨_, rfl⟩ := hk; cases v <;> rfl)
    | (obtain ⟨e, rfl⟩ := hk; cases v <;> rfl)
    | (subst hk; cases v <;> rfl)

theorem scalarLen_sim {a b : Kind} (hk : KindSim ρ I a b) (v : Value) :
    scalarLen b (renVal ρ v) = scalarLen a v := by
  cases a <;> simp only [KindSim] at hk <;>
    first
    | (obtain ⟨_, rfl⟩ := hk; cases v <;> rfl)
    | (obtain ⟨e, rfl⟩ := hk; cases v <;> rfl)
    | (subst hk; cases v <;> rfl)

theorem packedEnc_sim {a b : Kind} (hk : KindSim ρ I a b) (v : Value) :
    packedEnc b (renVal ρ v) = packedEnc a v := by
  cases a <;> simp only [KindSim] at hk <;>
    first
    | (obtain ⟨_, rfl⟩ := hk; cases v <;> rfl)
    | (obtain ⟨e, rfl⟩ := hk; cases v <;> rfl)
    | (subst hk; cases v <;> rfl)

theorem packedLen_sim {a b : Kind} (hk : KindSim ρ I a b) (v : Value) :
    packedLen b (renVal ρ v) = packedLen a v := by
  cases a <;> simp only [KindSim] at hk <;>
    first
    | (obtain ⟨_, rfl⟩ := hk; cases v <;> rfl)
    | (obtain ⟨e, rfl⟩ := hk; cases v <;> rfl)
    | (subst hk; cases v <;> rfl)

theorem wireType_sim {a b : Kind} (hk : KindSim ρ I a b) : b.wireType = a.wireType := by
  cases a <;> simp only [KindSim] at hk <;>
    first
    | (obtain ⟨_, rfl⟩ := hk; rfl)
    | (obtain ⟨e, rfl⟩ := hk; rfl)
    | (subst hk; rfl)

theorem packable_sim {a b : Kind} (hk : KindSim ρ I a b) : b.packable = a.packable := by
  cases a <;> simp only [KindSim] at hk <;>
    first
    | (obtain ⟨_, rfl⟩ := hk; rfl)
    | (obtain ⟨e, rfl⟩ := hk; rfl)
    | (subst hk; rfl)

theorem keyDefault_sim {a b : Kind} (hk : KindSim ρ I a b) : MapKey.default b = MapKey.default a := by
  cases a <;> simp only [KindSim] at hk <;>
    first
    | (obtain ⟨_, rfl⟩ := hk; rfl)
    | (obtain ⟨e, rfl⟩ := hk; rfl)
    | (subst hk; rfl)

theorem keyOk_sim {a b : Kind} (hk : KindSim ρ I a b) (k : MapKey) : keyOk b k = keyOk a k := by
  cases a <;> simp only [KindSim] at hk <;>
    first
    | (obtain ⟨_, rfl⟩ := hk; cases k <;> rfl)
    | (obtain ⟨e, rfl⟩ := hk; cases k <;> rfl)
    | (subst hk; cases k <;> rfl)

theorem scalarOk_sim {a b : Kind} (hk : KindSim ρ I a b) (v : Value) (h : scalarOk a v = true) :
    scalarOk b (renVal ρ v) = true := by
  cases a <;> simp only [KindSim] at hk <;>
    first
    | (obtain ⟨_, rfl⟩ := hk; cases v <;> first | exact h | cases h)
    | (obtain ⟨e, rfl⟩ := hk; cases v <;> first | exact h | cases h)
    | (subst hk; cases v <;> first | exact h | cases h)

theorem packedEncAll_sim {a b : Kind} (hk : KindSim ρ I a b) : ∀ vs : List Value,
    packedEncAll b (renVals ρ vs) = packedEncAll a vs
  | [] => rfl
  | v :: r => by
    simp only [renVals, packedEncAll, packedEnc_sim hk, packedEncAll_sim hk r]

theorem packedLenAll_sim {a b : Kind} (hk : KindSim ρ I a b) : ∀ vs : List Value,
    packedLenAll b (renVals ρ vs) = packedLenAll a vs
  | [] => rfl
  | v :: r => by
    simp only [renVals, packedLenAll, packedLen_sim hk, packedLenAll_sim hk r]

theorem encPackedList_sim {f g : FieldDesc} (hs : FSim ρ I f g) (vs : List Value) :
    encPackedList g (renVals ρ vs) = encPackedList f vs := by
  unfold encPackedList
  rw [packable_sim hs.kind, packedEncAll_sim hs.kind, packedLenAll_sim hs.kind, hs.number]

theorem lenPackedList_sim {f g : FieldDesc} (hs : FSim ρ I f g) (vs : List Value) :
    lenPackedList g (renVals ρ vs) = lenPackedList f vs := by
  unfold lenPackedList
  rw [packable_sim hs.kind, packedLenAll_sim hs.kind, hs.number]

theorem renVal_key (k : MapKey) : renVal ρ k.toValue = k.toValue := by cases k <;> rfl

theorem encKey_sim {f g : FieldDesc} (hs : FSim ρ I f g) (k : MapKey) : encKey g k = encKey f k := by
  unfold encKey
  have := scalarEnc_sim hs.kind k.toValue
  rw [renVal_key] at this
  rw [this, hs.number, wireType_sim hs.kind, hs.presence, keyDefault_sim hs.kind]

theorem lenKey_sim {f g : FieldDesc} (hs : FSim ρ I f g) (k : MapKey) : lenKey g k = lenKey f k := by
  unfold lenKey
  have := scalarLen_sim hs.kind k.toValue
  rw [renVal_key] at this
  rw [this, hs.number, hs.presence, keyDefault_sim hs.kind]

/-! ### Encoding -/

/-- A value of the field's kind, whatever its cardinality. -/
def Fits (S : Schema) (f : FieldDesc) (v : Value) : Prop :=
  ∃ f' : FieldDesc, f'.kind = f.kind ∧ confVal S f' v = true

theorem ifPresent_sim {α : Type} (h : Emb S T ρ I) {d : Nat} (hd : I d) (n : Nat) (v : Value) (z : α)
    {a b : FieldDesc → Option α}
    (hab : ∀ f g, S.field? d n = some f → FSim ρ I f g → a g = b f) :
    ifPresent T (T.field? (ρ d) n) (renVal ρ v) z a = ifPresent S (S.field? d n) v z b := by
  rcases h.field hd n with ⟨h1, h2⟩ | ⟨f, g, h1, h2, h3⟩
  · rw [h1, h2]; rfl
  · rw [h1, h2]
    simp only [ifPresent]
    rw [hasVal_sim h h3, hab f g h1 h3]

mutual
theorem lenVal_ren (h : Emb S T ρ I) : (v : Value) → (f g : FieldDesc) → FSim ρ I f g → Fits S f v →
    lenVal T g (renVal ρ v) = lenVal S f v
  | .msg d fs, f, g, hs, ⟨f', hk, hc⟩ => by
    simp only [confVal, Bool.and_eq_true] at hc
    have hfk : f.kind = .message d := by rw [← hk]; simpa using hc.1.2
    have hkk := hs.kind
    rw [hfk] at hkk
    simp only [KindSim] at hkk
    have ih := lenSlots_ren h fs d hkk.1 hc.2.2
    simp only [lenVal, renVal]
    refine unlessDefault_sim h hs (.msg d fs) 0 ?_
    rw [hfk, hkk.2]
    simp only
    rw [ih, hs.number, hs.group]
  | .list vs, f, g, hs, ⟨f', hk, hc⟩ => by
    simp only [confVal, Bool.and_eq_true] at hc
    have ih := lenVals_ren h vs f g hs f'.elem hk hc.2
    simp only [lenVal, renVal]
    refine unlessDefault_sim h hs (.list vs) 0 ?_
    rw [isList_sim h hs, hs.packed, lenPackedList_sim hs, ih]
  | .map kvs, f, g, hs, ⟨f', hk, hc⟩ => by
    simp only [confVal, Bool.and_eq_true] at hc
    rw [hk] at hc
    simp only [lenVal, renVal]
    refine unlessDefault_sim h hs (.map kvs) 0 ?_
    rw [isMap_sim h hs, hs.number]
    have hkk := hs.kind
    cases hfk : f.kind with
    | message i =>
      rw [hfk] at hkk hc
      simp only [KindSim] at hkk
      rw [hkk.2]
      simp only at hc ⊢
      rcases h.mapKV hkk.1 with ⟨h1, h2⟩ | ⟨kd, vd, kd', vd', h1, h2, h3, h4⟩
      · rw [h1, h2]
      · rw [h1] at hc
        simp only [Bool.and_eq_true] at hc
        rw [h1, h2]
        simp only
        rw [lenMap_ren h kvs f.number kd vd kd' vd' h3 h4 hc.2.2]
    | _ => rw [hfk] at hc; simp at hc
  | .bool x, f, g, hs, _ => by
    have h1 := scalarLen_sim hs.kind (.bool x)
    simp only [renVal] at h1
    simp only [lenVal, renVal]
    exact unlessDefault_sim h hs (.bool x) 0 (by rw [h1, hs.number])
  | .i32 x, f, g, hs, _ => by
    have h1 := scalarLen_sim hs.kind (.i32 x)
    simp only [renVal] at h1
    simp only [lenVal, renVal]
    exact unlessDefault_sim h hs (.i32 x) 0 (by rw [h1, hs.number])
  | .i64 x, f, g, hs, _ => by
    have h1 := scalarLen_sim hs.kind (.i64 x)
    simp only [renVal] at h1
    simp only [lenVal, renVal]
    exact unlessDefault_sim h hs (.i64 x) 0 (by rw [h1, hs.number])
  | .u32 x, f, g, hs, _ => by
    have h1 := scalarLen_sim hs.kind (.u32 x)
    simp only [renVal] at h1
    simp only [lenVal, renVal]
    exact unlessDefault_sim h hs (.u32 x) 0 (by rw [h1, hs.number])
  | .u64 x, f, g, hs, _ => by
    have h1 := scalarLen_sim hs.kind (.u64 x)
    simp only [renVal] at h1
    simp only [lenVal, renVal]
    exact unlessDefault_sim h hs (.u64 x) 0 (by rw [h1, hs.number])
  | .f32 x, f, g, hs, _ => by
    have h1 := scalarLen_sim hs.kind (.f32 x)
    simp only [renVal] at h1
    simp only [lenVal, renVal]
    exact unlessDefault_sim h hs (.f32 x) 0 (by rw [h1, hs.number])
  | .f64 x, f, g, hs, _ => by
    have h1 := scalarLen_sim hs.kind (.f64 x)
    simp only [renVal] at h1
    simp only [lenVal, renVal]
    exact unlessDefault_sim h hs (.f64 x) 0 (by rw [h1, hs.number])
  | .str x, f, g, hs, _ => by
    have h1 := scalarLen_sim hs.kind (.str x)
    simp only [renVal] at h1
    simp only [lenVal, renVal]
    exact unlessDefault_sim h hs (.str x) 0 (by rw [h1, hs.number])
  | .bytes x, f, g, hs, _ => by
    have h1 := scalarLen_sim hs.kind (.bytes x)
    simp only [renVal] at h1
    simp only [lenVal, renVal]
    exact unlessDefault_sim h hs (.bytes x) 0 (by rw [h1, hs.number])
  | .enum x, f, g, hs, _ => by
    have h1 := scalarLen_sim hs.kind (.enum x)
    simp only [renVal] at h1
    simp only [lenVal, renVal]
    exact unlessDefault_sim h hs (.enum x) 0 (by rw [h1, hs.number])
theorem lenVals_ren (h : Emb S T ρ I) : (vs : List Value) → (f g : FieldDesc) → FSim ρ I f g →
    (f' : FieldDesc) → f'.kind = f.kind → confVals S f' vs = true →
    lenVals T g (renVals ρ vs) = lenVals S f vs
  | [], _, _, _, _, _, _ => rfl
  | v :: r, f, g, hs, f', hk, hc => by
    simp only [confVals, Bool.and_eq_true] at hc
    have h1 := lenVal_ren h v f g hs ⟨f', hk, hc.1⟩
    have h2 := lenVals_ren h r f g hs f' hk hc.2
    simp only [renVals, lenVals, h1, h2]
theorem lenMap_ren (h : Emb S T ρ I) : (kvs : List (MapKey × Value)) → (n : Nat) → (kd vd kd' vd' : FieldDesc) →
    FSim ρ I kd kd' → FSim ρ I vd vd' → confMap S kd vd kvs = true →
    lenMapEntries T n kd' vd' (renMap ρ kvs) = lenMapEntries S n kd vd kvs
  | [], _, _, _, _, _, _, _, _ => rfl
  | (k, v) :: r, n, kd, vd, kd', vd', h1, h2, hc => by
    simp only [confMap, Bool.and_eq_true] at hc
    have h3 := lenVal_ren h v vd vd' h2 ⟨vd, rfl, hc.1.2⟩
    have h4 := lenMap_ren h r n kd vd kd' vd' h1 h2 hc.2
    simp only [renMap, lenMapEntries, h3, h4, lenKey_sim h1]
theorem lenSlots_ren (h : Emb S T ρ I) : (fs : List (Nat × Slot)) → (d : Nat) → I d →
    confSlots S d fs = true → lenSlots T (ρ d) (renSlots ρ fs) = lenSlots S d fs
  | [], _, _, _ => rfl
  | (n, .taken) :: r, d, hd, hc => by
    simp only [confSlots] at hc
    have ih := lenSlots_ren h r d hd hc
    simp only [renSlots, lenSlots, ih]
  | (n, .unknown u) :: r, d, hd, hc => by
    simp only [confSlots, Bool.and_eq_true] at hc
    have ih := lenSlots_ren h r d hd hc.2
    simp only [renSlots, lenSlots, ih]
  | (n, .val v) :: r, d, hd, hc => by
    simp only [confSlots, Bool.and_eq_true] at hc
    have ih := lenSlots_ren h r d hd hc.2
    have ihv := lenVal_ren h v
    have hc1 := hc.1
    have h1 := ifPresent_sim h hd n v 0 (a := fun g => lenVal T g (renVal ρ v)) (b := fun f => lenVal S f v)
      (fun f g hf hs => ihv f g hs ⟨f, rfl, by rw [hf] at hc1; exact hc1⟩)
    obtain ⟨he1, he2⟩ := h.ext hd n
    simp only [renSlots, lenSlots]
    rw [ih, h1, he1, he2]
    rfl
end

mutual
theorem encVal_ren (h : Emb S T ρ I) : (v : Value) → (f g : FieldDesc) → FSim ρ I f g → Fits S f v →
    encVal T g (renVal ρ v) = encVal S f v
  | .msg d fs, f, g, hs, ⟨f', hk, hc⟩ => by
    simp only [confVal, Bool.and_eq_true] at hc
    have hfk : f.kind = .message d := by rw [← hk]; simpa using hc.1.2
    have hkk := hs.kind
    rw [hfk] at hkk
    simp only [KindSim] at hkk
    have ih := encSlots_ren h fs d hkk.1 hc.2.2
    have il := lenSlots_ren h fs d hkk.1 hc.2.2
    simp only [encVal, renVal]
    refine unlessDefault_sim h hs (.msg d fs) [] ?_
    rw [hfk, hkk.2]
    simp only
    rw [ih, il, hs.number, hs.group]
  | .list vs, f, g, hs, ⟨f', hk, hc⟩ => by
    simp only [confVal, Bool.and_eq_true] at hc
    have ih := encVals_ren h vs f g hs f'.elem hk hc.2
    simp only [encVal, renVal]
    refine unlessDefault_sim h hs (.list vs) [] ?_
    rw [isList_sim h hs, hs.packed, encPackedList_sim hs, ih]
  | .map kvs, f, g, hs, ⟨f', hk, hc⟩ => by
    simp only [confVal, Bool.and_eq_true] at hc
    rw [hk] at hc
    simp only [encVal, renVal]
    refine unlessDefault_sim h hs (.map kvs) [] ?_
    rw [isMap_sim h hs, hs.number]
    have hkk := hs.kind
    cases hfk : f.kind with
    | message i =>
      rw [hfk] at hkk hc
      simp only [KindSim] at hkk
      rw [hkk.2]
      simp only at hc ⊢
      rcases h.mapKV hkk.1 with ⟨h1, h2⟩ | ⟨kd, vd, kd', vd', h1, h2, h3, h4⟩
      · rw [h1, h2]
      · rw [h1] at hc
        simp only [Bool.and_eq_true] at hc
        rw [h1, h2]
        simp only
        rw [encMap_ren h kvs f.number kd vd kd' vd' h3 h4 hc.2.2]
    | _ => rw [hfk] at hc; simp at hc
  | .bool x, f, g, hs, _ => by
    have h1 := scalarEnc_sim hs.kind (.bool x)
    simp only [renVal] at h1
    simp only [encVal, renVal]
    exact unlessDefault_sim h hs (.bool x) [] (by rw [h1, hs.number, wireType_sim hs.kind])
  | .i32 x, f, g, hs, _ => by
    have h1 := scalarEnc_sim hs.kind (.i32 x)
    simp only [renVal] at h1
    simp only [encVal, renVal]
    exact unlessDefault_sim h hs (.i32 x) [] (by rw [h1, hs.number, wireType_sim hs.kind])
  | .i64 x, f, g, hs, _ => by
    have h1 := scalarEnc_sim hs.kind (.i64 x)
    simp only [renVal] at h1
    simp only [encVal, renVal]
    exact unlessDefault_sim h hs (.i64 x) [] (by rw [h1, hs.number, wireType_sim hs.kind])
  | .u32 x, f, g, hs, _ => by
    have h1 := scalarEnc_sim hs.kind (.u32 x)
    simp only [renVal] at h1
    simp only [encVal, renVal]
    exact unlessDefault_sim h hs (.u32 x) [] (by rw [h1, hs.number, wireType_sim hs.kind])
  | .u64 x, f, g, hs, _ => by
    have h1 := scalarEnc_sim hs.kind (.u64 x)
    simp only [renVal] at h1
    simp only [encVal, renVal]
    exact unlessDefault_sim h hs (.u64 x) [] (by rw [h1, hs.number, wireType_sim hs.kind])
  | .f32 x, f, g, hs, _ => by
    have h1 := scalarEnc_sim hs.kind (.f32 x)
    simp only [renVal] at h1
    simp only [encVal, renVal]
    exact unlessDefault_sim h hs (.f32 x) [] (by rw [h1, hs.number, wireType_sim hs.kind])
  | .f64 x, f, g, hs, _ => by
    have h1 := scalarEnc_sim hs.kind (.f64 x)
    simp only [renVal] at h1
    simp only [encVal, renVal]
    exact unlessDefault_sim h hs (.f64 x) [] (by rw [h1, hs.number, wireType_sim hs.kind])
  | .str x, f, g, hs, _ => by
    have h1 := scalarEnc_sim hs.kind (.str x)
    simp only [renVal] at h1
    simp only [encVal, renVal]
    exact unlessDefault_sim h hs (.str x) [] (by rw [h1, hs.number, wireType_sim hs.kind])
  | .bytes x, f, g, hs, _ => by
    have h1 := scalarEnc_sim hs.kind (.bytes x)
    simp only [renVal] at h1
    simp only [encVal, renVal]
    exact unlessDefault_sim h hs (.bytes x) [] (by rw [h1, hs.number, wireType_sim hs.kind])
  | .enum x, f, g, hs, _ => by
    have h1 := scalarEnc_sim hs.kind (.enum x)
    simp only [renVal] at h1
    simp only [encVal, renVal]
    exact unlessDefault_sim h hs (.enum x) [] (by rw [h1, hs.number, wireType_sim hs.kind])
theorem encVals_ren (h : Emb S T ρ I) : (vs : List Value) → (f g : FieldDesc) → FSim ρ I f g →
    (f' : FieldDesc) → f'.kind = f.kind → confVals S f' vs = true →
    encVals T g (renVals ρ vs) = encVals S f vs
  | [], _, _, _, _, _, _ => rfl
  | v :: r, f, g, hs, f', hk, hc => by
    simp only [confVals, Bool.and_eq_true] at hc
    have h1 := encVal_ren h v f g hs ⟨f', hk, hc.1⟩
    have h2 := encVals_ren h r f g hs f' hk hc.2
    simp only [renVals, encVals, h1, h2]
theorem encMap_ren (h : Emb S T ρ I) : (kvs : List (MapKey × Value)) → (n : Nat) → (kd vd kd' vd' : FieldDesc) →
    FSim ρ I kd kd' → FSim ρ I vd vd' → confMap S kd vd kvs = true →
    encMapEntries T n kd' vd' (renMap ρ kvs) = encMapEntries S n kd vd kvs
  | [], _, _, _, _, _, _, _, _ => rfl
  | (k, v) :: r, n, kd, vd, kd', vd', h1, h2, hc => by
    simp only [confMap, Bool.and_eq_true] at hc
    have h3 := encVal_ren h v vd vd' h2 ⟨vd, rfl, hc.1.2⟩
    have h5 := lenVal_ren h v vd vd' h2 ⟨vd, rfl, hc.1.2⟩
    have h4 := encMap_ren h r n kd vd kd' vd' h1 h2 hc.2
    simp only [renMap, encMapEntries, h3, h4, h5, encKey_sim h1, lenKey_sim h1]
theorem encSlots_ren (h : Emb S T ρ I) : (fs : List (Nat × Slot)) → (d : Nat) → I d →
    confSlots S d fs = true → encSlots T (ρ d) (renSlots ρ fs) = encSlots S d fs
  | [], _, _, _ => rfl
  | (n, .taken) :: r, d, hd, hc => by
    simp only [confSlots] at hc
    have ih := encSlots_ren h r d hd hc
    simp only [renSlots, encSlots, ih]
  | (n, .unknown u) :: r, d, hd, hc => by
    simp only [confSlots, Bool.and_eq_true] at hc
    have ih := encSlots_ren h r d hd hc.2
    simp only [renSlots, encSlots, ih]
  | (n, .val v) :: r, d, hd, hc => by
    simp only [confSlots, Bool.and_eq_true] at hc
    have ih := encSlots_ren h r d hd hc.2
    have ihv := encVal_ren h v
    have hc1 := hc.1
    have h1 := ifPresent_sim h hd n v [] (a := fun g => encVal T g (renVal ρ v)) (b := fun f => encVal S f v)
      (fun f g hf hs => ihv f g hs ⟨f, rfl, by rw [hf] at hc1; exact hc1⟩)
    obtain ⟨he1, he2⟩ := h.ext hd n
    simp only [renSlots, encSlots]
    rw [ih, h1, he1, he2]
    rfl
end

theorem encMsg_ren (h : Emb S T ρ I) {m : DynMsg} (hd : I m.desc) (hc : confMsg S m = true) :
    encMsg T (renMsg ρ m) = encMsg S m := by
  simp only [confMsg, Bool.and_eq_true] at hc
  simp only [encMsg, renMsg, encSlots_ren h _ _ hd hc.2]

/-! ### Conformance -/

theorem get?_renSlots : ∀ (fs : List (Nat × Slot)) (n : Nat), SMap.get? (renSlots ρ fs) n =
    (SMap.get? fs n).map (fun s => match s with
      | .val v => .val (renVal ρ v)
      | s => s)
  | [], _ => rfl
  | (k, s) :: r, n => by
    have ih := get?_renSlots r n
    cases s <;> simp only [renSlots, SMap.get?] <;> split <;> first | rfl | (split <;> first | rfl | exact ih) | exact ih

theorem sorted_renSlots : ∀ (fs : List (Nat × Slot)) (lo : Nat),
    SMap.sortedFrom lo (renSlots ρ fs) = SMap.sortedFrom lo fs
  | [], _ => rfl
  | (k, s) :: r, lo => by
    cases s <;> simp only [renSlots, SMap.sortedFrom, sorted_renSlots r]

theorem oneofOk_ren (h : Emb S T ρ I) {d : Nat} (hd : I d) {fs : FieldSet} (hs : SMap.sorted fs = true)
    (ho : oneofOk S d fs = true) : oneofOk T (ρ d) (renSlots ρ fs) = true := by
  obtain ⟨md, hm, hi⟩ := (oneofOk_iff hs).1 ho
  obtain ⟨md', td, h1, h2, _, _, _, h3⟩ := h.desc d hd
  rw [hm] at h1; cases h1
  refine (oneofOk_iff (by unfold SMap.sorted; rw [sorted_renSlots]; exact hs)).2 ⟨td, h2, ?_⟩
  intro n g s hg hgf k hk
  rw [get?_renSlots] at hg ⊢
  rcases h3 n with ⟨_, h4⟩ | ⟨f, g', h4, h5, _, h6⟩
  · rw [h4] at hgf; cases hgf
  · rw [h5] at hgf; cases hgf
    cases hfn : SMap.get? fs n with
    | none => rw [hfn] at hg; cases hg
    | some t => rw [hi n f t hfn h4 k ((h6 k).1 hk)]; rfl

theorem renVals_length : ∀ vs : List Value, (renVals ρ vs).length = vs.length
  | [] => rfl
  | _ :: r => by simp only [renVals, List.length_cons, renVals_length r]

theorem get?_renMap : ∀ (kvs : List (MapKey × Value)) (k : MapKey),
    KMap.get? (renMap ρ kvs) k = (KMap.get? kvs k).map (renVal ρ)
  | [], _ => rfl
  | (j, v) :: r, k => by
    simp only [renMap, KMap.get?]
    split
    · rfl
    · exact get?_renMap r k

theorem get?_renVals : ∀ (vs : List Value) (i : Nat), (renVals ρ vs)[i]? = vs[i]?.map (renVal ρ)
  | [], i => by simp [renVals]
  | v :: r, 0 => by simp [renVals]
  | v :: r, i + 1 => by simp only [renVals, List.getElem?_cons_succ]; exact get?_renVals r i

theorem distinct_renMap : ∀ kvs : List (MapKey × Value), KMap.distinct (renMap ρ kvs) = KMap.distinct kvs
  | [] => rfl
  | (k, v) :: r => by
    simp only [renMap, KMap.distinct, distinct_renMap r, get?_renMap, Option.isNone_map]

theorem isMap_kind (h : Emb S T ρ I) {f g : FieldDesc} (hc : g.card = f.card) (hk : KindSim ρ I f.kind g.kind) :
    isMap T g = isMap S f := by
  unfold isMap
  rw [hc]
  have := hk
  cases hk : f.kind <;> rw [hk] at this <;> simp only [KindSim] at this
  case message i => rw [this.2]; simp only; rw [h.entry this.1]
  case enum e => obtain ⟨e', he⟩ := this; rw [he]
  all_goals rw [this]

theorem isList_kind (h : Emb S T ρ I) {f g : FieldDesc} (hc : g.card = f.card) (hk : KindSim ρ I f.kind g.kind) :
    isList T g = isList S f := by
  unfold isList; rw [isMap_kind h hc hk, hc]

theorem confScalar_ren {f g : FieldDesc} (hc : g.card = f.card) (hk : KindSim ρ I f.kind g.kind) (v : Value)
    (h : (f.card != .repeated && scalarOk f.kind v) = true) :
    (g.card != .repeated && scalarOk g.kind (renVal ρ v)) = true := by
  rw [Bool.and_eq_true] at h ⊢
  rw [hc]
  exact ⟨h.1, scalarOk_sim hk v h.2⟩

mutual
theorem confVal_ren (h : Emb S T ρ I) : (v : Value) → (f g : FieldDesc) → g.card = f.card →
    KindSim ρ I f.kind g.kind → confVal S f v = true → confVal T g (renVal ρ v) = true
  | .msg d fs, f, g, hc, hk, hv => by
    simp only [confVal, Bool.and_eq_true, beq_iff_eq] at hv
    rw [hv.1.2] at hk
    simp only [KindSim] at hk
    have ih := confSlots_ren h fs d hk.1 hv.2.2
    have ho := oneofOk_ren h hk.1 hv.2.1.1 hv.2.1.2
    simp only [renVal, confVal, Bool.and_eq_true, beq_iff_eq]
    refine ⟨⟨by rw [hc]; exact hv.1.1, hk.2⟩, ⟨?_, ho⟩, ih⟩
    unfold SMap.sorted
    rw [sorted_renSlots]
    exact hv.2.1.1
  | .list vs, f, g, hc, hk, hv => by
    simp only [confVal, Bool.and_eq_true] at hv
    have ih := confVals_ren h vs f.elem g.elem rfl hk hv.2
    simp only [renVal, confVal, Bool.and_eq_true]
    exact ⟨by rw [isList_kind h hc hk]; exact hv.1, ih⟩
  | .map kvs, f, g, hc, hk, hv => by
    simp only [confVal, Bool.and_eq_true] at hv
    simp only [renVal, confVal, Bool.and_eq_true]
    refine ⟨by rw [isMap_kind h hc hk]; exact hv.1, ?_⟩
    have hv2 := hv.2
    cases hfk : f.kind with
    | message i =>
      rw [hfk] at hk hv2
      simp only [KindSim] at hk
      rw [hk.2]
      simp only at hv2 ⊢
      rcases h.mapKV hk.1 with ⟨h1, h2⟩ | ⟨kd, vd, kd', vd', h1, h2, h3, h4⟩
      · rw [h1] at hv2; cases hv2
      · rw [h1] at hv2
        rw [h2]
        simp only [Bool.and_eq_true] at hv2 ⊢
        exact ⟨by rw [distinct_renMap]; exact hv2.1, confMap_ren h kvs kd vd kd' vd' h3 h4 hv2.2⟩
    | _ => rw [hfk] at hv2; simp at hv2
  | .bool x, f, g, hc, hk, hv => by simp only [confVal] at hv; exact confScalar_ren hc hk (.bool x) hv
  | .i32 x, f, g, hc, hk, hv => by simp only [confVal] at hv; exact confScalar_ren hc hk (.i32 x) hv
  | .i64 x, f, g, hc, hk, hv => by simp only [confVal] at hv; exact confScalar_ren hc hk (.i64 x) hv
  | .u32 x, f, g, hc, hk, hv => by simp only [confVal] at hv; exact confScalar_ren hc hk (.u32 x) hv
  | .u64 x, f, g, hc, hk, hv => by simp only [confVal] at hv; exact confScalar_ren hc hk (.u64 x) hv
  | .f32 x, f, g, hc, hk, hv => by simp only [confVal] at hv; exact confScalar_ren hc hk (.f32 x) hv
  | .f64 x, f, g, hc, hk, hv => by simp only [confVal] at hv; exact confScalar_ren hc hk (.f64 x) hv
  | .str x, f, g, hc, hk, hv => by simp only [confVal] at hv; exact confScalar_ren hc hk (.str x) hv
  | .bytes x, f, g, hc, hk, hv => by simp only [confVal] at hv; exact confScalar_ren hc hk (.bytes x) hv
  | .enum x, f, g, hc, hk, hv => by simp only [confVal] at hv; exact confScalar_ren hc hk (.enum x) hv
theorem confVals_ren (h : Emb S T ρ I) : (vs : List Value) → (f g : FieldDesc) → g.card = f.card →
    KindSim ρ I f.kind g.kind → confVals S f vs = true → confVals T g (renVals ρ vs) = true
  | [], _, _, _, _, _ => rfl
  | v :: r, f, g, hc, hk, hv => by
    simp only [confVals, Bool.and_eq_true] at hv
    have h1 := confVal_ren h v f g hc hk hv.1
    have h2 := confVals_ren h r f g hc hk hv.2
    simp only [renVals, confVals, h1, h2, Bool.and_self]
theorem confMap_ren (h : Emb S T ρ I) : (kvs : List (MapKey × Value)) → (kd vd kd' vd' : FieldDesc) →
    FSim ρ I kd kd' → FSim ρ I vd vd' → confMap S kd vd kvs = true → confMap T kd' vd' (renMap ρ kvs) = true
  | [], _, _, _, _, _, _, _ => rfl
  | (k, v) :: r, kd, vd, kd', vd', h1, h2, hc => by
    simp only [confMap, Bool.and_eq_true] at hc
    have h3 := confVal_ren h v vd vd' h2.card h2.kind hc.1.2
    have h4 := confMap_ren h r kd vd kd' vd' h1 h2 hc.2
    simp only [renMap, confMap, h3, h4, keyOk_sim h1.kind, hc.1.1, Bool.and_self]
theorem confSlots_ren (h : Emb S T ρ I) : (fs : List (Nat × Slot)) → (d : Nat) → I d →
    confSlots S d fs = true → confSlots T (ρ d) (renSlots ρ fs) = true
  | [], _, _, _ => rfl
  | (n, .taken) :: r, d, hd, hc => by
    simp only [confSlots] at hc
    have ih := confSlots_ren h r d hd hc
    simp only [renSlots, confSlots, ih]
  | (n, .unknown u) :: r, d, hd, hc => by
    simp only [confSlots, Bool.and_eq_true] at hc
    have ih := confSlots_ren h r d hd hc.2
    have he := (h.ext hd n).2
    simp only [renSlots, confSlots, ih, he, hc.1.2, Bool.and_true, Option.isNone_none]
    rcases h.field hd n with ⟨_, h2⟩ | ⟨f, g, h1, _⟩
    · rw [h2]; rfl
    · rw [h1] at hc; simp at hc
  | (n, .val v) :: r, d, hd, hc => by
    simp only [confSlots, Bool.and_eq_true] at hc
    have ih := confSlots_ren h r d hd hc.2
    have ihv := confVal_ren h v
    have hc1 := hc.1
    simp only [renSlots, confSlots, ih, Bool.and_true]
    rcases h.field hd n with ⟨h1, _⟩ | ⟨f, g, h1, h2, h3⟩
    · rw [h1, (h.ext hd n).1] at hc1; cases hc1
    · rw [h2]
      rw [h1] at hc1
      exact ihv f g h3.card h3.kind hc1
end

theorem confMsg_ren (h : Emb S T ρ I) {m : DynMsg} (hd : I m.desc) (hc : confMsg S m = true) :
    confMsg T (renMsg ρ m) = true := by
  simp only [confMsg, Bool.and_eq_true] at hc
  simp only [confMsg, renMsg, Bool.and_eq_true]
  refine ⟨⟨?_, oneofOk_ren h hd hc.1.1 hc.1.2⟩, confSlots_ren h _ _ hd hc.2⟩
  unfold SMap.sorted
  rw [sorted_renSlots]
  exact hc.1.1

/-! ### Depth -/

mutual
theorem depthVal_ren : (v : Value) → depthVal (renVal ρ v) = depthVal v
  | .msg d fs => by simp only [renVal, depthVal, depthSlots_ren fs]
  | .list vs => by simp only [renVal, depthVal, depthVals_ren vs]
  | .map kvs => by simp only [renVal, depthVal, depthMap_ren kvs]
  | .bool _ | .i32 _ | .i64 _ | .u32 _ | .u64 _ | .f32 _ | .f64 _ | .str _ | .bytes _ | .enum _ => by
    simp only [renVal]
theorem depthVals_ren : (vs : List Value) → depthVals (renVals ρ vs) = depthVals vs
  | [] => rfl
  | v :: r => by simp only [renVals, depthVals, depthVal_ren v, depthVals_ren r]
theorem depthMap_ren : (kvs : List (MapKey × Value)) → depthMap (renMap ρ kvs) = depthMap kvs
  | [] => rfl
  | (k, v) :: r => by simp only [renMap, depthMap, depthVal_ren v, depthMap_ren r]
theorem depthSlots_ren : (fs : List (Nat × Slot)) → depthSlots (renSlots ρ fs) = depthSlots fs
  | [] => rfl
  | (_, .taken) :: r => by simp only [renSlots, depthSlots, depthSlots_ren r]
  | (_, .unknown _) :: r => by simp only [renSlots, depthSlots, depthSlots_ren r]
  | (_, .val v) :: r => by simp only [renSlots, depthSlots, depthVal_ren v, depthSlots_ren r]
end

/-! ### There and back -/

mutual
theorem renVal_back (h : Emb S T ρ I) {σ : Nat → Nat} (hσ : ∀ d, I d → σ (ρ d) = d) : (v : Value) →
    (f : FieldDesc) → (∀ i, f.kind = .message i → I i) → confVal S f v = true → renVal σ (renVal ρ v) = v
  | .msg d fs, f, hk, hv => by
    simp only [confVal, Bool.and_eq_true, beq_iff_eq] at hv
    have hd := hk d hv.1.2
    simp only [renVal, hσ d hd, renSlots_back h hσ fs d hd hv.2.2]
  | .list vs, f, hk, hv => by
    simp only [confVal, Bool.and_eq_true] at hv
    simp only [renVal, renVals_back h hσ vs f.elem hk hv.2]
  | .map kvs, f, hk, hv => by
    simp only [confVal, Bool.and_eq_true] at hv
    have hv2 := hv.2
    simp only [renVal]
    cases hfk : f.kind with
    | message i =>
      rw [hfk] at hv2
      simp only at hv2
      rcases h.mapKV (hk i hfk) with ⟨h1, h2⟩ | ⟨kd, vd, kd', vd', h1, h2, h3, h4⟩
      · rw [h1] at hv2; cases hv2
      · rw [h1] at hv2
        simp only [Bool.and_eq_true] at hv2
        rw [renMap_back h hσ kvs kd vd (by
          intro j hj
          have := h4.kind
          rw [hj] at this
          exact this.1) hv2.2]
    | _ => rw [hfk] at hv2; simp at hv2
  | .bool _, _, _, _ | .i32 _, _, _, _ | .i64 _, _, _, _ | .u32 _, _, _, _ | .u64 _, _, _, _ | .f32 _, _, _, _
  | .f64 _, _, _, _ | .str _, _, _, _ | .bytes _, _, _, _ | .enum _, _, _, _ => by simp only [renVal]
theorem renVals_back (h : Emb S T ρ I) {σ : Nat → Nat} (hσ : ∀ d, I d → σ (ρ d) = d) : (vs : List Value) →
    (f : FieldDesc) → (∀ i, f.kind = .message i → I i) → confVals S f vs = true → renVals σ (renVals ρ vs) = vs
  | [], _, _, _ => rfl
  | v :: r, f, hk, hv => by
    simp only [confVals, Bool.and_eq_true] at hv
    simp only [renVals, renVal_back h hσ v f hk hv.1, renVals_back h hσ r f hk hv.2]
theorem renMap_back (h : Emb S T ρ I) {σ : Nat → Nat} (hσ : ∀ d, I d → σ (ρ d) = d) :
    (kvs : List (MapKey × Value)) → (kd vd : FieldDesc) → (∀ i, vd.kind = .message i → I i) →
    confMap S kd vd kvs = true → renMap σ (renMap ρ kvs) = kvs
  | [], _, _, _, _ => rfl
  | (k, v) :: r, kd, vd, hk, hv => by
    simp only [confMap, Bool.and_eq_true] at hv
    simp only [renMap, renVal_back h hσ v vd hk hv.1.2, renMap_back h hσ r kd vd hk hv.2]
theorem renSlots_back (h : Emb S T ρ I) {σ : Nat → Nat} (hσ : ∀ d, I d → σ (ρ d) = d) :
    (fs : List (Nat × Slot)) → (d : Nat) → I d → confSlots S d fs = true → renSlots σ (renSlots ρ fs) = fs
  | [], _, _, _ => rfl
  | (n, .taken) :: r, d, hd, hc => by
    simp only [confSlots] at hc
    simp only [renSlots, renSlots_back h hσ r d hd hc]
  | (n, .unknown u) :: r, d, hd, hc => by
    simp only [confSlots, Bool.and_eq_true] at hc
    simp only [renSlots, renSlots_back h hσ r d hd hc.2]
  | (n, .val v) :: r, d, hd, hc => by
    simp only [confSlots, Bool.and_eq_true] at hc
    have ih := renSlots_back h hσ r d hd hc.2
    have ihv := renVal_back h hσ v
    have hc1 := hc.1
    simp only [renSlots, ih]
    rcases h.field hd n with ⟨h1, _⟩ | ⟨f, g, h1, h2, h3⟩
    · rw [h1, (h.ext hd n).1] at hc1; cases hc1
    · rw [h1] at hc1
      rw [ihv f (by
        intro j hj
        have := h3.kind
        rw [hj] at this
        exact this.1) hc1]
end

theorem renMsg_back (h : Emb S T ρ I) {σ : Nat → Nat} (hσ : ∀ d, I d → σ (ρ d) = d) {m : DynMsg}
    (hd : I m.desc) (hc : confMsg S m = true) : renMsg σ (renMsg ρ m) = m := by
  simp only [confMsg, Bool.and_eq_true] at hc
  simp only [renMsg, hσ _ hd, renSlots_back h hσ _ _ hd hc.2]

/-! ### Canonical form -/

theorem fieldDefault_sim (h : Emb S T ρ I) {f g : FieldDesc} (hs : FSim ρ I f g) (hp : f.presence = false) :
    fieldDefault T g = (fieldDefault S f).map (renVal ρ) := by
  unfold fieldDefault
  rw [isList_sim h hs, isMap_sim h hs, hs.fdef, hs.gdef]
  by_cases h1 : isList S f = true
  · simp [h1, renVal, renVals]
  · by_cases h2 : isMap S f = true
    · simp [h1, h2, renVal, renMap]
    · simp only [h1, h2]
      have hc : f.card ≠ .repeated := by
        intro hc; unfold isList at h1; simp [hc, h2] at h1
      have hpl := hs.lone hp hc
      rw [plain_kind hs.kind hpl]
      simp only [Bool.false_eq_true, if_false]
      cases hfk : f.kind <;> rw [hfk] at hpl <;> first | (simp [kindDefault, renVal]; done) | (simp [Kind.plain] at hpl; done)

mutual
theorem canonVal_ren (h : Emb S T ρ I) : (v : Value) → (f g : FieldDesc) →
    KindSim ρ I f.kind g.kind → confVal S f v = true → canonVal T g (renVal ρ v) = renVal ρ (canonVal S f v)
  | .msg d fs, f, g, hk, hv => by
    simp only [confVal, Bool.and_eq_true, beq_iff_eq] at hv
    rw [hv.1.2] at hk
    simp only [KindSim] at hk
    simp only [renVal, canonVal, canonSlots_ren h fs d hk.1 hv.2.2]
  | .list vs, f, g, hk, hv => by
    simp only [confVal, Bool.and_eq_true] at hv
    simp only [renVal, canonVal, canonVals_ren h vs f.elem g.elem hk hv.2]
  | .map kvs, f, g, hk, hv => by
    simp only [confVal, Bool.and_eq_true] at hv
    simp only [renVal, canonVal]
    have hv2 := hv.2
    cases hfk : f.kind with
    | message i =>
      rw [hfk] at hk hv2
      simp only [KindSim] at hk
      rw [hk.2]
      simp only at hv2 ⊢
      rcases h.mapKV hk.1 with ⟨h1, h2⟩ | ⟨kd, vd, kd', vd', h1, h2, h3, h4⟩
      · rw [h1] at hv2; cases hv2
      · rw [h1] at hv2
        rw [h1, h2]
        simp only [Bool.and_eq_true] at hv2 ⊢
        simp only [renVal, canonMap_ren h kvs kd vd vd' h4 hv2.2]
    | _ => rw [hfk] at hv2; simp at hv2
  | .bool _, _, _, _, _ | .i32 _, _, _, _, _ | .i64 _, _, _, _, _ | .u32 _, _, _, _, _ | .u64 _, _, _, _, _
  | .f32 _, _, _, _, _ | .f64 _, _, _, _, _ | .str _, _, _, _, _ | .bytes _, _, _, _, _ | .enum _, _, _, _, _ => by
    simp only [renVal, canonVal]
theorem canonVals_ren (h : Emb S T ρ I) : (vs : List Value) → (f g : FieldDesc) →
    KindSim ρ I f.kind g.kind → confVals S f vs = true → canonVals T g (renVals ρ vs) = renVals ρ (canonVals S f vs)
  | [], _, _, _, _ => rfl
  | v :: r, f, g, hk, hv => by
    simp only [confVals, Bool.and_eq_true] at hv
    simp only [renVals, canonVals, canonVal_ren h v f g hk hv.1, canonVals_ren h r f g hk hv.2]
theorem canonMap_ren (h : Emb S T ρ I) : (kvs : List (MapKey × Value)) → (kd vd vd' : FieldDesc) →
    FSim ρ I vd vd' → confMap S kd vd kvs = true → canonMap T vd' (renMap ρ kvs) = renMap ρ (canonMap S vd kvs)
  | [], _, _, _, _, _ => rfl
  | (k, v) :: r, kd, vd, vd', hs, hc => by
    simp only [confMap, Bool.and_eq_true] at hc
    have h3 := canonVal_ren h v vd vd' hs.kind hc.1.2
    have h4 := canonMap_ren h r kd vd vd' hs hc.2
    simp only [renMap, canonMap, h3, h4, hasVal_sim h hs]
    by_cases hh : hasVal S vd v = some true
    · rw [if_pos hh, if_pos hh]
    · rw [if_neg hh, if_neg hh]
      have hp : vd.presence = false := by
        cases hp : vd.presence
        · rfl
        · simp [hasVal, hp] at hh
      rw [fieldDefault_sim h hs hp]
      cases fieldDefault S vd <;> rfl
theorem canonSlots_ren (h : Emb S T ρ I) : (fs : List (Nat × Slot)) → (d : Nat) → I d →
    confSlots S d fs = true → canonSlots T (ρ d) (renSlots ρ fs) = renSlots ρ (canonSlots S d fs)
  | [], _, _, _ => rfl
  | (n, .taken) :: r, d, hd, hc => by
    simp only [confSlots] at hc
    simp only [renSlots, canonSlots, canonSlots_ren h r d hd hc]
  | (n, .unknown u) :: r, d, hd, hc => by
    simp only [confSlots, Bool.and_eq_true] at hc
    simp only [renSlots, canonSlots, canonSlots_ren h r d hd hc.2]
  | (n, .val v) :: r, d, hd, hc => by
    simp only [confSlots, Bool.and_eq_true] at hc
    have ih := canonSlots_ren h r d hd hc.2
    have ihv := canonVal_ren h v
    have hc1 := hc.1
    simp only [renSlots, canonSlots, ih]
    rcases h.field hd n with ⟨h1, _⟩ | ⟨f, g, h1, h2, h3⟩
    · rw [h1, (h.ext hd n).1] at hc1; cases hc1
    · rw [h1] at hc1 ⊢
      rw [h2]
      simp only [hasVal_sim h h3, ihv f g h3.kind hc1]
      split <;> rfl
end

theorem canonMsg_ren (h : Emb S T ρ I) {m : DynMsg} (hd : I m.desc) (hc : confMsg S m = true) :
    canonMsg T (renMsg ρ m) = renMsg ρ (canonMsg S m) := by
  simp only [confMsg, Bool.and_eq_true] at hc
  simp only [canonMsg, renMsg, canonSlots_ren h _ _ hd hc.2]

/-! ### Likeness -/

theorem getValue_ren (fs : FieldSet) (n : Nat) :
    FieldSet.getValue (renSlots ρ fs) n = (FieldSet.getValue fs n).map (renVal ρ) := by
  unfold FieldSet.getValue
  rw [get?_renSlots]
  cases SMap.get? fs n with
  | none => rfl
  | some s => cases s <;> rfl

theorem has_ren (h : Emb S T ρ I) {f g : FieldDesc} (hs : FSim ρ I f g) (fs : FieldSet) :
    FieldSet.has T (renSlots ρ fs) g = FieldSet.has S fs f := by
  unfold FieldSet.has
  rw [getValue_ren, hs.number]
  cases FieldSet.getValue fs f.number with
  | none => rfl
  | some v => exact hasVal_sim h hs v

theorem getValue_of_has {fs : FieldSet} {f : FieldDesc} (hh : FieldSet.has S fs f = some true) :
    ∃ v, FieldSet.getValue fs f.number = some v := by
  unfold FieldSet.has at hh
  cases hg : FieldSet.getValue fs f.number with
  | none => rw [hg] at hh; cases hh
  | some v => exact ⟨v, rfl⟩

/-- A value of a field of one of the types in `I`. -/
def Inside (S : Schema) (I : Nat → Prop) (v : Value) : Prop :=
  ∃ f : FieldDesc, (∀ i, f.kind = .message i → I i) ∧ confVal S f v = true

theorem FSim.inside {f g : FieldDesc} (hs : FSim ρ I f g) : ∀ i, f.kind = .message i → I i := by
  intro i hi
  have := hs.kind
  rw [hi] at this
  exact this.1

theorem KMap.mem_of_get? {α : Type} {kvs : List (MapKey × α)} {k : MapKey} {v : α}
    (h : KMap.get? kvs k = some v) : (k, v) ∈ kvs := by
  induction kvs with
  | nil => cases h
  | cons q l ih =>
    obtain ⟨a, b⟩ := q
    simp only [KMap.get?] at h
    split at h
    · rename_i hab; subst hab; cases h; exact List.mem_cons_self
    · exact List.mem_cons_of_mem _ (ih h)

theorem alike_ren (h : Emb S T ρ I) {a b : Value} (hab : Alike S a b) :
    Inside S I a → Inside S I b → Alike T (renVal ρ a) (renVal ρ b) := by
  induction hab with
  | refl v => intro _ _; exact .refl _
  | nan32 ha hb => intro _ _; exact .nan32 ha hb
  | nan64 ha hb => intro _ _; exact .nan64 ha hb
  | list hl _ ih =>
    rename_i vs ws _
    rintro ⟨f, hf, hc⟩ ⟨f', hf', hc'⟩
    simp only [confVal, Bool.and_eq_true] at hc hc'
    refine .list (by rw [renVals_length, renVals_length]; exact hl) ?_
    intro i v w hv hw
    rw [get?_renVals] at hv hw
    cases hv0 : vs[i]? with
    | none => rw [hv0] at hv; cases hv
    | some v0 =>
      cases hw0 : ws[i]? with
      | none => rw [hw0] at hw; cases hw
      | some w0 =>
        rw [hv0] at hv; rw [hw0] at hw
        cases hv; cases hw
        exact ih i v0 w0 hv0 hw0
          ⟨f.elem, hf, (confVals_iff vs).1 hc.2 v0 (List.mem_of_getElem? hv0)⟩
          ⟨f'.elem, hf', (confVals_iff ws).1 hc'.2 w0 (List.mem_of_getElem? hw0)⟩
  | map hk _ ih =>
    rename_i kvs kws _
    have key : ∀ kvs : List (MapKey × Value), Inside S I (.map kvs) → ∀ k v, KMap.get? kvs k = some v → Inside S I v := by
      rintro kvs ⟨f, hf, hc⟩ k v hv
      simp only [confVal, Bool.and_eq_true] at hc
      have hc2 := hc.2
      cases hfk : f.kind with
      | message i =>
        rw [hfk] at hc2
        simp only at hc2
        rcases h.mapKV (hf i hfk) with ⟨h1, _⟩ | ⟨kd, vd, _, _, h1, _, _, h4⟩
        · rw [h1] at hc2; cases hc2
        · rw [h1] at hc2
          simp only [Bool.and_eq_true] at hc2
          exact ⟨vd, h4.inside, ((confMap_iff kvs).1 hc2.2 (k, v) (KMap.mem_of_get? hv)).2⟩
      | _ => rw [hfk] at hc2; simp at hc2
    intro hi hi'
    refine .map (fun k => by rw [get?_renMap, get?_renMap]; simp [hk k]) ?_
    intro k v w hv hw
    rw [get?_renMap] at hv hw
    cases hv0 : KMap.get? kvs k with
    | none => rw [hv0] at hv; cases hv
    | some v0 =>
      cases hw0 : KMap.get? kws k with
      | none => rw [hw0] at hw; cases hw
      | some w0 =>
        rw [hv0] at hv; rw [hw0] at hw
        cases hv; cases hw
        exact ih k v0 w0 hv0 hw0 (key kvs hi k v0 hv0) (key kws hi' k w0 hw0)
  | msg hh _ ih =>
    rename_i d fs gs _
    rintro ⟨f, hf, hc⟩ ⟨f', hf', hc'⟩
    obtain ⟨_, hk1, hc⟩ := confMsg_of_confVal hc
    obtain ⟨_, _, hc'⟩ := confMsg_of_confVal hc'
    have hd := hf d hk1
    obtain ⟨md, hC⟩ := confMsg_iff.1 hc
    obtain ⟨md', hC'⟩ := confMsg_iff.1 hc'
    have known : ∀ g, Known T (ρ d) g → ∃ f, S.field? d f.number = some f ∧ FSim ρ I f g := by
      intro g hg
      rcases hg with hg | hg
      · rcases h.field hd g.number with ⟨_, h2⟩ | ⟨f, g', h1, h2, h3⟩
        · rw [h2] at hg; cases hg
        · rw [h2] at hg; cases hg
          refine ⟨f, ?_, h3⟩
          rw [← h3.number]; exact h1
      · rw [(h.ext hd g.number).2] at hg; cases hg
    have inside : ∀ fs (md : MsgDesc), Conf S ⟨d, fs⟩ md → ∀ f, S.field? d f.number = some f →
        (∀ i, f.kind = .message i → I i) → ∀ v, FieldSet.getValue fs f.number = some v → Inside S I v := by
      intro fs md hC f hfd hin v hv
      refine ⟨f, hin, ?_⟩
      have hmem := (getValue_iff hC.sorted).1 hv
      have := hC.slots _ hmem
      simp only [confSlot, hfd] at this
      exact this
    refine .msg ?_ ?_
    · intro g hg
      obtain ⟨f, hfd, hs⟩ := known g hg
      rw [has_ren h hs, has_ren h hs]
      exact hh f (.inl hfd)
    · intro g v w hg hhas hv hw
      obtain ⟨f, hfd, hs⟩ := known g hg
      rw [has_ren h hs] at hhas
      obtain ⟨v0, hv0⟩ := getValue_of_has hhas
      have hhas' := hhas
      rw [hh f (.inl hfd)] at hhas'
      obtain ⟨w0, hw0⟩ := getValue_of_has hhas'
      unfold FieldSet.get at hv hw
      rw [getValue_ren, hs.number, hv0] at hv
      rw [getValue_ren, hs.number, hw0] at hw
      cases hv; cases hw
      exact ih f v0 w0 (.inl hfd) hhas (by unfold FieldSet.get; rw [hv0]) (by unfold FieldSet.get; rw [hw0])
        (inside fs md hC f hfd hs.inside v0 hv0) (inside gs md' hC' f hfd hs.inside w0 hw0)

  | pay hp => exact hp.elim

end

theorem Alike.trans {S : Schema} {a b : Value} (h : Alike S a b) : ∀ {c : Value}, Alike S b c → Alike S a c := by
  induction h with
  | refl v => intro c h; exact h
  | nan32 ha hb =>
    intro c h
    cases h with
    | refl _ => exact .nan32 ha hb
    | nan32 _ hc => exact .nan32 ha hc
  | nan64 ha hb =>
    intro c h
    cases h with
    | refl _ => exact .nan64 ha hb
    | nan64 _ hc => exact .nan64 ha hc
  | list hl hv ih =>
    rename_i vs ws
    intro c h
    cases h with
    | refl _ => exact .list hl hv
    | list hl' hv' =>
      rename_i us
      refine .list (hl.trans hl') ?_
      intro i v u h1 h3
      cases h2 : ws[i]? with
      | none =>
        have := List.getElem?_eq_none_iff.1 h2
        obtain ⟨h4, _⟩ := List.getElem?_eq_some_iff.1 h1
        omega
      | some w => exact ih i v w h1 h2 (hv' i w u h2 h3)
  | map hk hv ih =>
    rename_i kvs kws
    intro c h
    cases h with
    | refl _ => exact .map hk hv
    | map hk' hv' =>
      refine .map (fun k => (hk k).trans (hk' k)) ?_
      intro k v u h1 h3
      cases h2 : KMap.get? kws k with
      | none => have := hk k; rw [h1, h2] at this; cases this
      | some w => exact ih k v w h1 h2 (hv' k w u h2 h3)
  | msg hh hv ih =>
    rename_i d fs gs
    intro c h
    cases h with
    | refl _ => exact .msg hh hv
    | pay hp => exact hp.elim
    | msg hh' hv' =>
      refine .msg (fun f hf => (hh f hf).trans (hh' f hf)) ?_
      intro f v u hf hhas h1 h3
      have hhas' := hhas
      rw [hh f hf] at hhas'
      obtain ⟨w, hw⟩ := getValue_of_has hhas'
      have h2 : FieldSet.get S gs f = some w := by unfold FieldSet.get; rw [hw]
      exact ih f v w hf hhas h1 h2 (hv' f w u hf hhas' h2 h3)
  | pay hp => exact hp.elim

/-- Map values have presence: messages. -/
def MapsPresent (S : Schema) : Prop :=
  ∀ {i : Nat} {kd vd : FieldDesc}, S.isMapEntry i = true → S.mapKV i = some (kd, vd) → vd.presence = true

mutual
theorem alikeV_canon {S : Schema} (hS : S.wf = true) (hP : MapsPresent S) : (v : Value) → (f : FieldDesc) →
    confVal S f v = true → Alike S v (canonVal S f v)
  | .msg d fs, f, h => by
    obtain ⟨_, _, hc⟩ := confMsg_of_confVal h
    obtain ⟨md, hC⟩ := confMsg_iff.1 hc
    have hc' := hc
    simp only [confMsg, Bool.and_eq_true] at hc'
    have ih := alikeSlots_canon hS hP fs d hc'.2
    simp only [canonVal]
    refine .msg (fun f hk => (has_canon hS hC hk).symm) ?_
    intro g v w hk hh hv hw
    have hval : FieldSet.getValue fs g.number = some v := by
      unfold FieldSet.has at hh
      unfold FieldSet.get at hv
      cases hg : FieldSet.getValue fs g.number with
      | none => rw [hg] at hh; cases hh
      | some x => rw [hg] at hv; exact hv
    have hhv : hasVal S g v = some true := by
      unfold FieldSet.has at hh; rw [hval] at hh; exact hh
    unfold FieldSet.get at hw
    rw [getValue_canon hS hC hk, hval] at hw
    simp only [hhv, if_true, Option.some.injEq] at hw
    subst hw
    have hmem := (getValue_iff hC.sorted).1 hval
    obtain ⟨_, hfd⟩ := (known_conf hS hC hk).2 v (SMap.get?_of_mem hC.sorted hmem)
    exact ih _ _ _ hmem hfd
  | .list vs, f, h => by
    simp only [confVal, Bool.and_eq_true] at h
    have ih := alikeVals_canon hS hP vs f.elem h.2
    simp only [canonVal]
    refine .list (canonVals_length vs).symm ?_
    intro i v w hv hw
    rw [get?_canonVals, hv] at hw
    simp only [Option.map_some, Option.some.injEq] at hw
    subst hw
    exact ih v (List.mem_of_getElem? hv)
  | .map kvs, f, h => by
    simp only [confVal, Bool.and_eq_true] at h
    obtain ⟨hmap, h⟩ := h
    simp only [canonVal]
    cases hk : f.kind with
    | message i =>
      rw [hk] at h
      simp only at h ⊢
      cases hkv : S.mapKV i with
      | none => simp [hkv] at h
      | some p =>
        obtain ⟨kd, vd⟩ := p
        rw [hkv] at h
        simp only [Bool.and_eq_true] at h
        simp only
        have ih := alikeMap_canon hS hP kvs kd vd h.2
        refine .map (fun k => by rw [get?_canonMap]; simp) ?_
        intro k v w hv hw
        rw [get?_canonMap, hv] at hw
        simp only [Option.map_some, Option.some.injEq] at hw
        subst hw
        have hh : hasVal S vd v = some true := by
          have hme : S.isMapEntry i = true := by
            unfold isMap at hmap; rw [hk] at hmap; simp only [Bool.and_eq_true] at hmap; exact hmap.2
          simp [hasVal, hP hme hkv]
        rw [if_pos hh]
        exact ih k v (KMap.mem_of_get? hv)
    | _ => simp [hk] at h
  | .bool _, _, _ => by simp only [canonVal]; exact .refl _
  | .i32 _, _, _ => by simp only [canonVal]; exact .refl _
  | .i64 _, _, _ => by simp only [canonVal]; exact .refl _
  | .u32 _, _, _ => by simp only [canonVal]; exact .refl _
  | .u64 _, _, _ => by simp only [canonVal]; exact .refl _
  | .f32 _, _, _ => by simp only [canonVal]; exact .refl _
  | .f64 _, _, _ => by simp only [canonVal]; exact .refl _
  | .str _, _, _ => by simp only [canonVal]; exact .refl _
  | .bytes _, _, _ => by simp only [canonVal]; exact .refl _
  | .enum _, _, _ => by simp only [canonVal]; exact .refl _
theorem alikeVals_canon {S : Schema} (hS : S.wf = true) (hP : MapsPresent S) : (vs : List Value) → (f : FieldDesc) →
    confVals S f vs = true → ∀ v ∈ vs, Alike S v (canonVal S f v)
  | [], _, _, _, h => by cases h
  | v :: r, f, h, w, hw => by
    simp only [confVals, Bool.and_eq_true] at h
    have h1 := alikeV_canon hS hP v f h.1
    rcases List.mem_cons.1 hw with he | he
    · rw [he]; exact h1
    · exact alikeVals_canon hS hP r f h.2 w he
theorem alikeMap_canon {S : Schema} (hS : S.wf = true) (hP : MapsPresent S) : (kvs : List (MapKey × Value)) →
    (kd vd : FieldDesc) → confMap S kd vd kvs = true →
    ∀ k v, (k, v) ∈ kvs → Alike S v (canonVal S vd v)
  | [], _, _, _, _, _, hm => by cases hm
  | (k', v') :: r, kd, vd, h, k, v, hm => by
    simp only [confMap, Bool.and_eq_true] at h
    have h1 := alikeV_canon hS hP v' vd h.1.2
    rcases List.mem_cons.1 hm with he | he
    · cases he; exact h1
    · exact alikeMap_canon hS hP r kd vd h.2 k v he
theorem alikeSlots_canon {S : Schema} (hS : S.wf = true) (hP : MapsPresent S) : (fs : List (Nat × Slot)) → (d : Nat) →
    confSlots S d fs = true → ∀ n v f, (n, Slot.val v) ∈ fs →
      (S.field? d n = some f ∨ (S.field? d n = none ∧ S.ext? d n = some f)) →
      Alike S v (canonVal S f v)
  | [], _, _ => by intro n v f h; cases h
  | (n', .taken) :: r, d, h => by
    simp only [confSlots] at h
    have ih := alikeSlots_canon hS hP r d h
    intro n v f hm hf
    rcases List.mem_cons.1 hm with he | he
    · cases he
    · exact ih n v f he hf
  | (n', .unknown u) :: r, d, h => by
    simp only [confSlots, Bool.and_eq_true] at h
    have ih := alikeSlots_canon hS hP r d h.2
    intro n v f hm hf
    rcases List.mem_cons.1 hm with he | he
    · cases he
    · exact ih n v f he hf
  | (n', .val v') :: r, d, h => by
    simp only [confSlots, Bool.and_eq_true] at h
    have ih := alikeSlots_canon hS hP r d h.2
    have hv := alikeV_canon hS hP v'
    have h1 := h.1
    intro n v f hm hf
    rcases List.mem_cons.1 hm with he | he
    · cases he
      rcases hf with hf | ⟨hf, hfe⟩
      · rw [hf] at h1; exact hv f h1
      · rw [hf, hfe] at h1; exact hv f h1
    · exact ih n v f he hf
end


/-- A message and its canonical form are alike. -/
theorem alikeMsg_canon {S : Schema} (hS : S.wf = true) (hP : MapsPresent S) {m : DynMsg} (h : confMsg S m = true) :
    AlikeMsg S m (canonMsg S m) := by
  obtain ⟨d, fs⟩ := m
  let f : FieldDesc := {
    number := 1, name := [], jsonName := [], kind := (.message d)
    card := .optional, group := false, presence := true, packed := false, default := none,
    oneof := none }
  have : confVal S f (.msg d fs) = true := by
    simp only [confMsg] at h
    simp only [confVal, f, h, Bool.and_true]
    simp
  have := alikeV_canon hS hP (.msg d fs) f this
  simpa only [AlikeMsg, DynMsg.toValue, canonMsg, canonVal] using this

end Verif.Dyn
