import Verif.Dyn.Twins
import Verif.Dyn.Reenc
/-!
Two versions of a schema: what an old program that does not know all fields makes of a message of
the new one.
-/
set_option autoImplicit false
namespace Verif.Dyn
open Verif.Wire

/-- Neither a message nor an enum. -/
def Kind.basic : Kind → Bool
  | .message _ | .enum _ => false
  | _ => true

/-- The kind of a field in the old and in the new schema. Message types correspond by `ρ`; an enum
may have got more values, but starts with the same number. -/
inductive KindKept (S0 S : Schema) (ρ : Nat → Nat → Prop) : Kind → Kind → Prop
  | msg {i0 i : Nat} (h : ρ i0 i) : KindKept S0 S ρ (.message i0) (.message i)
  | enum {e0 e : Nat} (h : S0.enumDefault e0 = S.enumDefault e) : KindKept S0 S ρ (.enum e0) (.enum e)
  | same {k : Kind} (h : k.basic = true) : KindKept S0 S ρ k k

/-- A field that both versions declare. Its names may differ. -/
structure FieldKept (S0 S : Schema) (ρ : Nat → Nat → Prop) (f0 f : FieldDesc) : Prop where
  number : f0.number = f.number
  kind : KindKept S0 S ρ f0.kind f.kind
  card : f0.card = f.card
  group : f0.group = f.group
  presence : f0.presence = f.presence
  packed : f0.packed = f.packed
  default : f0.default = f.default

/-- A message type in the old and in the new version: the new one has the fields and extensions of
the old one, and fields that shared a oneof still do. -/
structure TypeKept (S0 S : Schema) (ρ : Nat → Nat → Prop) (md0 md : MsgDesc) : Prop where
  entry : md0.mapEntry = md.mapEntry
  fields : ∀ n f0, md0.getField n = some f0 → ∃ f, md.getField n = some f ∧ FieldKept S0 S ρ f0 f
  exts : ∀ n f0, md0.getExtension n = some f0 → ∃ f, md.getExtension n = some f ∧ FieldKept S0 S ρ f0 f
  oneofs : ∀ n k f0 g0 o, md0.getField n = some f0 → md0.getField k = some g0 → f0.oneof = some o →
    g0.oneof = some o → ∃ f g o', md.getField n = some f ∧ md.getField k = some g ∧ f.oneof = some o' ∧
      g.oneof = some o'

/-- `S` is a later version of `S0`; `ρ` says which message types correspond. -/
def Evolves (S0 S : Schema) (ρ : Nat → Nat → Prop) : Prop :=
  ∀ i0 i, ρ i0 i → ∃ md0 md, S0.msg? i0 = some md0 ∧ S.msg? i = some md ∧ TypeKept S0 S ρ md0 md

/-- Not a message, list or map. -/
def Value.flat : Value → Bool
  | .msg .. | .list _ | .map _ => false
  | _ => true

/-- What the old program sees of a value of the new one: the same scalars, lists in the same order,
maps with the same keys (a value may be replaced by one that is `==`), and messages of the
corresponding type whose fields known to the old version are present or absent as in the new one,
with values that correspond in turn. -/
inductive SeenV (S0 S : Schema) (ρ : Nat → Nat → Prop) : Value → Value → Prop
  | flat (v : Value) (h : v.flat = true) : SeenV S0 S ρ v v
  | list {vs0 vs : List Value} (hl : vs0.length = vs.length)
      (h : ∀ (i : Nat) v0 v, vs0[i]? = some v0 → vs[i]? = some v → SeenV S0 S ρ v0 v) :
      SeenV S0 S ρ (.list vs0) (.list vs)
  | map {kvs0 kvs : List (MapKey × Value)}
      (hk : ∀ k, (KMap.get? kvs0 k).isSome = (KMap.get? kvs k).isSome)
      (hv : ∀ k v0 v, KMap.get? kvs0 k = some v0 → KMap.get? kvs k = some v → v.beq v0 = false →
        SeenV S0 S ρ v0 v) : SeenV S0 S ρ (.map kvs0) (.map kvs)
  | msg {d0 d : Nat} {fs0 fs : List (Nat × Slot)} (hd : ρ d0 d)
      (hh : ∀ f0 f, Known S0 d0 f0 → Known S d f → f.number = f0.number →
        FieldSet.has S0 fs0 f0 = FieldSet.has S fs f)
      (hv : ∀ f0 f v0 v, Known S0 d0 f0 → Known S d f → f.number = f0.number →
        FieldSet.has S fs f = some true → FieldSet.get S0 fs0 f0 = some v0 → FieldSet.get S fs f = some v →
        SeenV S0 S ρ v0 v) : SeenV S0 S ρ (.msg d0 fs0) (.msg d fs)

section
variable {S0 S : Schema} {ρ : Nat → Nat → Prop}

theorem Evolves.field (hE : Evolves S0 S ρ) {i0 i : Nat} (h : ρ i0 i) {n : Nat} {f0 : FieldDesc}
    (hf : S0.field? i0 n = some f0) : ∃ f, S.field? i n = some f ∧ FieldKept S0 S ρ f0 f := by
  obtain ⟨md0, md, h1, h2, h3⟩ := hE i0 i h
  rw [field?_eq h1] at hf
  rw [field?_eq h2]
  exact h3.fields n f0 hf

theorem Evolves.ext (hE : Evolves S0 S ρ) {i0 i : Nat} (h : ρ i0 i) {n : Nat} {f0 : FieldDesc}
    (hf : S0.ext? i0 n = some f0) : ∃ f, S.ext? i n = some f ∧ FieldKept S0 S ρ f0 f := by
  obtain ⟨md0, md, h1, h2, h3⟩ := hE i0 i h
  rw [ext?_eq h1] at hf
  rw [ext?_eq h2]
  exact h3.exts n f0 hf

theorem Evolves.entry (hE : Evolves S0 S ρ) {i0 i : Nat} (h : ρ i0 i) : S0.isMapEntry i0 = S.isMapEntry i := by
  obtain ⟨md0, md, h1, h2, h3⟩ := hE i0 i h
  unfold Schema.isMapEntry
  rw [h1, h2]; exact h3.entry

theorem KindKept.isMessage {k0 k : Kind} (h : KindKept S0 S ρ k0 k) : k0.isMessage = k.isMessage := by
  cases h <;> rfl

theorem KindKept.packable {k0 k : Kind} (h : KindKept S0 S ρ k0 k) : k0.packable = k.packable := by
  cases h <;> rfl

theorem KindKept.wireType {k0 k : Kind} (h : KindKept S0 S ρ k0 k) : k0.wireType = k.wireType := by
  cases h <;> rfl

theorem KindKept.scalarEnc {k0 k : Kind} (h : KindKept S0 S ρ k0 k) (v : Value) :
    scalarEnc k0 v = scalarEnc k v := by
  cases h with
  | msg => cases v <;> rfl
  | enum => cases v <;> rfl
  | same => rfl

theorem KindKept.scalarLen {k0 k : Kind} (h : KindKept S0 S ρ k0 k) (v : Value) :
    scalarLen k0 v = scalarLen k v := by
  cases h with
  | msg => cases v <;> rfl
  | enum => cases v <;> rfl
  | same => rfl

theorem KindKept.packedEnc {k0 k : Kind} (h : KindKept S0 S ρ k0 k) (v : Value) :
    packedEnc k0 v = packedEnc k v := by
  cases h with
  | msg => cases v <;> rfl
  | enum => cases v <;> rfl
  | same => rfl

theorem KindKept.packedLen {k0 k : Kind} (h : KindKept S0 S ρ k0 k) (v : Value) :
    packedLen k0 v = packedLen k v := by
  cases h with
  | msg => cases v <;> rfl
  | enum => cases v <;> rfl
  | same => rfl

theorem KindKept.packedEncAll {k0 k : Kind} (h : KindKept S0 S ρ k0 k) :
    ∀ vs, packedEncAll k0 vs = packedEncAll k vs
  | [] => rfl
  | v :: r => by simp only [Dyn.packedEncAll, h.packedEnc, h.packedEncAll r]

theorem KindKept.packedLenAll {k0 k : Kind} (h : KindKept S0 S ρ k0 k) :
    ∀ vs, packedLenAll k0 vs = packedLenAll k vs
  | [] => rfl
  | v :: r => by simp only [Dyn.packedLenAll, h.packedLen, h.packedLenAll r]

theorem KindKept.scalarOk {k0 k : Kind} (h : KindKept S0 S ρ k0 k) (v : Value) :
    scalarOk k0 v = scalarOk k v := by
  cases h with
  | msg => rfl
  | enum => cases v <;> rfl
  | same => rfl

theorem KindKept.keyOk {k0 k : Kind} (h : KindKept S0 S ρ k0 k) (v : MapKey) : keyOk k0 v = keyOk k v := by
  cases h with
  | msg => cases v <;> rfl
  | enum => cases v <;> rfl
  | same => rfl

theorem KindKept.keyDefault {k0 k : Kind} (h : KindKept S0 S ρ k0 k) : MapKey.default k0 = MapKey.default k := by
  cases h <;> rfl

theorem KindKept.kindDefault {k0 k : Kind} (h : KindKept S0 S ρ k0 k) (hk : k.isMessage = false) :
    kindDefault S0 k0 = kindDefault S k := by
  cases h with
  | msg => cases hk
  | enum h => simp only [Dyn.kindDefault, h]
  | same hp => cases k0 <;> first | rfl | cases hp

theorem KindKept.message {k0 : Kind} {i : Nat} (h : KindKept S0 S ρ k0 (.message i)) :
    ∃ i0, k0 = .message i0 ∧ ρ i0 i := by
  cases h with
  | msg h => exact ⟨_, rfl, h⟩
  | same hp => cases hp

/-- The kind of a map field. -/
def Kind.entryIn (T : Schema) : Kind → Bool
  | .message i => T.isMapEntry i
  | _ => false

theorem isMap_entryIn (T : Schema) (f : FieldDesc) : isMap T f = (f.card == .repeated && f.kind.entryIn T) := by
  unfold isMap
  cases f.kind <;> rfl

theorem KindKept.entryIn (hE : Evolves S0 S ρ) {k0 k : Kind} (h : KindKept S0 S ρ k0 k) :
    k0.entryIn S0 = k.entryIn S := by
  cases h with
  | msg h => exact hE.entry h
  | enum => rfl
  | same hp => cases k0 <;> first | rfl | cases hp

variable {f0 f : FieldDesc}

theorem FieldKept.isMap (hE : Evolves S0 S ρ) (h : FieldKept S0 S ρ f0 f) : isMap S0 f0 = isMap S f := by
  rw [isMap_entryIn, isMap_entryIn, h.card, h.kind.entryIn hE]

theorem FieldKept.isList (hE : Evolves S0 S ρ) (h : FieldKept S0 S ρ f0 f) : isList S0 f0 = isList S f := by
  unfold Dyn.isList
  rw [h.card, h.isMap hE]

theorem FieldKept.elem (h : FieldKept S0 S ρ f0 f) : FieldKept S0 S ρ f0.elem f.elem :=
  ⟨h.number, h.kind, rfl, h.group, h.presence, h.packed, h.default⟩

theorem FieldKept.fieldDefault (hE : Evolves S0 S ρ) (h : FieldKept S0 S ρ f0 f)
    (hk : f.kind.isMessage = false ∨ f.card = .repeated) : fieldDefault S0 f0 = fieldDefault S f := by
  unfold Dyn.fieldDefault
  rw [h.isList hE, h.isMap hE, h.default]
  rcases hk with hk | hk
  · rw [h.kind.kindDefault hk]
  · have : Dyn.isList S f = true ∨ Dyn.isMap S f = true := by
      unfold Dyn.isList
      cases Dyn.isMap S f <;> simp [hk]
    rcases this with e | e
    · simp only [e, if_true]
    · have e' : Dyn.isList S f = false := by unfold Dyn.isList; rw [e]; simp
      simp only [e, e', if_true, Bool.false_eq_true, if_false]

theorem FieldKept.hasVal (hE : Evolves S0 S ρ) (h : FieldKept S0 S ρ f0 f)
    (hk : f.kind.isMessage = false ∨ f.card = .repeated) (v : Value) : hasVal S0 f0 v = hasVal S f v := by
  unfold Dyn.hasVal Dyn.isDefault
  rw [h.fieldDefault hE hk, h.presence]

theorem FieldKept.unless (hE : Evolves S0 S ρ) (h : FieldKept S0 S ρ f0 f)
    (hk : f.kind.isMessage = false ∨ f.card = .repeated) {α : Type} (v : Value) (z : α) (k : Option α) :
    unlessDefault S0 f0 v z k = unlessDefault S f v z k := by
  unfold unlessDefault Dyn.isDefault
  rw [h.fieldDefault hE hk, h.presence]

theorem FieldKept.encKey (h : FieldKept S0 S ρ f0 f) (k : MapKey) : encKey f0 k = encKey f k := by
  unfold Dyn.encKey
  rw [h.presence, h.number, h.kind.scalarEnc, h.kind.wireType, h.kind.keyDefault]

theorem FieldKept.lenKey (h : FieldKept S0 S ρ f0 f) (k : MapKey) : lenKey f0 k = lenKey f k := by
  unfold Dyn.lenKey
  rw [h.presence, h.number, h.kind.scalarLen, h.kind.keyDefault]

theorem FieldKept.packedList (h : FieldKept S0 S ρ f0 f) (vs : List Value) :
    encPackedList f0 vs = encPackedList f vs := by
  unfold encPackedList
  rw [h.kind.packable, h.kind.packedEncAll, h.kind.packedLenAll, h.number]

theorem Evolves.mapKV (hE : Evolves S0 S ρ) (hS0 : S0.wf = true) {i0 i : Nat} (h : ρ i0 i)
    (hi : S.isMapEntry i = true) {kd vd : FieldDesc} (hkv : S.mapKV i = some (kd, vd)) :
    ∃ kd0 vd0, EntryOk S0 i0 kd0 vd0 ∧ FieldKept S0 S ρ kd0 kd ∧ FieldKept S0 S ρ vd0 vd := by
  obtain ⟨kd0, vd0, hE0⟩ := Schema.wf_entry hS0 ((hE.entry h).trans hi)
  obtain ⟨h1, h2⟩ := mapKV_some hE0.kv
  obtain ⟨g1, g2⟩ := mapKV_some hkv
  obtain ⟨k, hk, hk'⟩ := hE.field h h1
  obtain ⟨v, hv, hv'⟩ := hE.field h h2
  rw [g1] at hk; rw [g2] at hv
  cases hk; cases hv
  exact ⟨kd0, vd0, hE0, hk', hv'⟩

/-! ### Pairs of fields -/

/-- Left and right halves of a list of pairs. -/
def lefts (l : List (Nat × UVal × UVal)) : USet := l.map (fun t => (t.1, t.2.1))
def rights (l : List (Nat × UVal × UVal)) : USet := l.map (fun t => (t.1, t.2.2))

/-- Two fields that neither version can tell apart. -/
structure Pair (S0 S : Schema) (d0 d k : Nat) (t : Nat × UVal × UVal) : Prop where
  num : ValidNumber t.1
  wf : t.2.1.Wf ∧ t.2.2.Wf
  depth : t.2.1.depth ≤ k ∧ t.2.2.depth ≤ k
  del : Delimited S d t.1 t.2.1 ∧ Delimited S d t.1 t.2.2
  del0 : Delimited S0 d0 t.1 t.2.1 ∧ Delimited S0 d0 t.1 t.2.2
  wire : t.2.2.wireType = t.2.1.wireType
  len : ∀ n, (uPayload n t.2.2).length = (uPayload n t.2.1).length
  step : ∀ D, k ≤ D → StepAlike S D d (t.1, t.2.1) (t.1, t.2.2)
  step0 : ∀ D, k ≤ D → StepAlike S0 D d0 (t.1, t.2.1) (t.1, t.2.2)

theorem Pair.mono {d0 d k k' : Nat} {t : Nat × UVal × UVal} (h : Pair S0 S d0 d k t) (hk : k ≤ k') :
    Pair S0 S d0 d k' t :=
  ⟨h.num, h.wf, ⟨Nat.le_trans h.depth.1 hk, Nat.le_trans h.depth.2 hk⟩, h.del, h.del0, h.wire, h.len,
    fun D hD => h.step D (Nat.le_trans hk hD), fun D hD => h.step0 D (Nat.le_trans hk hD)⟩

/-- What the slots of a message become in the old program: the same fields in another order. -/
structure KeptSlots (S0 S : Schema) (d0 d : Nat) (fs : List (Nat × Slot)) (x y : Bytes)
    (fs0 : List (Nat × Slot)) (us vs us0 vs0 : List (Nat × UVal × UVal)) : Prop where
  conf : confSlots S0 d0 fs0 = true
  enc : encSlots S0 d0 fs0 = some (encUSet (rights us0), encUSet (rights vs0))
  left : x = encUSet (lefts us) ∧ y = encUSet (lefts vs)
  perm : (us0 ++ vs0).Perm (us ++ vs)
  same : ∀ n, (us0 ++ vs0).filter (·.1 == n) = (us ++ vs).filter (·.1 == n)
  pair : ∀ t ∈ us ++ vs, Pair S0 S d0 d (depthSlots fs) t
  keys : ∀ t ∈ us ++ vs, t.1 ∈ fs.map (·.1)
  sub : (fs0.map (·.1)).Sublist (fs.map (·.1))
  depth : depthSlots fs0 ≤ depthSlots fs

/-- What a message becomes in the old program. -/
structure KeptMsg (S0 S : Schema) (d0 d : Nat) (fs : List (Nat × Slot)) (b : Bytes)
    (fs0 : List (Nat × Slot)) (x0 y0 : Bytes) (X Y : USet) : Prop where
  conf : confMsg S0 ⟨d0, fs0⟩ = true
  enc : encSlots S0 d0 fs0 = some (x0, y0)
  left : b = encUSet X
  right : x0 ++ y0 = encUSet Y
  okX : ∀ p ∈ X, ValidNumber p.1 ∧ p.2.Wf ∧ p.2.depth ≤ depthSlots fs
  okY : ∀ p ∈ Y, ValidNumber p.1 ∧ p.2.Wf ∧ p.2.depth ≤ depthSlots fs
  delX : DelimitedAll S d X ∧ DelimitedAll S0 d0 X
  delY : DelimitedAll S d Y ∧ DelimitedAll S0 d0 Y
  len : (encUSet Y).length = (encUSet X).length
  run : ∀ D, depthSlots fs ≤ D → RunAlike S D d X Y
  run0 : ∀ D, depthSlots fs ≤ D → RunAlike S0 D d0 X Y
  depth : depthSlots fs0 ≤ depthSlots fs

theorem enc_rights_len {d0 d k : Nat} : ∀ (l : List (Nat × UVal × UVal)), (∀ t ∈ l, Pair S0 S d0 d k t) →
    (encUSet (rights l)).length = (encUSet (lefts l)).length
  | [], _ => rfl
  | t :: r, h => by
    have h1 := h t List.mem_cons_self
    have h2 := enc_rights_len r (fun t ht => h t (List.mem_cons_of_mem _ ht))
    simp only [rights, lefts] at h2
    simp only [rights, lefts, List.map_cons, encUSet, encUVal_eq, List.length_append, h1.wire, h1.len, h2]

theorem encUSet_perm_len {x y : USet} (h : x.Perm y) : (encUSet x).length = (encUSet y).length := by
  induction h with
  | nil => rfl
  | cons p _ ih => obtain ⟨n, u⟩ := p; simp only [encUSet, List.length_append, ih]
  | swap p q l =>
    obtain ⟨n, u⟩ := p; obtain ⟨m, v⟩ := q
    simp only [encUSet, List.length_append]; omega
  | trans _ _ h1 h2 => exact h1.trans h2

theorem runAlike_of_steps {T : Schema} (hT : T.wf = true) {D i : Nat} : ∀ (l : List (Nat × UVal × UVal)),
    (∀ t ∈ l, ValidNumber t.1 ∧ StepAlike T D i (t.1, t.2.1) (t.1, t.2.2)) →
    RunAlike T D i (lefts l) (rights l)
  | [], _ => fun _ _ _ _ => Iff.rfl
  | t :: r, h => RunAlike.cons hT (h t List.mem_cons_self).1 (h t List.mem_cons_self).2
      (runAlike_of_steps hT r (fun t ht => h t (List.mem_cons_of_mem _ ht)))

theorem runAlike_of_filter {T : Schema} (hT : T.wf = true) {D i : Nat} {x y : USet}
    (h : ∀ n, y.filter (·.1 == n) = x.filter (·.1 == n))
    (ha : ∀ p ∈ x, ∀ q ∈ x, p.1 ≠ q.1 → Apart T i p.1 q.1)
    (hx : ∀ p ∈ x, ValidNumber p.1 ∧ p.2.Wf ∧ p.2.depth ≤ D) : RunAlike T D i x y := by
  have hsub : ∀ p, p ∈ y → p ∈ x := by
    intro p hp
    have : p ∈ y.filter (·.1 == p.1) := by simp [hp]
    rw [h p.1] at this
    exact (List.mem_filter.1 this).1
  intro m hm hi m'
  constructor
  · exact run_shuffled hT (shuffled_of_filter x y h ha) hm hi hx
  · exact run_shuffled hT (shuffled_of_filter y x (fun n => (h n).symm)
      (fun p hp q hq => ha p (hsub p hp) q (hsub q hq))) hm hi (fun p hp => hx p (hsub p hp))

theorem sortedFrom_sublist {α : Type} : ∀ {fs fs0 : SMap α} {lo : Nat}, SMap.sortedFrom lo fs = true →
    (fs0.map (·.1)).Sublist (fs.map (·.1)) → SMap.sortedFrom lo fs0 = true
  | [], fs0, lo, _, h => by
    have : fs0 = [] := by simpa using h
    subst this; rfl
  | (k, v) :: r, [], lo, _, _ => rfl
  | (k, v) :: r, (k0, v0) :: r0, lo, hs, h => by
    simp only [SMap.sortedFrom, Bool.and_eq_true, decide_eq_true_eq] at hs
    simp only [List.map_cons] at h
    cases h with
    | cons _ h =>
      exact SMap.sortedFrom_mono (Nat.le_of_lt hs.1) (sortedFrom_sublist (fs0 := (k0, v0) :: r0) hs.2 h)
    | cons_cons _ h =>
      simp only [SMap.sortedFrom, Bool.and_eq_true, decide_eq_true_eq]
      exact ⟨hs.1, sortedFrom_sublist hs.2 h⟩

theorem key_get? {α : Type} {fs : SMap α} (hs : SMap.sorted fs = true) {n : Nat} :
    n ∈ fs.map (·.1) ↔ ∃ s, SMap.get? fs n = some s := by
  constructor
  · intro h
    obtain ⟨p, hp, rfl⟩ := List.mem_map.1 h
    exact ⟨p.2, SMap.get?_of_mem hs hp⟩
  · rintro ⟨s, h⟩
    exact List.mem_map.2 ⟨_, SMap.mem_of_get? h, rfl⟩

/-- Two members of one oneof of the new version are not both stored. -/
theorem one_stored (hS : S.wf = true) {d : Nat} {md : MsgDesc} (hmd : S.msg? d = some md) {fs : FieldSet}
    (hs : SMap.sorted fs = true) (ho : OneofInv md fs) {n k : Nat} (hn : n ∈ fs.map (·.1)) (hk : k ∈ fs.map (·.1))
    {f g : FieldDesc} {o : Nat} (hf : md.getField n = some f) (hg : md.getField k = some g)
    (hfo : f.oneof = some o) (hgo : g.oneof = some o) : n = k := by
  obtain ⟨s, h1⟩ := (key_get? hs).1 hn
  obtain ⟨s', h2⟩ := (key_get? hs).1 hk
  refine Decidable.byContradiction fun hne => ?_
  have hmem : k ∈ siblings md f := mem_siblings.2 ⟨o, hfo, g, (getField_mem hg).1, hgo, by
    rw [(getField_mem hg).2, (getField_mem hf).2]; exact Ne.symm hne, (getField_mem hg).2⟩
  rw [ho n f s h1 hf k hmem] at h2
  cases h2

theorem apart_stored {T : Schema} (hT : T.wf = true) {d : Nat} {md : MsgDesc} (hmd : T.msg? d = some md)
    {ks : List Nat} (h : ∀ n ∈ ks, ∀ k ∈ ks, ∀ f g o, md.getField n = some f → md.getField k = some g →
      f.oneof = some o → g.oneof = some o → n = k) {n k : Nat} (hn : n ∈ ks) (hk : k ∈ ks) (hne : n ≠ k) :
    Apart T d n k := by
  have key : ∀ n ∈ ks, ∀ k ∈ ks, n ≠ k → n ∉ pushed T d k := by
    intro n hn k hk hne hmem
    unfold pushed at hmem
    rw [hmd] at hmem
    simp only at hmem
    cases hf : md.getField k with
    | none => rw [hf] at hmem; cases hmem
    | some f =>
      rw [hf] at hmem
      obtain ⟨o, ho, g, hg, hgo, -, hgn⟩ := mem_siblings.1 hmem
      have hg' := getField_of_mem (Schema.wf_msg hT hmd).nodup hg
      rw [hgn] at hg'
      exact hne (h n hn k hk g f o hg' hf hgo ho)
  exact ⟨hne, key n hn k hk hne, key k hk n hn (Ne.symm hne)⟩

theorem lefts_append (a b : List (Nat × UVal × UVal)) : lefts (a ++ b) = lefts a ++ lefts b := by
  simp [lefts]
theorem rights_append (a b : List (Nat × UVal × UVal)) : rights (a ++ b) = rights a ++ rights b := by
  simp [rights]
theorem rights_filter (l : List (Nat × UVal × UVal)) (n : Nat) :
    (rights l).filter (·.1 == n) = rights (l.filter (·.1 == n)) := by
  simp only [rights, List.filter_map]; rfl

theorem KeptSlots.msg (hS0 : S0.wf = true) (hS : S.wf = true) (hE : Evolves S0 S ρ) {d0 d : Nat} (hd : ρ d0 d)
    {fs : List (Nat × Slot)} {x y : Bytes} (hc : confMsg S ⟨d, fs⟩ = true) {fs0 : List (Nat × Slot)}
    {us vs us0 vs0 : List (Nat × UVal × UVal)} (h : KeptSlots S0 S d0 d fs x y fs0 us vs us0 vs0) :
    KeptMsg S0 S d0 d fs (x ++ y) fs0 (encUSet (rights us0)) (encUSet (rights vs0)) (lefts (us ++ vs))
      (rights (us0 ++ vs0)) := by
  obtain ⟨md, hC⟩ := confMsg_iff.1 hc
  obtain ⟨md0, md', hmd0, hmd, hT⟩ := hE d0 d hd
  rw [hC.desc] at hmd
  cases hmd
  have hs : SMap.sorted fs = true := hC.sorted
  have hs0 : SMap.sorted fs0 = true := sortedFrom_sublist hs h.sub
  have one : ∀ n ∈ fs.map (·.1), ∀ k ∈ fs.map (·.1), ∀ f g o, md.getField n = some f → md.getField k = some g →
      f.oneof = some o → g.oneof = some o → n = k :=
    fun n hn k hk f g o h1 h2 h3 h4 => one_stored hS hC.desc hs hC.oneof hn hk h1 h2 h3 h4
  have one0 : ∀ n ∈ fs.map (·.1), ∀ k ∈ fs.map (·.1), ∀ f g o, md0.getField n = some f → md0.getField k = some g →
      f.oneof = some o → g.oneof = some o → n = k := by
    intro n hn k hk f g o h1 h2 h3 h4
    obtain ⟨f', g', o', e1, e2, e3, e4⟩ := hT.oneofs n k f g o h1 h2 h3 h4
    exact one n hn k hk f' g' o' e1 e2 e3 e4
  have ok1 : ∀ p ∈ lefts (us ++ vs), ValidNumber p.1 ∧ p.2.Wf ∧ p.2.depth ≤ depthSlots fs := by
    intro p hp
    obtain ⟨t, ht, rfl⟩ := List.mem_map.1 hp
    have := h.pair t ht
    exact ⟨this.num, this.wf.1, this.depth.1⟩
  have ok2 : ∀ p ∈ rights (us ++ vs), ValidNumber p.1 ∧ p.2.Wf ∧ p.2.depth ≤ depthSlots fs := by
    intro p hp
    obtain ⟨t, ht, rfl⟩ := List.mem_map.1 hp
    have := h.pair t ht
    exact ⟨this.num, this.wf.2, this.depth.2⟩
  have hperm : (rights (us0 ++ vs0)).Perm (rights (us ++ vs)) := h.perm.map _
  have hfil : ∀ n, (rights (us0 ++ vs0)).filter (·.1 == n) = (rights (us ++ vs)).filter (·.1 == n) := by
    intro n; rw [rights_filter, rights_filter, h.same]
  have hkey : ∀ p ∈ rights (us ++ vs), p.1 ∈ fs.map (·.1) := by
    intro p hp
    obtain ⟨t, ht, rfl⟩ := List.mem_map.1 hp
    exact h.keys t ht
  have run : ∀ D, depthSlots fs ≤ D → RunAlike S D d (lefts (us ++ vs)) (rights (us0 ++ vs0)) := by
    intro D hD
    refine (runAlike_of_steps hS _ (fun t ht => ⟨(h.pair t ht).num, (h.pair t ht).step D hD⟩)).trans ?_
    exact runAlike_of_filter hS hfil
      (fun p hp q hq hne => apart_stored hS hC.desc one (hkey p hp) (hkey q hq) hne)
      (fun p hp => ⟨(ok2 p hp).1, (ok2 p hp).2.1, Nat.le_trans (ok2 p hp).2.2 hD⟩)
  have run0 : ∀ D, depthSlots fs ≤ D → RunAlike S0 D d0 (lefts (us ++ vs)) (rights (us0 ++ vs0)) := by
    intro D hD
    refine (runAlike_of_steps hS0 _ (fun t ht => ⟨(h.pair t ht).num, (h.pair t ht).step0 D hD⟩)).trans ?_
    exact runAlike_of_filter hS0 hfil
      (fun p hp q hq hne => apart_stored hS0 hmd0 one0 (hkey p hp) (hkey q hq) hne)
      (fun p hp => ⟨(ok2 p hp).1, (ok2 p hp).2.1, Nat.le_trans (ok2 p hp).2.2 hD⟩)
  refine ⟨?_, h.enc, by rw [h.left.1, h.left.2, ← encUSet_append, lefts_append],
    by rw [rights_append, encUSet_append], ok1, fun p hp => ok2 p (hperm.mem_iff.1 hp), ?_, ?_, ?_, run, run0, h.depth⟩
  · refine confMsg_iff.2 ⟨md0, hs0, hmd0, ?_, (confSlots_iff _).1 h.conf⟩
    intro n g s hn hg m hm
    cases hget : SMap.get? fs0 m with
    | none => rfl
    | some s' =>
      obtain ⟨o, ho, g', hg', hgo, hne, hgn⟩ := mem_siblings.1 hm
      have hg2 := getField_of_mem (Schema.wf_msg hS0 hmd0).nodup hg'
      rw [hgn] at hg2
      have k1 := h.sub.subset ((key_get? hs0).2 ⟨s, hn⟩)
      have k2 := h.sub.subset ((key_get? hs0).2 ⟨s', hget⟩)
      have := one0 n k1 m k2 g g' o hg hg2 ho hgo
      exact absurd (hgn.trans (this.symm.trans (getField_mem hg).2.symm)) hne
  · constructor <;> refine (delimitedAll_iff _).2 (fun p hp => ?_) <;> obtain ⟨t, ht, rfl⟩ := List.mem_map.1 hp
    · exact (h.pair t ht).del.1
    · exact (h.pair t ht).del0.1
  · constructor <;> refine (delimitedAll_iff _).2 (fun p hp => ?_) <;>
      obtain ⟨t, ht, rfl⟩ := List.mem_map.1 (hperm.mem_iff.1 hp)
    · exact (h.pair t ht).del.2
    · exact (h.pair t ht).del0.2
  · rw [encUSet_perm_len hperm, enc_rights_len _ h.pair]

/-! ### Keeping values -/

def lft (n : Nat) (us : List (UVal × UVal)) : USet := us.map (fun p => (n, p.1))
def rgt (n : Nat) (us : List (UVal × UVal)) : USet := us.map (fun p => (n, p.2))

/-- Twins in both versions. -/
def Twins (S0 S : Schema) (f0 f : FieldDesc) (k : Nat) (us : List (UVal × UVal)) : Prop :=
  ∀ p ∈ us, Twin S f k p.1 p.2 ∧ Twin S0 f0 k p.1 p.2

theorem Twins.nil {k : Nat} : Twins S0 S f0 f k [] := nofun

theorem Twins.append {k : Nat} {a b : List (UVal × UVal)} (ha : Twins S0 S f0 f k a) (hb : Twins S0 S f0 f k b) :
    Twins S0 S f0 f k (a ++ b) := by
  intro p hp
  rcases List.mem_append.1 hp with h | h
  · exact ha p h
  · exact hb p h

theorem Twins.mono {k k' : Nat} {a : List (UVal × UVal)} (ha : Twins S0 S f0 f k a) (hk : k ≤ k') :
    Twins S0 S f0 f k' a := fun p hp => ⟨(ha p hp).1.mono hk, (ha p hp).2.mono hk⟩

theorem Twins.one {k : Nat} {u v : UVal} (h : Twin S f k u v) (h0 : Twin S0 f0 k u v) :
    Twins S0 S f0 f k [(u, v)] := by
  intro p hp
  rw [List.mem_singleton.1 hp]; exact ⟨h, h0⟩

theorem Twins.len {k n : Nat} : ∀ {us : List (UVal × UVal)}, Twins S0 S f0 f k us →
    (encUSet (rgt n us)).length = (encUSet (lft n us)).length
  | [], _ => rfl
  | p :: r, h => by
    have h1 := (h p List.mem_cons_self).1
    have h2 := Twins.len (n := n) (us := r) (fun t ht => h t (List.mem_cons_of_mem _ ht))
    simp only [lft, rgt] at h2
    simp only [lft, rgt, List.map_cons, encUSet, encUVal_eq, List.length_append, h1.wire, h1.len, h2]

theorem lft_append (n : Nat) (a b : List (UVal × UVal)) : lft n (a ++ b) = lft n a ++ lft n b := by simp [lft]
theorem rgt_append (n : Nat) (a b : List (UVal × UVal)) : rgt n (a ++ b) = rgt n a ++ rgt n b := by simp [rgt]

theorem enc_one (n : Nat) (u : UVal) : encUSet [(n, u)] = encodeKey n u.wireType ++ uPayload n u := by
  simp [encUSet, encUVal_eq]

/-- What a value becomes in the old program. -/
structure KeptVal (S0 S : Schema) (f0 f f0' : FieldDesc) (v : Value) (b : Bytes) (v0 : Value)
    (us : List (UVal × UVal)) : Prop where
  conf : confVal S0 f0' v0 = true
  enc : encVal S0 f0 v0 = some (encUSet (rgt f.number us))
  left : b = encUSet (lft f.number us)
  twins : Twins S0 S f0 f (depthVal v) us
  one : f0'.card ≠ .repeated → us.length ≤ 1
  depth : depthVal v0 ≤ depthVal v
  has : hasVal S0 f0 v0 = hasVal S f v

theorem notMap_of_plain {T : Schema} {g : FieldDesc} (h : g.kind.isMessage = false) : isMap T g = false := by
  rw [isMap_entryIn]
  cases hk : g.kind <;> rw [hk] at h <;> first | cases h; done | simp [Kind.entryIn]

theorem heldScalar (hE : Evolves S0 S ρ) {f' f0' : FieldDesc} (hk : FieldKept S0 S ρ f0 f)
    (hf' : f'.kind = f.kind) (hf0' : f0'.kind = f0.kind) (hcard : f0'.card = f'.card) {v : Value} {b : Bytes}
    (he : ∀ (T : Schema) (g : FieldDesc), encVal T g v = unlessDefault T g v []
      ((scalarEnc g.kind v).map (encodeKey g.number g.kind.wireType ++ ·)))
    (hcv : ∀ (T : Schema) (g : FieldDesc), confVal T g v = (g.card != .repeated && scalarOk g.kind v))
    (hd : depthVal v = 0) (hfl : v.flat = true) (hcan : ∀ (T : Schema) (g : FieldDesc), canonVal T g v = v)
    (hc : confVal S f' v = true) (h : encVal S f v = some b) (hl : b.length < 2 ^ 64) :
    ∃ us, KeptVal S0 S f0 f f0' v b v us ∧ SeenV S0 S ρ (canonVal S0 f0' v) v := by
  have hc' := hc
  rw [hcv, Bool.and_eq_true] at hc
  have hm : f.kind.isMessage = false := by
    rw [hf'] at hc
    cases hkk : f.kind <;> first | rfl | (rw [hkk] at hc; exact absurd hc.2 (by simp [scalarOk]))
  have hm0 : f0.kind.isMessage = false := hk.kind.isMessage.trans hm
  have he0 : encVal S0 f0 v = some b := by
    rw [he, hk.unless hE (.inl hm), hk.kind.scalarEnc, hk.kind.wireType, hk.number, ← he]; exact h
  have hconf : confVal S0 f0' v = true := by
    rw [hcv, hcard, hf0', hk.kind.scalarOk, ← hf', ← hcv S]; exact hc'
  rw [he] at h
  rcases unlessDefault_cases h with ⟨hv, h⟩ | ⟨hv, rfl⟩
  · obtain ⟨p, hp, rfl⟩ := Option.map_eq_some_iff.1 h
    simp only [List.length_append] at hl
    obtain ⟨u, hu, hpay, hw, hdu, hg⟩ := scalar_payload hp (by omega)
    have fine : ∀ {T : Schema} {g : FieldDesc}, isMap T g = false → Fine T g u := fun hm =>
      ⟨fun e => (Bool.false_ne_true (hm.symm.trans e)).elim, fun us j e => absurd e (hg us)⟩
    have eb : encodeKey f.number f.kind.wireType ++ p = encUSet [(f.number, u)] := by rw [enc_one, hu, hpay]
    refine ⟨[(u, u)], ⟨hconf, by rw [he0, eb]; rfl, by rw [eb]; rfl,
      .one (Twin.refl hw (by omega) (fine (notMap_of_plain hm))) (Twin.refl hw (by omega) (fine (notMap_of_plain hm0))),
      fun _ => Nat.le_refl _, Nat.le_refl _, hk.hasVal hE (.inl hm) v⟩, by rw [hcan]; exact .flat v hfl⟩
  · exact ⟨[], ⟨hconf, he0, rfl, .nil, fun _ => Nat.zero_le _, Nat.le_refl _, hk.hasVal hE (.inl hm) v⟩,
      by rw [hcan]; exact .flat v hfl⟩

theorem has_msg {T : Schema} {g : FieldDesc} (hg : FieldWf T g) {d e : Nat} (hk : g.kind = .message d)
    {fs : List (Nat × Slot)} : hasVal T g (.msg e fs) = some true := by
  have h := unless_msg (α := Bool) hg (e := e) hk (fs := fs) (z := false) (k := some true)
  rcases unlessDefault_cases h with ⟨h, -⟩ | ⟨-, h⟩
  · exact h
  · cases h

theorem distinct_keys {α β : Type} : ∀ {a : List (MapKey × α)} {b : List (MapKey × β)},
    b.map (·.1) = a.map (·.1) → KMap.distinct a = true → KMap.distinct b = true := by
  have get : ∀ {a : List (MapKey × α)} {b : List (MapKey × β)}, b.map (·.1) = a.map (·.1) → ∀ k,
      (KMap.get? b k).isNone = (KMap.get? a k).isNone := by
    intro a
    induction a with
    | nil => intro b h k; cases b with
      | nil => rfl
      | cons => cases h
    | cons p r ih =>
      intro b h k
      cases b with
      | nil => cases h
      | cons q s =>
        obtain ⟨k1, v1⟩ := p; obtain ⟨k2, v2⟩ := q
        simp only [List.map_cons, List.cons.injEq] at h
        obtain ⟨rfl, h⟩ := h
        simp only [KMap.get?]
        split
        · rfl
        · exact ih h k
  intro a
  induction a with
  | nil => intro b h _; cases b with
    | nil => rfl
    | cons => cases h
  | cons p r ih =>
    intro b h hd
    cases b with
    | nil => cases h
    | cons q s =>
      obtain ⟨k1, v1⟩ := p; obtain ⟨k2, v2⟩ := q
      simp only [List.map_cons, List.cons.injEq] at h
      obtain ⟨rfl, h⟩ := h
      simp only [KMap.distinct, Bool.and_eq_true] at hd ⊢
      exact ⟨(get h _).trans hd.1, ih h hd.2⟩

theorem filter_ins {n : Nat} {w a1 a2 : List (Nat × UVal × UVal)} (hw : ∀ t ∈ w, t.1 = n)
    (ha : ∀ t ∈ a1 ++ a2, t.1 ≠ n) (k : Nat) :
    (a1 ++ (w ++ a2)).filter (·.1 == k) = if k = n then w else (a1 ++ a2).filter (·.1 == k) := by
  split
  · next e =>
    subst e
    have h1 : a1.filter (·.1 == k) = [] := List.filter_eq_nil_iff.2 (fun t ht => by
      simpa using ha t (List.mem_append_left _ ht))
    have h2 : a2.filter (·.1 == k) = [] := List.filter_eq_nil_iff.2 (fun t ht => by
      simpa using ha t (List.mem_append_right _ ht))
    have h3 : w.filter (·.1 == k) = w := List.filter_eq_self.2 (fun t ht => by simpa using hw t ht)
    simp only [List.filter_append, h1, h2, h3, List.nil_append, List.append_nil]
  · next e =>
    have h3 : w.filter (·.1 == k) = [] := List.filter_eq_nil_iff.2 (fun t ht => by
      simpa [hw t ht] using fun h => e h.symm)
    simp only [List.filter_append, h3, List.nil_append]

theorem depthSlots_tail (p : Nat × Slot) (r : List (Nat × Slot)) : depthSlots r ≤ depthSlots (p :: r) := by
  obtain ⟨n, s⟩ := p
  cases s <;> simp only [depthSlots] <;> omega

/-- A slot that leaves nothing behind. -/
theorem KeptSlots.drop {d0 d : Nat} {p : Nat × Slot} {r : List (Nat × Slot)} {x y : Bytes}
    {r0 : List (Nat × Slot)} {us vs us0 vs0 : List (Nat × UVal × UVal)}
    (h : KeptSlots S0 S d0 d r x y r0 us vs us0 vs0) : KeptSlots S0 S d0 d (p :: r) x y r0 us vs us0 vs0 :=
  ⟨h.conf, h.enc, h.left, h.perm, h.same, fun t ht => (h.pair t ht).mono (depthSlots_tail p r),
    fun t ht => List.mem_cons_of_mem _ (h.keys t ht), h.sub.cons _, Nat.le_trans h.depth (depthSlots_tail p r)⟩

/-- The fields of one slot in front of the others. `c` and `c0` say whether the new and the old
version write it with the declared fields. -/
theorem KeptSlots.add {d0 d n : Nat} {s s0 : Slot} {r : List (Nat × Slot)} {x y x' y' : Bytes}
    {r0 : List (Nat × Slot)} {us vs us0 vs0 w : List (Nat × UVal × UVal)}
    (h : KeptSlots S0 S d0 d r x y r0 us vs us0 vs0) (hn : n ∉ r.map (·.1))
    (hw : ∀ t ∈ w, t.1 = n ∧ Pair S0 S d0 d (depthSlots ((n, s) :: r)) t) (c c0 : Bool)
    (hx : x' = if c then encUSet (lefts w) ++ x else x) (hy : y' = if c then y else encUSet (lefts w) ++ y)
    (henc : encSlots S0 d0 ((n, s0) :: r0) = if c0
      then some (encUSet (rights w) ++ encUSet (rights us0), encUSet (rights vs0))
      else some (encUSet (rights us0), encUSet (rights w) ++ encUSet (rights vs0)))
    (hc : confSlots S0 d0 ((n, s0) :: r0) = true)
    (hd : depthSlots ((n, s0) :: r0) ≤ depthSlots ((n, s) :: r)) :
    ∃ us' vs' us0' vs0', KeptSlots S0 S d0 d ((n, s) :: r) x' y' ((n, s0) :: r0) us' vs' us0' vs0' := by
  have hn1 : ∀ t ∈ us ++ vs, t.1 ≠ n := fun t ht e => hn (e ▸ h.keys t ht)
  have hn0 : ∀ t ∈ us0 ++ vs0, t.1 ≠ n := fun t ht => hn1 t (h.perm.mem_iff.1 ht)
  have hw' : ∀ t ∈ w, t.1 = n := fun t ht => (hw t ht).1
  have f1 : ∀ k, (if c then (w ++ us) ++ vs else us ++ (w ++ vs)).filter (·.1 == k) =
      if k = n then w else (us ++ vs).filter (·.1 == k) := by
    intro k
    cases c
    · exact filter_ins hw' hn1 k
    · have := filter_ins (a1 := []) (a2 := us ++ vs) hw' hn1 k
      simpa only [List.nil_append, List.append_assoc, if_true] using this
  have f0 : ∀ k, (if c0 then (w ++ us0) ++ vs0 else us0 ++ (w ++ vs0)).filter (·.1 == k) =
      if k = n then w else (us0 ++ vs0).filter (·.1 == k) := by
    intro k
    cases c0
    · exact filter_ins hw' hn0 k
    · have := filter_ins (a1 := []) (a2 := us0 ++ vs0) hw' hn0 k
      simpa only [List.nil_append, List.append_assoc, if_true] using this
  have p1 : ((if c then (w ++ us) ++ vs else us ++ (w ++ vs)) : List (Nat × UVal × UVal)).Perm (w ++ (us ++ vs)) := by
    cases c
    · exact List.perm_append_comm_assoc us w vs
    · simp only [if_true, List.append_assoc]; exact .refl _
  have p0 : ((if c0 then (w ++ us0) ++ vs0 else us0 ++ (w ++ vs0)) : List (Nat × UVal × UVal)).Perm (w ++ (us0 ++ vs0)) := by
    cases c0
    · exact List.perm_append_comm_assoc us0 w vs0
    · simp only [if_true, List.append_assoc]; exact .refl _
  have e1 : (if c then w ++ us else us) ++ (if c then vs else w ++ vs) =
      if c then (w ++ us) ++ vs else us ++ (w ++ vs) := by cases c <;> rfl
  have e0 : (if c0 then w ++ us0 else us0) ++ (if c0 then vs0 else w ++ vs0) =
      if c0 then (w ++ us0) ++ vs0 else us0 ++ (w ++ vs0) := by cases c0 <;> rfl
  refine ⟨if c then w ++ us else us, if c then vs else w ++ vs, if c0 then w ++ us0 else us0,
    if c0 then vs0 else w ++ vs0, hc, ?_, ?_, ?_, ?_, ?_, ?_, ?_, hd⟩
  · rw [henc]
    cases c0
    · simp only [Bool.false_eq_true, if_false, rights_append, encUSet_append]
    · simp only [if_true, rights_append, encUSet_append]
  · rw [hx, hy, h.left.1, h.left.2]
    cases c
    · simp only [Bool.false_eq_true, if_false, lefts_append, encUSet_append, and_self]
    · simp only [if_true, lefts_append, encUSet_append, and_self]
  · rw [e0, e1]
    exact p0.trans ((h.perm.append_left w).trans p1.symm)
  · intro k
    rw [e0, e1, f0, f1, h.same]
  · intro t ht
    rw [e1] at ht
    rcases List.mem_append.1 (p1.mem_iff.1 ht) with ht | ht
    · exact (hw t ht).2
    · exact (h.pair t ht).mono (depthSlots_tail _ r)
  · intro t ht
    rw [e1] at ht
    rcases List.mem_append.1 (p1.mem_iff.1 ht) with ht | ht
    · rw [(hw t ht).1]; exact List.mem_cons_self
    · exact List.mem_cons_of_mem _ (h.keys t ht)
  · exact h.sub.cons_cons _

theorem KeptSlots.add' {P : Prop} {d0 d n : Nat} {s s0 : Slot} {r : List (Nat × Slot)} {x y x' y' : Bytes}
    {r0 : List (Nat × Slot)} {us vs us0 vs0 w : List (Nat × UVal × UVal)}
    (h : KeptSlots S0 S d0 d r x y r0 us vs us0 vs0) (hP : P) (hn : n ∉ r.map (·.1))
    (hw : ∀ t ∈ w, t.1 = n ∧ Pair S0 S d0 d (depthSlots ((n, s) :: r)) t) (c c0 : Bool)
    (hx : x' = if c then encUSet (lefts w) ++ x else x) (hy : y' = if c then y else encUSet (lefts w) ++ y)
    (henc : encSlots S0 d0 ((n, s0) :: r0) = if c0
      then some (encUSet (rights w) ++ encUSet (rights us0), encUSet (rights vs0))
      else some (encUSet (rights us0), encUSet (rights w) ++ encUSet (rights vs0)))
    (hc : confSlots S0 d0 ((n, s0) :: r0) = true)
    (hd : depthSlots ((n, s0) :: r0) ≤ depthSlots ((n, s) :: r)) :
    ∃ us' vs' us0' vs0', KeptSlots S0 S d0 d ((n, s) :: r) x' y' ((n, s0) :: r0) us' vs' us0' vs0' ∧ P := by
  obtain ⟨us', vs', us0', vs0', hK⟩ := h.add hn hw c c0 hx hy henc hc hd
  exact ⟨us', vs', us0', vs0', hK, hP⟩

/-- What the old program sees of the slots of a message. -/
structure SeenSlots (S0 S : Schema) (ρ : Nat → Nat → Prop) (d0 d : Nat) (fs0 fs : List (Nat × Slot)) : Prop where
  up : ∀ n v f0 f, (n, .val v) ∈ fs → Known S0 d0 f0 → f0.number = n → Known S d f → f.number = n →
    hasVal S f v = some true → ∃ v0, (n, .val v0) ∈ fs0 ∧ hasVal S0 f0 v0 = some true ∧
      SeenV S0 S ρ (canonVal S0 f0 v0) v
  down : ∀ n v0, (n, .val v0) ∈ fs0 → ∃ v, (n, .val v) ∈ fs ∧ ∀ f, Known S d f → f.number = n →
    hasVal S f v = some true

/-- A slot of which nothing is seen. -/
theorem SeenSlots.hide {d0 d : Nat} {n : Nat} {s : Slot} {fs0 fs : List (Nat × Slot)} (h : SeenSlots S0 S ρ d0 d fs0 fs)
    (hs : ∀ v f0 f, s = .val v → Known S0 d0 f0 → f0.number = n → Known S d f → f.number = n →
      ¬ hasVal S f v = some true) : SeenSlots S0 S ρ d0 d fs0 ((n, s) :: fs) := by
  refine ⟨fun k v f0 f hm h1 h2 h3 h4 h5 => ?_, fun k v0 hm => ?_⟩
  · rcases List.mem_cons.1 hm with e | hm
    · cases e; exact absurd h5 (hs v f0 f rfl h1 h2 h3 h4)
    · exact h.up k v f0 f hm h1 h2 h3 h4 h5
  · obtain ⟨v, hv, h'⟩ := h.down k v0 hm
    exact ⟨v, List.mem_cons_of_mem _ hv, h'⟩

theorem SeenSlots.unknown {d0 d : Nat} {n : Nat} {u : USet} {fs0 fs : List (Nat × Slot)}
    (h : SeenSlots S0 S ρ d0 d fs0 fs) : SeenSlots S0 S ρ d0 d ((n, .unknown u) :: fs0) fs := by
  refine ⟨fun k v f0 f hm h1 h2 h3 h4 h5 => ?_, fun k v0 hm => ?_⟩
  · obtain ⟨v0, hv0, h'⟩ := h.up k v f0 f hm h1 h2 h3 h4 h5
    exact ⟨v0, List.mem_cons_of_mem _ hv0, h'⟩
  · rcases List.mem_cons.1 hm with e | hm
    · cases e
    · exact h.down k v0 hm

theorem SeenSlots.show (hS0 : S0.wf = true) (hS : S.wf = true) {d0 d : Nat} {v0 v : Value}
    {fs0 fs : List (Nat × Slot)} (h : SeenSlots S0 S ρ d0 d fs0 fs) (hf : Known S d f) (hf0 : Known S0 d0 f0)
    (hn : f0.number = f.number) (h1 : hasVal S f v = some true) (h2 : hasVal S0 f0 v0 = some true)
    (hv : SeenV S0 S ρ (canonVal S0 f0 v0) v) :
    SeenSlots S0 S ρ d0 d ((f.number, .val v0) :: fs0) ((f.number, .val v) :: fs) := by
  refine ⟨fun k w g0 g hm k1 k2 k3 k4 k5 => ?_, fun k w0 hm => ?_⟩
  · rcases List.mem_cons.1 hm with e | hm
    · cases e
      have e0 := known_same hS0 hf0 k1 (k2.trans hn.symm)
      subst e0
      exact ⟨v0, List.mem_cons_self, h2, hv⟩
    · obtain ⟨v0, hv0, h'⟩ := h.up k w g0 g hm k1 k2 k3 k4 k5
      exact ⟨v0, List.mem_cons_of_mem _ hv0, h'⟩
  · rcases List.mem_cons.1 hm with e | hm
    · cases e
      refine ⟨v, List.mem_cons_self, fun g hg hgn => ?_⟩
      rw [known_same hS hf hg hgn]; exact h1
    · obtain ⟨v, hv, h'⟩ := h.down k w0 hm
      exact ⟨v, List.mem_cons_of_mem _ hv, h'⟩

theorem SeenSlots.msg (hS0 : S0.wf = true) (hS : S.wf = true) {d0 d : Nat} (hd : ρ d0 d)
    {fs0 fs : List (Nat × Slot)} (h : SeenSlots S0 S ρ d0 d fs0 fs) (hc0 : confMsg S0 ⟨d0, fs0⟩ = true)
    (hc : confMsg S ⟨d, fs⟩ = true) : SeenV S0 S ρ (.msg d0 (canonSlots S0 d0 fs0)) (.msg d fs) := by
  obtain ⟨md0, hC0⟩ := confMsg_iff.1 hc0
  obtain ⟨md, hC⟩ := confMsg_iff.1 hc
  have val : ∀ f0 f, Known S0 d0 f0 → Known S d f → f.number = f0.number →
      (∃ v0 v, FieldSet.getValue fs0 f0.number = some v0 ∧ FieldSet.getValue fs f.number = some v ∧
        hasVal S0 f0 v0 = some true ∧ hasVal S f v = some true ∧ SeenV S0 S ρ (canonVal S0 f0 v0) v) ∨
      (FieldSet.getValue fs0 f0.number = none ∧
        (FieldSet.getValue fs f.number = none ∨ ∃ v, FieldSet.getValue fs f.number = some v ∧ hasVal S f v = some false)) := by
    intro f0 f hk0 hk hn
    cases hg : FieldSet.getValue fs f.number with
    | none =>
      right
      refine ⟨?_, .inl rfl⟩
      cases hg0 : FieldSet.getValue fs0 f0.number with
      | none => rfl
      | some v0 =>
        obtain ⟨v, hv, -⟩ := h.down _ _ ((getValue_iff hC0.sorted).1 hg0)
        rw [← hn] at hv
        rw [(getValue_iff hC.sorted).2 hv] at hg; cases hg
    | some v =>
      have hmem := (getValue_iff hC.sorted).1 hg
      rcases hasVal_cases hS (known_conf hS hC hk).1 (v := v) with hh | hh
      · left
        obtain ⟨v0, hv0, h1, h2⟩ := h.up _ v f0 f hmem hk0 hn.symm hk rfl hh
        rw [hn] at hv0
        exact ⟨v0, v, (getValue_iff hC0.sorted).2 hv0, rfl, h1, hh, h2⟩
      · right
        refine ⟨?_, .inr ⟨v, rfl, hh⟩⟩
        cases hg0 : FieldSet.getValue fs0 f0.number with
        | none => rfl
        | some v0 =>
          obtain ⟨v', hv', h'⟩ := h.down _ _ ((getValue_iff hC0.sorted).1 hg0)
          have h'' := h' f hk hn
          rw [← hn] at hv'
          have := (getValue_iff hC.sorted).2 hv'
          rw [hg] at this
          cases this
          rw [hh] at h''; cases h''
  refine .msg hd (fun f0 f hk0 hk hn => ?_) (fun f0 f v0 v hk0 hk hn hh h0 h1 => ?_)
  · rw [has_canon hS0 hC0 hk0]
    unfold FieldSet.has
    rcases val f0 f hk0 hk hn with ⟨v0, v, e1, e2, e3, e4, -⟩ | ⟨e1, e2 | ⟨v, e2, e3⟩⟩
    · rw [e1, e2]; simp only [e3, e4]
    · rw [e1, e2]
    · rw [e1, e2]; simp only [e3]
  · unfold FieldSet.has at hh
    unfold FieldSet.get at h0 h1
    rw [getValue_canon hS0 hC0 hk0] at h0
    rcases val f0 f hk0 hk hn with ⟨w0, w, e1, e2, e3, e4, e5⟩ | ⟨e1, e2 | ⟨w, e2, e3⟩⟩
    · rw [e1] at h0; rw [e2] at h1
      simp only [e3, if_true, Option.some.injEq] at h0
      cases h1; subst h0; exact e5
    · rw [e2] at hh; cases hh
    · rw [e2] at hh; simp only [e3] at hh; cases hh

/-- Fields the old version does not know. -/
theorem Pair.strange (hS0 : S0.wf = true) (hS : S.wf = true) {d0 d k n : Nat} {u : UVal} (hn : ValidNumber n) (hw : u.Wf)
    (hd : u.depth ≤ k) (hdel : Delimited S d n u) (h0 : S0.field? d0 n = none) (h1 : S0.ext? d0 n = none) :
    Pair S0 S d0 d k (n, u, u) := by
  have : Delimited S0 d0 n u := delimited_strange (fun f hf e => by
    rcases hf with hf | hf
    · rw [e, h0] at hf; cases hf
    · rw [e, h1] at hf; cases hf) u
  exact ⟨hn, ⟨hw, hw⟩, ⟨hd, hd⟩, ⟨hdel, hdel⟩, ⟨this, this⟩, rfl, fun _ => rfl,
    fun _ _ _ _ _ _ => Iff.rfl, fun _ _ _ _ _ _ => Iff.rfl⟩

/-- Fields both versions know. -/
theorem Pair.known (hS0 : S0.wf = true) (hS : S.wf = true) {d0 d k : Nat} {u v : UVal} (hw : FieldWf S f)
    (hf : Known S d f) (hf0 : Known S0 d0 f0) (hn : f0.number = f.number) (h : Twin S f k u v)
    (h0 : Twin S0 f0 k u v) : Pair S0 S d0 d k (f.number, u, v) := by
  have a1 := h0.fine.1.delimited hS0 hf0
  have a2 := h0.fine.2.delimited hS0 hf0
  rw [hn] at a1 a2
  refine ⟨hw.num, h.wf, h.depth, ⟨h.fine.1.delimited hS hf, h.fine.2.delimited hS hf⟩, ⟨a1, a2⟩, h.wire, h.len,
    fun D hD => h.step hS hf hD, fun D hD => ?_⟩
  have := h0.step hS0 hf0 hD
  rw [hn] at this
  exact this

end
end Verif.Dyn
