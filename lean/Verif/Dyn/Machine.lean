import Verif.Dyn.Api
import Verif.Dyn.Occur
/-!
Histories of accessor calls, and the abstract machine they are compared with (C11), and
histories that also include decoding, draining and in-place iteration (C12).
-/
set_option autoImplicit false
namespace Verif.Dyn
open Verif.Wire

/-- One call of an accessor (dynamic/mod.rs:191-493). -/
inductive Op where
  | has (f : FieldDesc)
  | get (f : FieldDesc)
  | set (f : FieldDesc) (v : Value)
  | setExt (f : FieldDesc) (v : Value)
  | clear (f : FieldDesc)
  | take (f : FieldDesc)
  /-- `get_field_mut`, the caller leaving `g v` behind the reference. -/
  | mutate (f : FieldDesc) (g : Value → Value)
  | mutateExt (f : FieldDesc) (g : Value → Value)
  | hasN (n : Nat)
  | getN (n : Nat)
  | setN (n : Nat) (v : Value)
  | clearN (n : Nat)
  | takeN (n : Nat)
  | setName (n : Name) (v : Value)

/-- What a call returns. -/
inductive Out where
  | unit
  | bool (b : Bool)
  | val (v : Value)
  | opt (v : Option Value)
  | res (r : Except SetErr Unit)

/-- The call on the concrete message; `none` is a panic. -/
def Op.step (S : Schema) (md : MsgDesc) (m : DynMsg) : Op → Option (DynMsg × Out)
  | .has f => (m.hasField S f).map (fun b => (m, .bool b))
  | .get f => (m.getField S f).map (fun v => (m, .val v))
  | .set f v => (m.trySetField S md f v).map (fun p => (p.1, .res p.2))
  | .setExt f v => some (m.setExt f v, .unit)
  | .clear f => some (m.clearField f, .unit)
  | .take f => (m.takeField S f).map (fun p => (p.1, .opt p.2))
  | .mutate f g => (m.modifyField S md f g).map (fun m => (m, .unit))
  | .mutateExt f g => (m.modifyExt S f g).map (fun m => (m, .unit))
  | .hasN n => (m.hasByNumber S md n).map (fun b => (m, .bool b))
  | .getN n => (m.getByNumber S md n).map (fun v => (m, .opt v))
  | .setN n v => (m.trySetByNumber S md n v).map (fun p => (p.1, .res p.2))
  | .clearN n => some (m.clearByNumber md n, .unit)
  | .takeN n => (m.takeByNumber S md n).map (fun p => (p.1, .opt p.2))
  | .setName n v => (m.trySetByName S md n v).map (fun p => (p.1, .res p.2))

/-- A history of calls. -/
def Op.run (S : Schema) (md : MsgDesc) (m : DynMsg) : List Op → Option (DynMsg × List Out)
  | [] => some (m, [])
  | o :: r =>
    match o.step S md m with
    | none => none
    | some (m', x) =>
      match Op.run S md m' r with
      | none => none
      | some (m'', xs) => some (m'', x :: xs)

/-! ### The abstract machine -/

/-- A finite map from field numbers to values. -/
abbrev AMap := Nat → Option Value

namespace AMap

/-- Number `k` belongs to another member of the oneof of `f`. -/
def rival (md : MsgDesc) (f : FieldDesc) (k : Nat) : Bool :=
  f.oneof.isSome && md.fields.any (fun g => g.number == k && g.oneof == f.oneof) && k != f.number

def put (md : MsgDesc) (f : FieldDesc) (v : Value) (A : AMap) : AMap :=
  fun k => if k = f.number then some v else if rival md f k then none else A k

def remove (f : FieldDesc) (A : AMap) : AMap := fun k => if k = f.number then none else A k

/-- With presence: stored; without: stored and different from the default. -/
def present (f : FieldDesc) (dflt : Value) (A : AMap) : Bool :=
  match A f.number with
  | none => false
  | some v => f.presence || !(v.beq dflt)

def read (f : FieldDesc) (dflt : Value) (A : AMap) : Value :=
  match A f.number with
  | none => dflt
  | some v => v

end AMap

/-- The call on the abstract map. `dflt f` is the default of `f` and `valid f v` says whether
`v` may be stored in `f`. -/
def Op.spec (dflt : FieldDesc → Value) (valid : FieldDesc → Value → Bool) (md : MsgDesc) (A : AMap) :
    Op → AMap × Out
  | .has f => (A, .bool (A.present f (dflt f)))
  | .get f => (A, .val (A.read f (dflt f)))
  | .set f v =>
    if valid f v then (A.put md f v, .res (.ok ())) else (A, .res (.error (.invalidType f v)))
  | .setExt f v => (A.put md f v, .unit)
  | .clear f => (A.remove f, .unit)
  | .take f => (A.remove f, .opt (if A.present f (dflt f) then A f.number else none))
  | .mutate f g => (A.put md f (g (A.read f (dflt f))), .unit)
  | .mutateExt f g => (A.put md f (g (A.read f (dflt f))), .unit)
  | .hasN n =>
    match md.fields.find? (fun f => f.number == n) with
    | some f => (A, .bool (A.present f (dflt f)))
    | none => (A, .bool false)
  | .getN n =>
    match md.fields.find? (fun f => f.number == n) with
    | some f => (A, .opt (some (A.read f (dflt f))))
    | none => (A, .opt none)
  | .setN n v =>
    match md.fields.find? (fun f => f.number == n) with
    | some f =>
      if valid f v then (A.put md f v, .res (.ok ())) else (A, .res (.error (.invalidType f v)))
    | none => (A, .res (.error .notFound))
  | .clearN n =>
    match md.fields.find? (fun f => f.number == n) with
    | some f => (A.remove f, .unit)
    | none => (A, .unit)
  | .takeN n =>
    match md.fields.find? (fun f => f.number == n) with
    | some f => (A.remove f, .opt (if A.present f (dflt f) then A f.number else none))
    | none => (A, .opt none)
  | .setName n v =>
    match md.fields.find? (fun f => f.name == n) with
    | some f =>
      if valid f v then (A.put md f v, .res (.ok ())) else (A, .res (.error (.invalidType f v)))
    | none => (A, .res (.error .notFound))

def Op.specRun (dflt : FieldDesc → Value) (valid : FieldDesc → Value → Bool) (md : MsgDesc) (A : AMap) :
    List Op → AMap × List Out
  | [] => (A, [])
  | o :: r =>
    let s := o.spec dflt valid md A
    let t := Op.specRun dflt valid md s.1 r
    (t.1, s.2 :: t.2)

/-- The descriptors a call is given are those of the message type; extension calls get
extensions, field calls fields. -/
def Op.ok (md : MsgDesc) : Op → Prop
  | .has f | .get f | .clear f | .take f => f ∈ md.fields ∨ f ∈ md.extensions
  | .set f _ | .mutate f _ => f ∈ md.fields
  | .setExt f _ | .mutateExt f _ => f ∈ md.extensions
  | _ => True

/-! ### Validity never panics on a well-formed schema -/

mutual
theorem validFor_total {S : Schema} (hS : S.wf = true) : (v : Value) → (f : FieldDesc) →
    ∃ b, validFor S f v = some b
  | .list vs, f => by simp only [validFor]; split <;> exact ⟨_, rfl⟩
  | .map kvs, f => by
    simp only [validFor]
    split
    · rename_i i hi
      split
      · rename_i hm
        obtain ⟨j, hj, hj'⟩ := (isMap_iff.1 hm).2
        rw [hi] at hj; cases hj
        obtain ⟨kd, vd, hE⟩ := Schema.wf_entry hS hj'
        rw [hE.kv]
        exact validMap_total hS kvs kd vd
      · exact ⟨_, rfl⟩
    · exact ⟨_, rfl⟩
  | .msg _ _, f => by simp only [validFor]; exact ⟨_, rfl⟩
  | .bool _, f => by simp only [validFor]; exact ⟨_, rfl⟩
  | .i32 _, f => by simp only [validFor]; exact ⟨_, rfl⟩
  | .i64 _, f => by simp only [validFor]; exact ⟨_, rfl⟩
  | .u32 _, f => by simp only [validFor]; exact ⟨_, rfl⟩
  | .u64 _, f => by simp only [validFor]; exact ⟨_, rfl⟩
  | .f32 _, f => by simp only [validFor]; exact ⟨_, rfl⟩
  | .f64 _, f => by simp only [validFor]; exact ⟨_, rfl⟩
  | .str _, f => by simp only [validFor]; exact ⟨_, rfl⟩
  | .bytes _, f => by simp only [validFor]; exact ⟨_, rfl⟩
  | .enum _, f => by simp only [validFor]; exact ⟨_, rfl⟩
theorem validMap_total {S : Schema} (hS : S.wf = true) : (kvs : List (MapKey × Value)) →
    (kd vd : FieldDesc) → ∃ b, validMap S kd vd kvs = some b
  | [], _, _ => by simp only [validMap]; exact ⟨_, rfl⟩
  | (k, v) :: r, kd, vd => by
    simp only [validMap]
    split
    · obtain ⟨b, hb⟩ := validFor_total hS v vd
      rw [hb]
      cases b with
      | true => exact validMap_total hS r kd vd
      | false => exact ⟨_, rfl⟩
    · exact ⟨_, rfl⟩
end

/-! ### Simulation -/

/-- The stored values of a message as an abstract map. -/
def DynMsg.abs (m : DynMsg) : AMap := fun n => FieldSet.getValue m.fields n

/-- What the accessors rely on and keep: the entries are sorted by number, and no
unknown field sits at the number of a known one. -/
structure Inv (md : MsgDesc) (m : DynMsg) : Prop where
  sorted : SMap.sorted m.fields = true
  known : ∀ f, f ∈ md.fields ∨ f ∈ md.extensions → ∀ u, SMap.get? m.fields f.number ≠ some (.unknown u)

theorem Conf.inv {S : Schema} (hS : S.wf = true) {m : DynMsg} {md : MsgDesc} (h : Conf S m md) :
    Inv md m := by
  refine ⟨h.sorted, ?_⟩
  intro f hf u hu
  have := h.get hu
  simp only [confSlot, field?_eq h.desc, ext?_eq h.desc, Bool.and_eq_true, Option.isNone_iff_eq_none] at this
  rcases hf with hf | hf
  · rw [getField_of_mem (Schema.wf_msg hS h.desc).nodup hf] at this
    simp at this
  · have h2 := this.1.2
    unfold MsgDesc.getExtension at h2
    rw [List.find?_eq_none] at h2
    exact h2 f hf (by simp)

theorem sorted_update {α : Type} {fs gs : SMap α} (h1 : SMap.sorted fs = true) (h2 : SMap.sorted gs = true)
    (h : ∀ k, SMap.get? fs k = SMap.get? gs k) : fs = gs := SMap.sorted_ext h1 h2 h

/-- Entries changed only at numbers that hold no unknown field leave the unknown fields
as they are. -/
theorem iterUnknown_erase {n : Nat} : ∀ {fs : FieldSet}, SMap.sorted fs = true →
    (∀ u, SMap.get? fs n ≠ some (.unknown u)) → iterUnknown (SMap.erase n fs) = iterUnknown fs := by
  intro fs
  induction fs with
  | nil => intro _ _; rfl
  | cons p r ih =>
    obtain ⟨k, s⟩ := p
    intro hs hn
    have hsr : SMap.sorted r = true := by
      unfold SMap.sorted at hs ⊢
      simp only [SMap.sortedFrom, Bool.and_eq_true, decide_eq_true_eq] at hs
      exact SMap.sortedFrom_mono (Nat.zero_le _) hs.2
    simp only [SMap.get?] at hn
    by_cases hk : k = n
    · subst hk
      simp only [if_true] at hn
      simp only [SMap.erase, if_true]
      cases s with
      | unknown u => exact absurd rfl (hn u)
      | taken => rfl
      | val v => rfl
    · simp only [if_neg hk] at hn
      have := ih hsr hn
      simp only [SMap.erase, if_neg hk]
      cases s <;> simp only [iterUnknown, this]

theorem iterUnknown_insert {n : Nat} {s : Slot} (hsn : ∀ u, s ≠ .unknown u) : ∀ {fs : FieldSet},
    (∀ u, SMap.get? fs n ≠ some (.unknown u)) → iterUnknown (SMap.insert n s fs) = iterUnknown fs := by
  have one : ∀ r, iterUnknown ((n, s) :: r) = iterUnknown r := by
    intro r
    cases s with
    | unknown u => exact absurd rfl (hsn u)
    | taken => rfl
    | val v => rfl
  intro fs
  induction fs with
  | nil => intro _; exact one []
  | cons p r ih =>
    obtain ⟨k, t⟩ := p
    intro hn
    simp only [SMap.get?] at hn
    simp only [SMap.insert]
    split
    · exact one _
    · split
      · rename_i hk
        rw [if_pos hk.symm] at hn
        rw [one]
        cases t with
        | unknown u => exact absurd rfl (hn u)
        | taken => rfl
        | val v => rfl
      · rename_i h1 h2
        rw [if_neg (Ne.symm h2)] at hn
        have := ih hn
        cases t <;> simp only [iterUnknown, this]


/-! ### One write, one removal -/

theorem mem_siblings_iff_rival {md : MsgDesc} {f : FieldDesc} {k : Nat} :
    k ∈ siblings md f ↔ AMap.rival md f k = true := by
  rw [mem_siblings]
  simp only [AMap.rival, Bool.and_eq_true, Option.isSome_iff_exists, List.any_eq_true, beq_iff_eq,
    bne_iff_ne, ne_eq]
  constructor
  · rintro ⟨o, ho, g, hg, hgo, hne, hk⟩
    exact ⟨⟨⟨o, ho⟩, g, hg, hk, by rw [hgo, ho]⟩, by rw [← hk]; exact hne⟩
  · rintro ⟨⟨⟨o, ho⟩, g, hg, hk, he⟩, hne⟩
    exact ⟨o, ho, g, hg, by rw [he, ho], by rw [hk]; exact hne, hk⟩

theorem iterUnknown_clearAll {md : MsgDesc} : ∀ (ns : List Nat), (∀ n ∈ ns, ∃ g ∈ md.fields, g.number = n) →
    ∀ {fs : FieldSet}, SMap.sorted fs = true →
    (∀ f ∈ md.fields, ∀ u, SMap.get? fs f.number ≠ some (.unknown u)) →
    iterUnknown (FieldSet.clearAll ns fs) = iterUnknown fs := by
  intro ns
  induction ns with
  | nil => intro _ fs _ _; rfl
  | cons n r ih =>
    intro hns fs hs hk
    obtain ⟨g, hg, hgn⟩ := hns n (by simp)
    have h1 : iterUnknown (SMap.erase n fs) = iterUnknown fs :=
      iterUnknown_erase hs (by rw [← hgn]; exact hk g hg)
    rw [← h1]
    refine ih (fun m hm => hns m (by simp [hm])) (SMap.sorted_erase hs) ?_
    intro f hf u hu
    rw [SMap.get?_erase hs] at hu
    split at hu
    · cases hu
    · exact hk f hf u hu

/-- The field set after a write through `set` or `get_mut`. -/
def putFs (md : MsgDesc) (f : FieldDesc) (v : Value) (fs : FieldSet) : FieldSet :=
  SMap.insert f.number (.val v) (FieldSet.clearAll (siblings md f) fs)

theorem siblings_ext {S : Schema} (hS : S.wf = true) {d : Nat} {md : MsgDesc} (hd : S.msg? d = some md)
    {f : FieldDesc} (hf : f ∈ md.extensions) : siblings md f = [] := by
  have := ((Schema.wf_msg hS hd).extNew f hf).2
  unfold siblings; rw [this]

theorem fieldWf_of_mem {S : Schema} (hS : S.wf = true) {d : Nat} {md : MsgDesc} (hd : S.msg? d = some md)
    {f : FieldDesc} (hf : f ∈ md.fields ∨ f ∈ md.extensions) : FieldWf S f := by
  rcases hf with hf | hf
  · exact (Schema.wf_msg hS hd).fields f hf
  · exact (Schema.wf_msg hS hd).exts f hf

theorem sibling_known {md : MsgDesc} {f : FieldDesc} : ∀ n ∈ siblings md f, ∃ g ∈ md.fields, g.number = n := by
  intro n hn
  obtain ⟨_, _, g, hg, _, _, h⟩ := mem_siblings.1 hn
  exact ⟨g, hg, h⟩

theorem get?_putFs {md : MsgDesc} {f : FieldDesc} {v : Value} {fs : FieldSet} (hs : SMap.sorted fs = true)
    (k : Nat) : SMap.get? (putFs md f v fs) k =
      if k = f.number then some (.val v) else if k ∈ siblings md f then none else SMap.get? fs k := by
  unfold putFs
  rw [SMap.get?_insert, get?_clearAll _ _ hs]

theorem put_sim {md : MsgDesc} {f : FieldDesc} {v : Value} {m : DynMsg} (hI : Inv md m)
    (hpos : 0 < f.number) (hf : f ∈ md.fields ∨ f ∈ md.extensions) :
    Inv md ⟨m.desc, putFs md f v m.fields⟩ ∧
    DynMsg.abs ⟨m.desc, putFs md f v m.fields⟩ = AMap.put md f v m.abs ∧
    iterUnknown (putFs md f v m.fields) = iterUnknown m.fields := by
  have hg := fun k => get?_putFs (md := md) (f := f) (v := v) hI.sorted k
  refine ⟨⟨SMap.sorted_insert hpos (sorted_clearAll _ _ hI.sorted), ?_⟩, ?_, ?_⟩
  · intro g hgm u hu
    simp only [hg] at hu
    split at hu
    · cases hu
    · split at hu
      · cases hu
      · exact hI.known g hgm u hu
  · funext k
    simp only [DynMsg.abs, FieldSet.getValue, hg, AMap.put]
    by_cases h1 : k = f.number
    · simp [h1]
    · by_cases h2 : k ∈ siblings md f
      · simp [h1, h2, mem_siblings_iff_rival.1 h2]
      · have : AMap.rival md f k = false := by
          cases h : AMap.rival md f k with
          | false => rfl
          | true => exact absurd (mem_siblings_iff_rival.2 h) h2
        simp only [if_neg h1, if_neg h2, this, Bool.false_eq_true, if_false]
  · unfold putFs
    rw [iterUnknown_insert (by intro u h; cases h)]
    · exact iterUnknown_clearAll _ sibling_known hI.sorted (fun g hg => hI.known g (.inl hg))
    · intro u hu
      rw [get?_clearAll _ _ hI.sorted] at hu
      split at hu
      · cases hu
      · exact hI.known f hf u hu

theorem remove_sim {md : MsgDesc} {f : FieldDesc} {m : DynMsg} (hI : Inv md m)
    (hf : f ∈ md.fields ∨ f ∈ md.extensions) :
    Inv md ⟨m.desc, SMap.erase f.number m.fields⟩ ∧
    DynMsg.abs ⟨m.desc, SMap.erase f.number m.fields⟩ = AMap.remove f m.abs ∧
    iterUnknown (SMap.erase f.number m.fields) = iterUnknown m.fields := by
  have hg := fun k => SMap.get?_erase hI.sorted f.number k
  refine ⟨⟨SMap.sorted_erase hI.sorted, ?_⟩, ?_, iterUnknown_erase hI.sorted (hI.known f hf)⟩
  · intro g hgm u hu
    simp only [hg] at hu
    split at hu
    · cases hu
    · exact hI.known g hgm u hu
  · funext k
    simp only [DynMsg.abs, FieldSet.getValue, hg, AMap.remove]
    by_cases h1 : k = f.number
    · subst h1; simp
    · simp only [if_neg h1]

theorem getMut_sim {S : Schema} {md : MsgDesc} {f : FieldDesc} {fs : FieldSet} {w : Value}
    (hs : SMap.sorted fs = true) (hd : fieldDefault S f = some w) :
    ∃ fs', FieldSet.getMut S (siblings md f) fs f =
        some (fs', AMap.read f w (fun n => FieldSet.getValue fs n)) ∧
      ∀ v, FieldSet.write f v fs' = putFs md f v fs := by
  have hg : SMap.get? (FieldSet.clearAll (siblings md f) fs) f.number = SMap.get? fs f.number := by
    rw [get?_clearAll _ _ hs, if_neg not_mem_siblings]
  unfold FieldSet.getMut AMap.read FieldSet.getValue
  simp only [hg, hd]
  cases hc : SMap.get? fs f.number with
  | none => exact ⟨_, rfl, fun v => SMap.insert_insert _ _ _ _⟩
  | some s =>
    cases s with
    | val v => exact ⟨_, rfl, fun v => rfl⟩
    | taken => exact ⟨_, rfl, fun v => SMap.insert_insert _ _ _ _⟩
    | unknown u => exact ⟨_, rfl, fun v => SMap.insert_insert _ _ _ _⟩

theorem has_sim {S : Schema} {f : FieldDesc} {m : DynMsg} {w : Value} (hd : fieldDefault S f = some w) :
    FieldSet.has S m.fields f = some (AMap.present f w m.abs) := by
  unfold FieldSet.has AMap.present DynMsg.abs
  cases FieldSet.getValue m.fields f.number with
  | none => rfl
  | some v =>
    simp only [hasVal, isDefault, hd, Option.map_some]
    cases f.presence <;> rfl

theorem get_sim {S : Schema} {f : FieldDesc} {m : DynMsg} {w : Value} (hd : fieldDefault S f = some w) :
    FieldSet.get S m.fields f = some (AMap.read f w m.abs) := by
  unfold FieldSet.get AMap.read DynMsg.abs
  cases FieldSet.getValue m.fields f.number with
  | none => exact hd
  | some v => rfl

theorem take_sim {S : Schema} {f : FieldDesc} {m : DynMsg} {w : Value} (hd : fieldDefault S f = some w) :
    FieldSet.take S m.fields f =
      some (if AMap.present f w m.abs then m.abs f.number else none, SMap.erase f.number m.fields) := by
  unfold FieldSet.take AMap.present DynMsg.abs FieldSet.getValue
  cases SMap.get? m.fields f.number with
  | none => rfl
  | some s =>
    cases s with
    | taken => rfl
    | unknown u => rfl
    | val v =>
      simp only [hasVal, isDefault, hd, Option.map_some]
      cases f.presence with
      | true => rfl
      | false => cases v.beq w <;> rfl


/-! ### The simulation -/

/-- `dflt` and `valid` are what the code computes for the fields of `md`. -/
structure Params (S : Schema) (md : MsgDesc) (dflt : FieldDesc → Value)
    (valid : FieldDesc → Value → Bool) : Prop where
  dflt : ∀ f, f ∈ md.fields ∨ f ∈ md.extensions → fieldDefault S f = some (dflt f)
  valid : ∀ f v, f ∈ md.fields → validFor S f v = some (valid f v)

/-- Such parameters exist. -/
theorem params_exist {S : Schema} (hS : S.wf = true) {d : Nat} {md : MsgDesc} (hd : S.msg? d = some md) :
    Params S md (fun f => (fieldDefault S f).getD (.bool false))
      (fun f v => (validFor S f v).getD false) := by
  refine ⟨?_, ?_⟩
  · intro f hf
    obtain ⟨v, hv, _⟩ := fieldDefault_conf hS (fieldWf_of_mem hS hd hf)
    rw [hv]; rfl
  · intro f v _
    obtain ⟨b, hb⟩ := validFor_total hS v f
    rw [hb]; rfl

/-- The state relation of the simulation between `m` and `m'` related to `A`. -/
structure Sim (md : MsgDesc) (m m' : DynMsg) (A : AMap) : Prop where
  inv : Inv md m'
  abs : m'.abs = A
  desc : m'.desc = m.desc
  unknown : iterUnknown m'.fields = iterUnknown m.fields

theorem Sim.self {md : MsgDesc} {m : DynMsg} (h : Inv md m) : Sim md m m m.abs := ⟨h, rfl, rfl, rfl⟩

theorem Op.step_sim {S : Schema} (hS : S.wf = true) {md : MsgDesc} {m : DynMsg}
    (hd : S.msg? m.desc = some md) {dflt : FieldDesc → Value} {valid : FieldDesc → Value → Bool}
    (hP : Params S md dflt valid) (hI : Inv md m) (o : Op) (ho : o.ok md) :
    ∃ m', o.step S md m = some (m', (o.spec dflt valid md m.abs).2) ∧
      Sim md m m' (o.spec dflt valid md m.abs).1 := by
  have hpos : ∀ f, f ∈ md.fields ∨ f ∈ md.extensions → 0 < f.number := fun f hf =>
    (fieldWf_of_mem hS hd hf).num.1
  have put : ∀ f v, f ∈ md.fields ∨ f ∈ md.extensions →
      Sim md m ⟨m.desc, putFs md f v m.fields⟩ (AMap.put md f v m.abs) := by
    intro f v hf
    obtain ⟨h1, h2, h3⟩ := put_sim (v := v) hI (hpos f hf) hf
    exact ⟨h1, h2, rfl, h3⟩
  have rem : ∀ f, f ∈ md.fields ∨ f ∈ md.extensions →
      Sim md m ⟨m.desc, SMap.erase f.number m.fields⟩ (AMap.remove f m.abs) := by
    intro f hf
    obtain ⟨h1, h2, h3⟩ := remove_sim hI hf
    exact ⟨h1, h2, rfl, h3⟩
  have trySet : ∀ f v, f ∈ md.fields → ∃ m', (m.trySetField S md f v) = some (m',
        if valid f v then .ok () else .error (.invalidType f v)) ∧
      Sim md m m' (if valid f v then AMap.put md f v m.abs else m.abs) := by
    intro f v hf
    unfold DynMsg.trySetField
    rw [hP.valid f v hf]
    cases valid f v with
    | true => exact ⟨_, rfl, put f v (.inl hf)⟩
    | false => exact ⟨_, rfl, Sim.self hI⟩
  have tk : ∀ f, f ∈ md.fields ∨ f ∈ md.extensions → ∃ m', m.takeField S f = some (m',
        if AMap.present f (dflt f) m.abs then m.abs f.number else none) ∧
      Sim md m m' (AMap.remove f m.abs) := by
    intro f hf
    unfold DynMsg.takeField
    rw [take_sim (hP.dflt f hf)]
    exact ⟨_, rfl, rem f hf⟩
  have mem : ∀ {n f}, md.fields.find? (fun f => f.number == n) = some f → f ∈ md.fields := by
    intro n f h
    exact List.mem_of_find?_eq_some h
  cases o with
  | has f => exact ⟨m, by simp only [Op.step, DynMsg.hasField, has_sim (hP.dflt f ho)]; rfl, Sim.self hI⟩
  | get f => exact ⟨m, by simp only [Op.step, DynMsg.getField, get_sim (hP.dflt f ho)]; rfl, Sim.self hI⟩
  | set f v =>
    obtain ⟨m', h1, h2⟩ := trySet f v ho
    refine ⟨m', ?_, ?_⟩
    · simp only [Op.step, h1, Option.map_some, Op.spec]
      split <;> rfl
    · simp only [Op.spec]
      split at h2 <;> rename_i hv <;> simp only [hv] <;> exact h2
  | setExt f v =>
    refine ⟨_, rfl, ?_⟩
    have := put f v (.inr ho)
    simp only [putFs, siblings_ext hS hd ho] at this
    exact this
  | clear f => exact ⟨_, rfl, rem f ho⟩
  | take f =>
    obtain ⟨m', h1, h2⟩ := tk f ho
    exact ⟨m', by simp only [Op.step, h1, Option.map_some, Op.spec], h2⟩
  | mutate f g =>
    obtain ⟨fs', h1, h2⟩ := getMut_sim (md := md) hI.sorted (hP.dflt f (.inl ho))
    refine ⟨⟨m.desc, putFs md f (g (AMap.read f (dflt f) m.abs)) m.fields⟩, ?_, put f _ (.inl ho)⟩
    simp only [Op.step, DynMsg.modifyField, h1, h2]
    rfl
  | mutateExt f g =>
    obtain ⟨fs', h1, h2⟩ := getMut_sim (md := md) hI.sorted (hP.dflt f (.inr ho))
    rw [siblings_ext hS hd ho] at h1
    refine ⟨⟨m.desc, putFs md f (g (AMap.read f (dflt f) m.abs)) m.fields⟩, ?_, put f _ (.inr ho)⟩
    simp only [Op.step, DynMsg.modifyExt, h1, h2]
    rfl
  | hasN n =>
    refine ⟨m, ?_, ?_⟩
    · simp only [Op.step, Op.spec, DynMsg.hasByNumber, MsgDesc.getField]
      cases hf : md.fields.find? (fun f => f.number == n) with
      | none => rfl
      | some f => simp only [DynMsg.hasField, has_sim (hP.dflt f (.inl (mem hf))), Option.map_some]
    · simp only [Op.spec]; split <;> exact Sim.self hI
  | getN n =>
    refine ⟨m, ?_, ?_⟩
    · simp only [Op.step, Op.spec, DynMsg.getByNumber, MsgDesc.getField]
      cases hf : md.fields.find? (fun f => f.number == n) with
      | none => rfl
      | some f => simp only [DynMsg.getField, get_sim (hP.dflt f (.inl (mem hf))), Option.map_some]
    · simp only [Op.spec]; split <;> exact Sim.self hI
  | setN n v =>
    simp only [Op.step, Op.spec, DynMsg.trySetByNumber, MsgDesc.getField]
    cases hf : md.fields.find? (fun f => f.number == n) with
    | none => exact ⟨m, rfl, Sim.self hI⟩
    | some f =>
      obtain ⟨m', h1, h2⟩ := trySet f v (mem hf)
      refine ⟨m', ?_, ?_⟩
      · simp only [h1, Option.map_some]
        split <;> rfl
      · split at h2 <;> rename_i hv <;> simp only [hv] <;> exact h2
  | clearN n =>
    simp only [Op.step, Op.spec, DynMsg.clearByNumber, MsgDesc.getField]
    cases hf : md.fields.find? (fun f => f.number == n) with
    | none => exact ⟨m, rfl, Sim.self hI⟩
    | some f => exact ⟨_, rfl, rem f (.inl (mem hf))⟩
  | takeN n =>
    simp only [Op.step, Op.spec, DynMsg.takeByNumber, MsgDesc.getField]
    cases hf : md.fields.find? (fun f => f.number == n) with
    | none => exact ⟨m, rfl, Sim.self hI⟩
    | some f =>
      obtain ⟨m', h1, h2⟩ := tk f (.inl (mem hf))
      exact ⟨m', by simp only [h1, Option.map_some], h2⟩
  | setName n v =>
    simp only [Op.step, Op.spec, DynMsg.trySetByName, MsgDesc.getFieldByName]
    cases hf : md.fields.find? (fun f => f.name == n) with
    | none => exact ⟨m, rfl, Sim.self hI⟩
    | some f =>
      obtain ⟨m', h1, h2⟩ := trySet f v (List.mem_of_find?_eq_some hf)
      refine ⟨m', ?_, ?_⟩
      · simp only [h1, Option.map_some]
        split <;> rfl
      · split at h2 <;> rename_i hv <;> simp only [hv] <;> exact h2

theorem Op.run_sim {S : Schema} (hS : S.wf = true) {md : MsgDesc} {dflt : FieldDesc → Value}
    {valid : FieldDesc → Value → Bool} (hP : Params S md dflt valid) : ∀ (os : List Op) {m : DynMsg},
    S.msg? m.desc = some md → Inv md m → (∀ o ∈ os, o.ok md) →
    ∃ m', Op.run S md m os = some (m', (Op.specRun dflt valid md m.abs os).2) ∧
      Sim md m m' (Op.specRun dflt valid md m.abs os).1 := by
  intro os
  induction os with
  | nil => intro m _ hI _; exact ⟨m, rfl, Sim.self hI⟩
  | cons o r ih =>
    intro m hd hI ho
    obtain ⟨m1, h1, h2⟩ := Op.step_sim hS hd hP hI o (ho o (by simp))
    obtain ⟨m2, h3, h4⟩ := ih (m := m1) (by rw [h2.desc]; exact hd) h2.inv (fun o' h => ho o' (by simp [h]))
    rw [h2.abs] at h3 h4
    refine ⟨m2, ?_, h4.inv, h4.abs, h4.desc.trans h2.desc, h4.unknown.trans h2.unknown⟩
    simp only [Op.run, h1, h3, Op.specRun]

end Verif.Dyn
