import Verif.Dyn.Order
import Verif.Dyn.Len
import Verif.Dyn.Accept
/-!
What `encode` writes, seen by someone who does not know the message type.
-/
set_option autoImplicit false
namespace Verif.Dyn
open Verif.Wire

/-- A value as field `f` may hold it. -/
def Fine (S : Schema) (f : FieldDesc) (u : UVal) : Prop :=
  (isMap S f = true → ∃ p, u = .len p) ∧ ∀ us j, u = .group us → f.kind = .message j → DelimitedAll S j us

theorem known_same {S : Schema} (hS : S.wf = true) {d : Nat} {f g : FieldDesc} (hf : Known S d f)
    (hg : Known S d g) (hn : g.number = f.number) : g = f := by
  have key : ∀ {f g : FieldDesc}, S.field? d f.number = some f → S.ext? d g.number = some g →
      g.number = f.number → False := by
    intro f g h1 h2 hn
    unfold Schema.field? at h1
    unfold Schema.ext? at h2
    cases hm : S.msg? d with
    | none => rw [hm] at h1; cases h1
    | some md =>
      rw [hm] at h1 h2
      have hw := Schema.wf_msg hS hm
      have := (hw.extNew g (getExtension_mem h2).1).1
      rw [hn] at this
      exact absurd (this.symm.trans h1) (by simp)
  rcases hf with h1 | h1
  · rcases hg with h2 | h2
    · rw [hn, h1] at h2; exact (Option.some.inj h2).symm
    · exact (key h1 h2 hn).elim
  · rcases hg with h2 | h2
    · exact (key h2 h1 hn.symm).elim
    · rw [hn, h1] at h2; exact (Option.some.inj h2).symm

theorem Fine.delimited {S : Schema} (hS : S.wf = true) {d : Nat} {f : FieldDesc} (hk : Known S d f)
    {u : UVal} (h : Fine S f u) : Delimited S d f.number u := by
  have hno : (∀ p, u ≠ .len p) → ∀ g, Known S d g → g.number = f.number → isMap S g = false := by
    intro hu g hg hn
    rw [known_same hS hk hg hn]
    cases hm : isMap S f with
    | false => rfl
    | true => obtain ⟨p, hp⟩ := h.1 hm; exact absurd hp (hu p)
  cases u with
  | len p => trivial
  | group us =>
    simp only [Delimited]
    intro g hg hn
    refine ⟨hno nofun g hg hn, fun j hj => ?_⟩
    rw [known_same hS hk hg hn] at hj
    exact h.2 us j rfl hj
  | varint _ => simp only [Delimited]; exact hno nofun
  | sixtyFour _ => simp only [Delimited]; exact hno nofun
  | thirtyTwo _ => simp only [Delimited]; exact hno nofun

theorem delimited_strange {S : Schema} {d n : Nat} (hk : ∀ f, Known S d f → f.number ≠ n) (u : UVal) :
    Delimited S d n u := by
  cases u <;> simp only [Delimited]
  all_goals first
    | exact fun f hf hn => absurd hn (hk f hf)
    | trivial

theorem delimitedAll_iff {S : Schema} {d : Nat} : ∀ (x : USet),
    DelimitedAll S d x ↔ ∀ p ∈ x, Delimited S d p.1 p.2
  | [] => by simp [DelimitedAll]
  | (n, u) :: r => by simp [DelimitedAll, delimitedAll_iff r]

theorem USet.depth_le {d : Nat} : ∀ (x : USet), USet.depth x ≤ d ↔ ∀ p ∈ x, p.2.depth ≤ d
  | [] => by simp [USet.depth]
  | (n, u) :: r => by simp [USet.depth, Nat.max_le, USet.depth_le r]

/-- The bytes of field `f`: fields with its number, of depth at most `k`. -/
def Writes (S : Schema) (f : FieldDesc) (k : Nat) (b : Bytes) : Prop :=
  ∃ us : USet, b = encUSet us ∧ ∀ p ∈ us, p.1 = f.number ∧ p.2.Wf ∧ p.2.depth ≤ k ∧ Fine S f p.2

theorem Writes.nil {S : Schema} {f : FieldDesc} {k : Nat} : Writes S f k [] := ⟨[], rfl, nofun⟩

theorem Writes.append {S : Schema} {f : FieldDesc} {k : Nat} {a b : Bytes} (ha : Writes S f k a)
    (hb : Writes S f k b) : Writes S f k (a ++ b) := by
  obtain ⟨x, rfl, hx⟩ := ha
  obtain ⟨y, rfl, hy⟩ := hb
  refine ⟨x ++ y, (encUSet_append x y).symm, fun p hp => ?_⟩
  rcases List.mem_append.1 hp with h | h
  · exact hx p h
  · exact hy p h

theorem Writes.mono {S : Schema} {f : FieldDesc} {k k' : Nat} {a : Bytes} (ha : Writes S f k a)
    (hk : k ≤ k') : Writes S f k' a := by
  obtain ⟨x, rfl, hx⟩ := ha
  exact ⟨x, rfl, fun p hp => ⟨(hx p hp).1, (hx p hp).2.1, Nat.le_trans (hx p hp).2.2.1 hk, (hx p hp).2.2.2⟩⟩

theorem Writes.one {S : Schema} {f : FieldDesc} {k : Nat} {u : UVal} (hw : u.Wf) (hd : u.depth ≤ k)
    (hf : Fine S f u) : Writes S f k (encodeKey f.number u.wireType ++ uPayload f.number u) :=
  ⟨[(f.number, u)], by simp [encUSet, encUVal_eq], fun p hp => by
    rw [List.mem_singleton.1 hp]; exact ⟨rfl, hw, hd, hf⟩⟩

theorem Writes.len {S : Schema} {f : FieldDesc} {k : Nat} {p : Bytes} (h : p.length < 2 ^ 64) :
    Writes S f k (encodeKey f.number .lengthDelimited ++ (encodeVarint p.length ++ p)) :=
  Writes.one (u := .len p) (by simpa [UVal.Wf] using h) (by simp [UVal.depth]) ⟨fun _ => ⟨p, rfl⟩, nofun⟩

theorem scalar_payload {k : Kind} {v : Value} {p : Bytes} (h : scalarEnc k v = some p)
    (hl : p.length < 2 ^ 64) : ∃ u : UVal, u.wireType = k.wireType ∧ (∀ n, uPayload n u = p) ∧ u.Wf ∧
      u.depth = 0 ∧ ∀ us, u ≠ .group us := by
  cases k <;> cases v <;> simp only [scalarEnc] at h <;> first
    | cases h; done
    | skip
  all_goals simp only [Option.some.injEq] at h
  all_goals subst h
  case bool.bool x => exact ⟨.varint (if x then 1#64 else 0#64), rfl, fun n => by cases x <;> rfl, trivial, rfl, nofun⟩
  case string.str x => exact ⟨.len x, rfl, fun n => rfl, by
    simp only [List.length_append] at hl; simp only [UVal.Wf]; omega, rfl, nofun⟩
  case bytes.bytes x => exact ⟨.len x, rfl, fun n => rfl, by
    simp only [List.length_append] at hl; simp only [UVal.Wf]; omega, rfl, nofun⟩
  case uint32.u32 x => exact ⟨.varint (x.zeroExtend 64), rfl, fun n => by
    have := x.isLt
    have e : (x.zeroExtend 64).toNat = x.toNat := by simp; omega
    simp only [uPayload, e], trivial, rfl, nofun⟩
  case sint32.i32 x => exact ⟨.varint ((zigzag32 x).zeroExtend 64), rfl, fun n => by
    have := (zigzag32 x).isLt
    have e : ((zigzag32 x).zeroExtend 64).toNat = (zigzag32 x).toNat := by simp; omega
    simp only [uPayload, e], trivial, rfl, nofun⟩
  all_goals first
    | exact ⟨.varint _, rfl, fun n => rfl, trivial, rfl, nofun⟩
    | exact ⟨.sixtyFour _, rfl, fun n => rfl, trivial, rfl, nofun⟩
    | exact ⟨.thirtyTwo _, rfl, fun n => rfl, trivial, rfl, nofun⟩

theorem asScalar {S : Schema} {f : FieldDesc} {v : Value} {b : Bytes} {k : Nat} (hm : isMap S f = false)
    (h : unlessDefault S f v []
      ((scalarEnc f.kind v).map (encodeKey f.number f.kind.wireType ++ ·)) = some b)
    (hl : b.length < 2 ^ 64) : Writes S f k b := by
  rcases unlessDefault_cases h with ⟨hv, h⟩ | ⟨hv, rfl⟩
  · obtain ⟨p, hp, rfl⟩ := Option.map_eq_some_iff.1 h
    simp only [List.length_append] at hl
    obtain ⟨u, hu, hpay, hw, hd, hg⟩ := scalar_payload hp (by omega)
    rw [← hu, ← hpay f.number]
    exact Writes.one hw (by omega) ⟨fun e => (Bool.false_ne_true (hm.symm.trans e)).elim,
      fun us j e => absurd e (hg us)⟩
  · exact Writes.nil

theorem isMap_value {S : Schema} {f : FieldDesc} {v : Value} (h : confVal S f v = true)
    (hm : isMap S f = true) : ∃ kvs, v = .map kvs := by
  have hr : f.card = .repeated := by
    unfold isMap at hm
    simp only [Bool.and_eq_true, beq_iff_eq] at hm
    exact hm.1
  cases v <;> simp only [confVal, Bool.and_eq_true, bne_iff_ne, ne_eq, hr, not_true_eq_false,
    false_and] at h
  · next vs => 
    have := h.1
    unfold isList at this
    rw [hm] at this
    simp at this
  · exact ⟨_, rfl⟩

/-- What a list of slots writes: fields with the numbers of its entries. -/
def WritesAll (S : Schema) (d k : Nat) (fs : List (Nat × Slot)) (x y : Bytes) : Prop :=
  ∃ us vs : USet, x = encUSet us ∧ y = encUSet vs ∧ ∀ p ∈ us ++ vs, ValidNumber p.1 ∧ p.2.Wf ∧
    p.2.depth ≤ k ∧ Delimited S d p.1 p.2 ∧ ∃ s, (p.1, s) ∈ fs

mutual
theorem asVal {S : Schema} (hS : S.wf = true) : (v : Value) → (f f' : FieldDesc) → (b : Bytes) →
    f.number < 2 ^ 29 → f'.kind = f.kind → confVal S f' v = true →
    (isMap S f = true → ∃ kvs, v = .map kvs) → encVal S f v = some b → b.length < 2 ^ 64 →
    Writes S f (depthVal v) b
  | .msg d fs, f, f', b, hn, hk, hc, hm, h, hl => by
    have hm' : isMap S f = false := by
      cases e : isMap S f with
      | false => rfl
      | true => obtain ⟨_, he⟩ := hm e; cases he
    obtain ⟨-, hkind, hconf⟩ := confMsg_of_confVal hc
    rw [hk] at hkind
    have hcs : confSlots S d fs = true := by
      unfold confMsg at hconf
      simp only [Bool.and_eq_true] at hconf
      exact hconf.2
    simp only [encVal] at h
    rcases unlessDefault_cases h with ⟨hv, h⟩ | ⟨hv, rfl⟩
    · split at h
      · rename_i i hi
        split at h
        · cases h
        · rename_i x y hs
          split at h
          · rename_i hg
            cases h
            simp only [List.length_append] at hl
            obtain ⟨us, vs, rfl, rfl, hall⟩ := asSlots hS fs d x y hcs hs (by rw [List.length_append]; omega)
            have hw : (UVal.group (us ++ vs)).Wf := by
              simp only [UVal.Wf]
              exact (Wire.USet.wf_iff _).2 (fun p hp => ⟨(hall p hp).1, (hall p hp).2.1⟩)
            have := Writes.one (S := S) (f := f) (k := depthVal (.msg d fs)) (u := .group (us ++ vs)) hw
              (by
                simp only [UVal.depth, depthVal]
                have := (USet.depth_le (us ++ vs)).2 (fun p hp => (hall p hp).2.2.1)
                omega)
              ⟨fun e => (Bool.false_ne_true (hm'.symm.trans e)).elim, fun ws j e hj => by
                cases e
                rw [hkind] at hj
                cases hj
                exact (delimitedAll_iff _).2 (fun p hp => (hall p hp).2.2.2.1)⟩
            simpa [UVal.wireType, uPayload, encUSet_append] using this
          · split at h
            · cases h
            · rename_i l hlen
              cases h
              simp only [List.length_append] at hl
              have ha := confSlots_accepted hS fs d hcs
              have := lenSlots_eq hS fs d x y ha hs (by rw [List.length_append]; omega)
              rw [this] at hlen
              cases hlen
              exact Writes.len (by rw [List.length_append]; omega)
      · cases h
    · exact Writes.nil
  | .list vs, f, f', b, hn, hk, hc, hm, h, hl => by
    simp only [confVal, Bool.and_eq_true] at hc
    simp only [encVal] at h
    rcases unlessDefault_cases h with ⟨hv, h⟩ | ⟨hv, rfl⟩
    · split at h
      · rename_i hL
        split at h
        · unfold encPackedList at h
          split at h
          · rename_i hkp
            split at h
            · rename_i l c h1 h2
              cases h
              simp only [List.length_append] at hl
              rw [packedLenAll_eq hkp vs c h2 (by omega)] at h1
              cases h1
              exact Writes.len (by omega)
            · cases h
          · cases h
        · simp only [depthVal]
          refine asVals hS vs f f'.elem b hn hk hc.2 ?_ h hl
          unfold isList at hL
          simp only [Bool.and_eq_true, Bool.not_eq_true'] at hL
          exact hL.2
      · cases h
    · exact Writes.nil
  | .map kvs, f, f', b, hn, hk, hc, hm, h, hl => by
    simp only [confVal, Bool.and_eq_true] at hc
    simp only [encVal] at h
    rcases unlessDefault_cases h with ⟨hv, h⟩ | ⟨hv, rfl⟩
    · split at h
      · rename_i i hi
        split at h
        · split at h
          · cases h
          · rename_i kd vd hkv
            have hc2 := hc.2
            rw [hk, hi] at hc2
            simp only [hkv, Bool.and_eq_true] at hc2
            have h1 := Schema.wf_field hS (mapKV_some hkv).1
            have h2 := Schema.wf_field hS (mapKV_some hkv).2
            exact asMap hS kvs f kd vd b hn h1.1.num.2 h2.1.num.2 hc2.2 h hl
        · cases h
      · cases h
    · exact Writes.nil
  | .bool x, f, f', b, hn, hk, hc, hm, h, hl => by
    simp only [encVal] at h
    exact asScalar (by cases e : isMap S f with
      | false => rfl
      | true => obtain ⟨_, he⟩ := hm e; cases he) h hl
  | .i32 x, f, f', b, hn, hk, hc, hm, h, hl => by
    simp only [encVal] at h
    exact asScalar (by cases e : isMap S f with
      | false => rfl
      | true => obtain ⟨_, he⟩ := hm e; cases he) h hl
  | .i64 x, f, f', b, hn, hk, hc, hm, h, hl => by
    simp only [encVal] at h
    exact asScalar (by cases e : isMap S f with
      | false => rfl
      | true => obtain ⟨_, he⟩ := hm e; cases he) h hl
  | .u32 x, f, f', b, hn, hk, hc, hm, h, hl => by
    simp only [encVal] at h
    exact asScalar (by cases e : isMap S f with
      | false => rfl
      | true => obtain ⟨_, he⟩ := hm e; cases he) h hl
  | .u64 x, f, f', b, hn, hk, hc, hm, h, hl => by
    simp only [encVal] at h
    exact asScalar (by cases e : isMap S f with
      | false => rfl
      | true => obtain ⟨_, he⟩ := hm e; cases he) h hl
  | .f32 x, f, f', b, hn, hk, hc, hm, h, hl => by
    simp only [encVal] at h
    exact asScalar (by cases e : isMap S f with
      | false => rfl
      | true => obtain ⟨_, he⟩ := hm e; cases he) h hl
  | .f64 x, f, f', b, hn, hk, hc, hm, h, hl => by
    simp only [encVal] at h
    exact asScalar (by cases e : isMap S f with
      | false => rfl
      | true => obtain ⟨_, he⟩ := hm e; cases he) h hl
  | .str x, f, f', b, hn, hk, hc, hm, h, hl => by
    simp only [encVal] at h
    exact asScalar (by cases e : isMap S f with
      | false => rfl
      | true => obtain ⟨_, he⟩ := hm e; cases he) h hl
  | .bytes x, f, f', b, hn, hk, hc, hm, h, hl => by
    simp only [encVal] at h
    exact asScalar (by cases e : isMap S f with
      | false => rfl
      | true => obtain ⟨_, he⟩ := hm e; cases he) h hl
  | .enum x, f, f', b, hn, hk, hc, hm, h, hl => by
    simp only [encVal] at h
    exact asScalar (by cases e : isMap S f with
      | false => rfl
      | true => obtain ⟨_, he⟩ := hm e; cases he) h hl
theorem asVals {S : Schema} (hS : S.wf = true) : (vs : List Value) → (f f' : FieldDesc) →
    (b : Bytes) → f.number < 2 ^ 29 → f'.kind = f.kind → confVals S f' vs = true → isMap S f = false →
    encVals S f vs = some b → b.length < 2 ^ 64 → Writes S f (depthVals vs) b
  | [], f, f', b, _, _, _, _, h, _ => by simp [encVals] at h; subst h; exact Writes.nil
  | v :: r, f, f', b, hn, hk, hc, hm, h, hl => by
    simp only [confVals, Bool.and_eq_true] at hc
    simp only [encVals] at h
    split at h
    · rename_i x y h1 h2
      cases h
      rw [List.length_append] at hl
      simp only [depthVals]
      exact Writes.append
        ((asVal hS v f f' x hn hk hc.1 (fun e => (Bool.false_ne_true (hm.symm.trans e)).elim) h1
          (by omega)).mono (Nat.le_max_left _ _))
        ((asVals hS r f f' y hn hk hc.2 hm h2 (by omega)).mono (Nat.le_max_right _ _))
    · cases h
theorem asMap {S : Schema} (hS : S.wf = true) : (kvs : List (MapKey × Value)) →
    (f kd vd : FieldDesc) → (b : Bytes) → f.number < 2 ^ 29 → kd.number < 2 ^ 29 →
    vd.number < 2 ^ 29 → confMap S kd vd kvs = true → encMapEntries S f.number kd vd kvs = some b →
    b.length < 2 ^ 64 → Writes S f (depthMap kvs) b
  | [], f, kd, vd, b, _, _, _, _, h, _ => by simp [encMapEntries] at h; subst h; exact Writes.nil
  | (k, v) :: r, f, kd, vd, b, hn, hk, hv, hc, h, hl => by
    simp only [confMap, Bool.and_eq_true] at hc
    simp only [encMapEntries] at h
    split at h
    · rename_i la lb x y z h1 h2 h3 h4 h5
      cases h
      simp only [List.length_append] at hl
      rw [encKey_len hk h3 (by omega)] at h1
      rw [lenVal_eq hS v vd y hv (conf_accepted hS v vd hc.1.2).2 h4 (by omega)] at h2
      cases h1; cases h2
      simp only [depthMap]
      refine Writes.append ?_ ((asMap hS r f kd vd z hn hk hv hc.2 h5 (by omega)).mono (Nat.le_max_right _ _))
      rw [← List.length_append]
      exact Writes.len (by rw [List.length_append]; omega)
    · cases h
theorem asSlots {S : Schema} (hS : S.wf = true) : (fs : List (Nat × Slot)) → (d : Nat) →
    (x y : Bytes) → confSlots S d fs = true → encSlots S d fs = some (x, y) →
    (x ++ y).length < 2 ^ 64 → WritesAll S d (depthSlots fs) fs x y
  | [], d, x, y, _, h, _ => by
    simp [encSlots] at h; obtain ⟨rfl, rfl⟩ := h; exact ⟨[], [], rfl, rfl, nofun⟩
  | (n, .taken) :: r, d, x, y, hc, h, hl => by
    simp only [confSlots] at hc
    simp only [encSlots] at h
    obtain ⟨us, vs, h1, h2, h3⟩ := asSlots hS r d x y hc h hl
    refine ⟨us, vs, h1, h2, fun p hp => ?_⟩
    obtain ⟨a1, a2, a3, a4, s, a5⟩ := h3 p hp
    exact ⟨a1, a2, by simpa only [depthSlots] using a3, a4, s, List.mem_cons_of_mem _ a5⟩
  | (n, .unknown u) :: r, d, x, y, hc, h, hl => by
    simp only [confSlots, Bool.and_eq_true, Option.isNone_iff_eq_none] at hc
    simp only [encSlots] at h
    split at h
    · cases h
    · rename_i a c hs
      cases h
      obtain ⟨us, vs, rfl, rfl, h3⟩ := asSlots hS r d x c hc.2 hs
        (by simp only [List.length_append] at hl ⊢; omega)
      refine ⟨us, u ++ vs, rfl, (encUSet_append u vs).symm, fun p hp => ?_⟩
      have hp' : p ∈ u ∨ p ∈ us ++ vs := by
        simp only [List.mem_append] at hp ⊢
        grind
      rcases hp' with hp' | hp'
      · have hu := hc.1.2
        simp only [unknownOk, Bool.and_eq_true, List.all_eq_true, beq_iff_eq] at hu
        have hpn := hu.1.2 p hp'
        have hw := (USet.wf_iff u).1 hu.2
        have hw2 := (Wire.USet.wf_iff u).1 hw p hp'
        refine ⟨hw2.1, hw2.2, ?_, ?_, .unknown u, ?_⟩
        · simp only [depthSlots]
          exact Nat.le_trans ((USet.depth_le u).1 (Nat.le_refl _) p hp') (Nat.le_max_left _ _)
        · refine delimited_strange (fun f hf e => ?_) _
          rw [hpn] at e
          rcases hf with hf | hf
          · rw [e, hc.1.1.1] at hf; cases hf
          · rw [e, hc.1.1.2] at hf; cases hf
        · rw [hpn]; exact List.mem_cons_self
      · obtain ⟨a1, a2, a3, a4, s, a5⟩ := h3 p hp'
        exact ⟨a1, a2, by simp only [depthSlots]; exact Nat.le_trans a3 (Nat.le_max_right _ _), a4, s,
          List.mem_cons_of_mem _ a5⟩
  | (n, .val v) :: r, d, x, y, hc, h, hl => by
    simp only [confSlots, Bool.and_eq_true] at hc
    simp only [encSlots] at h
    have part : ∀ (f : FieldDesc), Known S d f → f.number = n → FieldWf S f → confVal S f v = true →
        ∀ c : Bytes, ifPresent S (some f) v [] (fun f => encVal S f v) = some c → c.length < 2 ^ 64 →
        ∃ us : USet, c = encUSet us ∧ ∀ p ∈ us, ValidNumber p.1 ∧ p.2.Wf ∧
          p.2.depth ≤ depthVal v ∧ Delimited S d p.1 p.2 ∧ p.1 = n := by
      intro f hf hfn hwf hcv c hcc hcl
      simp only [ifPresent] at hcc
      split at hcc
      · cases hcc
      · cases hcc; exact ⟨[], rfl, nofun⟩
      · obtain ⟨us, hus, hall⟩ := asVal hS v f f c hwf.num.2 rfl hcv (isMap_value hcv) hcc hcl
        refine ⟨us, hus, fun p hp => ?_⟩
        obtain ⟨b1, b2, b3, b4⟩ := hall p hp
        refine ⟨?_, b2, b3, ?_, b1.trans hfn⟩
        · rw [b1]; exact hwf.num
        · rw [b1]; exact b4.delimited hS hf
    split at h
    · rename_i p q a c h1 h2 h3
      cases h
      simp only [List.length_append] at hl
      obtain ⟨us, vs, rfl, rfl, h4⟩ := asSlots hS r d a c hc.2 h3 (by rw [List.length_append]; omega)
      have lift : ∀ w : USet, (∀ p ∈ w, ValidNumber p.1 ∧ p.2.Wf ∧
          p.2.depth ≤ depthVal v ∧ Delimited S d p.1 p.2 ∧ p.1 = n) → ∀ p, p ∈ w ∨ p ∈ us ++ vs →
          ValidNumber p.1 ∧ p.2.Wf ∧ p.2.depth ≤ depthSlots ((n, Slot.val v) :: r) ∧
          Delimited S d p.1 p.2 ∧ ∃ s, (p.1, s) ∈ (n, Slot.val v) :: r := by
        intro w hw p hp
        simp only [depthSlots]
        rcases hp with hp | hp
        · obtain ⟨b1, b2, b3, b4, b5⟩ := hw p hp
          exact ⟨b1, b2, Nat.le_trans b3 (Nat.le_max_left _ _), b4, .val v, by rw [b5]; exact List.mem_cons_self⟩
        · obtain ⟨b1, b2, b3, b4, s, b5⟩ := h4 p hp
          exact ⟨b1, b2, Nat.le_trans b3 (Nat.le_max_right _ _), b4, s, List.mem_cons_of_mem _ b5⟩
      have hc1 := hc.1
      cases hf : S.field? d n with
      | some f =>
        have hfn := (Schema.wf_field hS hf).2
        have hwf := (Schema.wf_field hS hf).1
        rw [hf] at hc1 h1
        have hx : S.ext? d n = none := by
          cases hx : S.ext? d n with
          | none => rfl
          | some g =>
            rw [(Schema.wf_ext hS hx).2.2.1] at hf
            cases hf
        rw [hx] at h2
        simp only [ifPresent, Option.some.injEq] at h2
        subst h2
        obtain ⟨w, rfl, hw⟩ := part f (.inl (by rw [hfn]; exact hf)) hfn hwf hc1 p h1 (by omega)
        refine ⟨w ++ us, vs, (encUSet_append _ _).symm, by simp, fun p hp => ?_⟩
        refine lift w hw p ?_
        simp only [List.mem_append] at hp ⊢
        grind
      | none =>
        rw [hf] at hc1 h1
        simp only [ifPresent, Option.some.injEq] at h1
        subst h1
        cases hx : S.ext? d n with
        | none => rw [hx] at hc1; cases hc1
        | some g =>
          rw [hx] at hc1 h2
          have hgn := (Schema.wf_ext hS hx).2.1
          have hwf := (Schema.wf_ext hS hx).1
          obtain ⟨w, rfl, hw⟩ := part g (.inr (by rw [hgn]; exact hx)) hgn hwf hc1 q h2 (by omega)
          refine ⟨us, w ++ vs, by simp, (encUSet_append _ _).symm, fun p hp => ?_⟩
          refine lift w hw p ?_
          simp only [List.mem_append] at hp ⊢
          grind
    · cases h
end

theorem parsed_enc {d : Nat} : ∀ (x : USet), (∀ p ∈ x, ValidNumber p.1 ∧ p.2.Wf ∧ p.2.depth ≤ d) →
    Parsed d (encUSet x) x
  | [], _ => .nil
  | (n, u) :: r, h => by
    obtain ⟨hn, hw, hd⟩ := h (n, u) List.mem_cons_self
    simp only [encUSet, encUVal_eq, List.append_assoc]
    refine .cons (w := u.wireType) ?_ (decUVal_payload u d n (encUSet r) hd hw hn)
      (parsed_enc r (fun p hp => h p (List.mem_cons_of_mem _ hp)))
    exact decode_encode_key hn.1 hn.2 _ _

theorem parsed_unique {d : Nat} {b : Bytes} {x y : USet} (hx : Parsed d b x) (hy : Parsed d b y) : y = x := by
  have h1 := loop_of_parsed hx (b.length + 1) [] (Nat.lt_succ_self _)
  have h2 := loop_of_parsed hy (b.length + 1) [] (Nat.lt_succ_self _)
  rw [h1] at h2
  simpa using h2.symm

/-- The fields of an encoded message. -/
theorem encMsg_parsed {S : Schema} (hS : S.wf = true) {m : DynMsg} (hm : confMsg S m = true) {k : Nat}
    (hd : depthMsg m ≤ k) {b : Bytes} (hb : encMsg S m = some b) (hl : b.length < 2 ^ 64) :
    ∃ x : USet, b = encUSet x ∧ Parsed k b x ∧ DelimitedAll S m.desc x ∧
      ∀ p ∈ x, ∃ s, SMap.get? m.fields p.1 = some s := by
  unfold encMsg at hb
  split at hb
  · cases hb
  · next x y hs =>
    cases hb
    have hc : confSlots S m.desc m.fields = true := by
      unfold confMsg at hm
      simp only [Bool.and_eq_true] at hm
      exact hm.2
    obtain ⟨us, vs, rfl, rfl, h⟩ := asSlots hS m.fields m.desc x y hc hs hl
    obtain ⟨md, hC⟩ := confMsg_iff.1 hm
    rw [← encUSet_append]
    refine ⟨us ++ vs, rfl, parsed_enc _ (fun p hp => ?_), (delimitedAll_iff _).2 (fun p hp => (h p hp).2.2.2.1),
      fun p hp => ?_⟩
    · obtain ⟨a1, a2, a3, -⟩ := h p hp
      exact ⟨a1, a2, Nat.le_trans a3 hd⟩
    · obtain ⟨-, -, -, -, s, a⟩ := h p hp
      exact ⟨s, SMap.get?_of_mem hC.sorted a⟩

end Verif.Dyn
