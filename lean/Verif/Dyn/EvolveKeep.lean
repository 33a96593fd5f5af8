import Verif.Dyn.Down
/-!
An old program keeps everything a message of a later version holds.
-/
set_option autoImplicit false
namespace Verif.Dyn
open Verif.Wire

section
variable {S0 S : Schema} {ρ : Nat → Nat → Prop}

/-- The value and its type in both versions: the field itself or one element of a list. -/
def At (S : Schema) (f0 f f0' f' : FieldDesc) : Prop :=
  (f' = f ∧ f0' = f0) ∨ (f' = f.elem ∧ f0' = f0.elem ∧ isList S f = true)

theorem At.kind {f0 f f0' f' : FieldDesc} (h : At S f0 f f0' f') : f'.kind = f.kind := by
  rcases h with ⟨rfl, -⟩ | ⟨rfl, -⟩ <;> rfl
theorem At.kind0 {f0 f f0' f' : FieldDesc} (h : At S f0 f f0' f') : f0'.kind = f0.kind := by
  rcases h with ⟨-, rfl⟩ | ⟨-, rfl, -⟩ <;> rfl
theorem At.card {f0 f f0' f' : FieldDesc} (h : At S f0 f f0' f') (hc : f0.card = f.card) : f0'.card = f'.card := by
  rcases h with ⟨rfl, rfl⟩ | ⟨rfl, rfl, -⟩
  · exact hc
  · rfl
theorem At.self {f0 f f0' f' : FieldDesc} (h : At S f0 f f0' f') (hc : f'.card = .repeated) : f' = f ∧ f0' = f0 := by
  rcases h with h | ⟨rfl, -⟩
  · exact h
  · cases hc

theorem notMap_of_list {T : Schema} {g : FieldDesc} (h : isList T g = true) : isMap T g = false := by
  unfold isList at h
  simp only [Bool.and_eq_true, Bool.not_eq_true'] at h
  exact h.2

theorem rep_of_list {T : Schema} {g : FieldDesc} (h : isList T g = true) : g.card = .repeated := by
  unfold isList at h
  simp only [Bool.and_eq_true, beq_iff_eq] at h
  exact h.1

theorem rep_of_map {T : Schema} {g : FieldDesc} (h : isMap T g = true) : g.card = .repeated := by
  unfold isMap at h
  simp only [Bool.and_eq_true, beq_iff_eq] at h
  exact h.1

theorem DownL.of_flat {k0 : Kind} : ∀ {vs : List Value}, (∀ v ∈ vs, v.flat = true) → DownL S0 S k0 vs vs
  | [], _ => .nil
  | v :: r, h => .cons (.flat _ _ (h v List.mem_cons_self)) (DownL.of_flat (fun w hw => h w (List.mem_cons_of_mem _ hw)))

theorem none_known {T : Schema} {d n : Nat} (hf : T.field? d n = none) (hx : T.ext? d n = none) :
    ∀ f, Known T d f → f.number ≠ n := by
  rintro f (h | h) rfl
  · rw [hf] at h; cases h
  · rw [hx] at h; cases h

mutual
theorem heldVal (hS0 : S0.wf = true) (hS : S.wf = true) (hE : Evolves S0 S ρ) : (v : Value) →
    (f f' f0 f0' : FieldDesc) → (b : Bytes) → FieldWf S f → FieldWf S0 f0 → FieldKept S0 S ρ f0 f →
    At S f0 f f0' f' → confVal S f' v = true → encVal S f v = some b → b.length < 2 ^ 64 →
    ∃ v0 us, KeptVal S0 S f0 f f0' v b v0 us ∧ SeenV S0 S ρ (canonVal S0 f0' v0) v ∧ Down S0 S f0.kind v v0
  | .msg d fs, f, f', f0, f0', b, hw, hw0, hk, hat, hc, h, hl => by
    obtain ⟨hcard, hkind, hcm⟩ := confMsg_of_confVal hc
    rw [hat.kind] at hkind
    have hk' := hk.kind
    rw [hkind] at hk'
    obtain ⟨i0, hk0, hi⟩ := hk'.message
    have hm : isMap S f = false := by
      rcases hat with ⟨rfl, -⟩ | ⟨-, -, hL⟩
      · exact isMap_of_ne hcard
      · exact notMap_of_list hL
    have hm0 : isMap S0 f0 = false := (hk.isMap hE).trans hm
    simp only [encVal, unless_msg hw hkind, hkind] at h
    have hcs : confSlots S d fs = true := by
      unfold confMsg at hcm
      simp only [Bool.and_eq_true] at hcm
      exact hcm.2
    have hsrt : SMap.sorted fs = true := by
      unfold confMsg at hcm
      simp only [Bool.and_eq_true] at hcm
      exact hcm.1.1
    split at h
    · cases h
    · rename_i x y hs
      have hxy : (x ++ y).length < 2 ^ 64 := by
        split at h
        · cases h
          simp only [List.length_append] at hl ⊢; omega
        · split at h
          · cases h
          · cases h
            simp only [List.length_append] at hl ⊢; omega
      obtain ⟨fs0, us, vs, us0, vs0, hks, hseen, hdown⟩ := heldSlots hS0 hS hE fs i0 d x y 0 hi hsrt hcs hs hxy
      have hK := hks.msg hS0 hS hE hi hcm
      generalize lefts (us ++ vs) = X at hK
      generalize rights (us0 ++ vs0) = Y at hK
      generalize encUSet (rights us0) = x0 at hK
      generalize encUSet (rights vs0) = y0 at hK
      have hlX : (encUSet X).length < 2 ^ 64 := by rw [← hK.left]; exact hxy
      have t := Twin.msg hS hw hkind hm hK.okX hK.okY hK.delX.1 hK.delY.1 hK.len hlX hK.run
      have t0 := Twin.msg hS0 hw0 hk0 hm0 hK.okX hK.okY hK.delX.2 hK.delY.2 hK.len hlX hK.run0
      rw [hk.group] at t0
      have hcs0 : confSlots S0 i0 fs0 = true := hks.conf
      have hlen0 := lenSlots_eq hS0 fs0 i0 x0 y0 (confSlots_accepted hS0 fs0 i0 hcs0) hK.enc
        (by rw [hK.right, hK.len]; exact hlX)
      have hlen := lenSlots_eq hS fs d x y (confSlots_accepted hS fs d hcs) hs hxy
      have hcv0 : confVal S0 f0' (.msg i0 fs0) = true :=
        confVal_msg (m := ⟨i0, fs0⟩) (by rw [hat.card hk.card]; exact hcard) (by rw [hat.kind0]; exact hk0) hK.conf
      refine ⟨.msg i0 fs0, [(if f.group then .group X else .len (encUSet X),
        if f.group then .group Y else .len (encUSet Y))], ⟨hcv0, ?_, ?_, ?_, fun _ => Nat.le_refl _, ?_, ?_⟩, ?_, by
          rw [hk0]; exact .msg hdown⟩
      · simp only [encVal, unless_msg hw0 hk0, hk0, hK.enc, hlen0, hk.group, hk.number, hK.right, rgt,
          List.map_cons, List.map_nil, enc_one]
        split
        · simp only [UVal.wireType, uPayload]
        · simp only [UVal.wireType, uPayload]
      · simp only [lft, List.map_cons, List.map_nil, enc_one]
        split at h
        · rename_i hg
          cases h
          simp only [hg, if_true, UVal.wireType, uPayload, ← hK.left]
        · rename_i hg
          rw [hlen] at h
          cases h
          simp only [hg, if_false, Bool.false_eq_true, UVal.wireType, uPayload, ← hK.left]
      · simp only [depthVal]
        exact .one t t0
      · simp only [depthVal]; have := hK.depth; omega
      · rw [has_msg hw0 hk0, has_msg hw hkind]
      · simp only [canonVal]; exact hseen.msg hS0 hS hi hK.conf hcm
  | .list vs, f, f', f0, f0', b, hw, hw0, hk, hat, hc, h, hl => by
    simp only [confVal, Bool.and_eq_true] at hc
    obtain ⟨rfl, rfl⟩ := hat.self (rep_of_list hc.1)
    have hrep := rep_of_list hc.1
    have hL0 : isList S0 f0' = true := (hk.isList hE).trans hc.1
    have hrep0 := rep_of_list hL0
    by_cases hp : f'.packed = true
    · have hpk := (hw.packed hp).2
      have hp0 : f0'.packed = true := hk.packed.trans hp
      have hm : f'.kind.isMessage = false := by
        cases hkk : f'.kind <;> rw [hkk] at hpk <;> first | rfl | cases hpk
      have hel : ∀ ws : List Value, confVals S f'.elem ws = true → confVals S0 f0'.elem ws = true ∧ depthVals ws = 0 ∧
          canonVals S0 f0'.elem ws = ws ∧ ∀ w ∈ ws, w.flat = true := by
        intro ws
        induction ws with
        | nil => intro _; exact ⟨rfl, rfl, rfl, nofun⟩
        | cons w r ih =>
          intro hh
          simp only [confVals, Bool.and_eq_true] at hh ⊢
          obtain ⟨i1, i2, i3, i4⟩ := ih hh.2
          have : confVal S0 f0'.elem w = true ∧ depthVal w = 0 ∧ canonVal S0 f0'.elem w = w ∧ w.flat = true := by
            have hh1 := hh.1
            cases w with
            | msg d fs =>
              have := (confMsg_of_confVal hh1).2.1
              change f'.kind = _ at this
              rw [this] at hm; cases hm
            | list _ => simp [confVal, isList, FieldDesc.elem] at hh1
            | map _ => simp [confVal, isMap, FieldDesc.elem] at hh1
            | _ =>
              refine ⟨?_, rfl, by simp only [canonVal], rfl⟩
              simp only [confVal, Bool.and_eq_true] at hh1 ⊢
              exact ⟨rfl, (hk.kind.scalarOk _).trans hh1.2⟩
          exact ⟨⟨this.1, i1⟩, by simp only [depthVals, this.2.1, i2, Nat.max_self], by
            simp only [canonVals, this.2.2.1, i3], List.forall_mem_cons.2 ⟨this.2.2.2, i4⟩⟩
      obtain ⟨c0, dz, hcan, hflat⟩ := hel vs hc.2
      have hseen : SeenV S0 S ρ (canonVal S0 f0' (.list vs)) (.list vs) := by
        simp only [canonVal, hcan]
        refine .list rfl (fun i a b h1 h2 => ?_)
        rw [h1] at h2; cases h2
        exact .flat a (hflat a (List.mem_of_getElem? h1))
      have he0 : encVal S0 f0' (.list vs) = some b := by
        simp only [encVal, hc.1, hp, if_true] at h
        simp only [encVal, hL0, hp0, if_true, hk.unless hE (.inr hrep), hk.packedList]
        exact h
      have hconf : confVal S0 f0' (.list vs) = true := by
        simp only [confVal, Bool.and_eq_true]; exact ⟨hL0, c0⟩
      simp only [encVal, hc.1, hp, if_true] at h
      rcases unlessDefault_cases h with ⟨hv, h⟩ | ⟨hv, rfl⟩
      · unfold encPackedList at h
        rw [if_pos hpk] at h
        split at h
        · rename_i l c h1 h2
          cases h
          simp only [List.length_append] at hl
          rw [packedLenAll_eq hpk vs c h2 (by omega)] at h1
          cases h1
          have eb : encodeKey f'.number .lengthDelimited ++ (encodeVarint c.length ++ c) =
            encUSet [(f'.number, .len c)] := by rw [enc_one]; rfl
          refine ⟨.list vs, [(.len c, .len c)], ⟨hconf, by rw [he0, eb]; rfl, by rw [eb]; rfl,
            .one (Twin.refl ?_ ?_ ⟨fun _ => ⟨c, rfl⟩, nofun⟩) (Twin.refl ?_ ?_ ⟨fun _ => ⟨c, rfl⟩, nofun⟩),
            fun h => absurd hrep0 h, Nat.le_refl _, hk.hasVal hE (.inr hrep) _⟩, hseen, .list (.of_flat hflat)⟩
          all_goals first
            | (simp only [UVal.depth]; omega)
            | (simp only [UVal.Wf]; omega)
        · cases h
      · exact ⟨.list vs, [], ⟨hconf, he0, rfl, .nil, fun _ => Nat.zero_le _, Nat.le_refl _,
          hk.hasVal hE (.inr hrep) _⟩, hseen, .list (.of_flat hflat)⟩
    · have hp0 : ¬ f0'.packed = true := by rw [hk.packed]; exact hp
      simp only [encVal, hc.1, hp, if_true, Bool.false_eq_true, if_false] at h
      rcases unlessDefault_cases h with ⟨hv, h⟩ | ⟨hv, rfl⟩
      · obtain ⟨vs0, us, e1, e2, e3, e4, e5, e6, e7, e8⟩ := heldVals hS0 hS hE vs f' f0' b hw hw0 hk hc.1 hc.2 h hl
        have hhas : hasVal S0 f0' (.list vs0) = hasVal S f' (.list vs) := by
          rw [hk.hasVal hE (.inr hrep)]
          have : isDefault S f' (.list vs0) = isDefault S f' (.list vs) := by
            cases vs <;> cases vs0 <;> simp_all [isDefault, fieldDefault, Value.beq, beqVals]
          unfold hasVal
          rw [this]
        refine ⟨.list vs0, us, ⟨?_, ?_, e3, ?_, fun h => absurd hrep0 h, by simpa only [depthVal] using e6, hhas⟩, by
          simp only [canonVal]; exact .list (by rw [canonVals_length, e5]) e7, .list e8⟩
        · simp only [confVal, Bool.and_eq_true]; exact ⟨hL0, e1⟩
        · simp only [encVal, hL0, hp0, if_true, Bool.false_eq_true, if_false]
          rw [unlessDefault_present (hhas.trans hv)]
          exact e2
        · simpa only [depthVal] using e4
      · have hvs : vs = [] := by
          cases vs with
          | nil => rfl
          | cons a r =>
            exfalso
            have hpr := (hw.rep hrep).1
            simp [hasVal, hpr, isDefault, fieldDefault, hc.1, Value.beq, beqVals] at hv
        subst hvs
        refine ⟨.list [], [], ⟨?_, ?_, rfl, .nil, fun _ => Nat.zero_le _, Nat.le_refl _, hk.hasVal hE (.inr hrep) _⟩, by
          simp only [canonVal, canonVals]; exact .list rfl (by simp), .list .nil⟩
        · simp only [confVal, confVals, Bool.and_true]; exact hL0
        · simp only [encVal, hL0, hp0, if_true, Bool.false_eq_true, if_false, encVals, hk.unless hE (.inr hrep)]
          simp only [encVals] at h
          exact h
  | .map kvs, f, f', f0, f0', b, hw, hw0, hk, hat, hc, h, hl => by
    simp only [confVal, Bool.and_eq_true] at hc
    obtain ⟨rfl, rfl⟩ := hat.self (rep_of_map hc.1)
    have hrep := rep_of_map hc.1
    have hM0 : isMap S0 f0' = true := (hk.isMap hE).trans hc.1
    have hrep0 := rep_of_map hM0
    have hi : ∃ i, f'.kind = .message i := by
      have hm := hc.1
      unfold isMap at hm
      cases hk : f'.kind <;> simp [hk] at hm ⊢
    obtain ⟨i, hkind⟩ := hi
    have hk' := hk.kind
    rw [hkind] at hk'
    obtain ⟨i0, hk0, hi⟩ := hk'.message
    have hmi : S.isMapEntry i = true := by
      have hm := hc.1
      unfold isMap at hm
      simp only [hkind, Bool.and_eq_true] at hm
      exact hm.2
    obtain ⟨kd, vd, hEn⟩ := Schema.wf_entry hS hmi
    obtain ⟨kd0, vd0, hEn0, hkk, hkv⟩ := hE.mapKV hS0 hi hmi hEn.kv
    have hc2 := hc.2
    simp only [hkind, hEn.kv, Bool.and_eq_true] at hc2
    simp only [encVal, hkind, hc.1, if_true, hEn.kv] at h
    rcases unlessDefault_cases h with ⟨hv, h⟩ | ⟨hv, rfl⟩
    · obtain ⟨kvs0, us, e1, e2, e3, e4, e5, e6, e7, e8⟩ := heldMap hS0 hS hE kvs f' f0' i i0 kd vd kd0 vd0 b hkind hk0
        hc.1 hM0 hEn hEn0 hkk hkv hc2.2 h hl
      have hhas : hasVal S0 f0' (.map kvs0) = hasVal S f' (.map kvs) := by
        rw [hk.hasVal hE (.inr hrep)]
        have hlen : kvs0.length = kvs.length := by
          have := congrArg List.length e5
          simpa using this
        have hl' : isList S f' = false := by unfold isList; rw [hc.1]; simp
        have hm' := hc.1
        have : isDefault S f' (.map kvs0) = isDefault S f' (.map kvs) := by
          simp only [isDefault, fieldDefault, hl', hm', if_true, Bool.false_eq_true, if_false, Option.map_some, Value.beq]
          cases kvs <;> cases kvs0 <;> first | rfl | (simp at hlen; done) | simp
        unfold hasVal
        rw [this]
      refine ⟨.map kvs0, us, ⟨?_, ?_, e3, ?_, fun h => absurd hrep0 h, by simpa only [depthVal] using e6, hhas⟩, by
        simp only [canonVal, hk0, hEn0.kv]; exact .map (fun k => (e7 k).1) (fun k => (e7 k).2), by rw [hk0]; exact .map hEn0.kv e8⟩
      · simp only [confVal, hM0, hk0, hEn0.kv, Bool.true_and, Bool.and_eq_true]
        exact ⟨distinct_keys e5 hc2.1, e1⟩
      · simp only [encVal, hk0, hM0, hEn0.kv, if_true]
        rw [unlessDefault_present (hhas.trans hv), hk.number]
        exact e2
      · simpa only [depthVal] using e4
    · have hl' : isList S f' = false := by unfold isList; rw [hc.1]; simp
      have hvs : kvs = [] := by
        cases kvs with
        | nil => rfl
        | cons a r =>
          exfalso
          have hpr := (hw.rep hrep).1
          have hm' := hc.1
          simp [hasVal, hpr, isDefault, fieldDefault, hl', hm', Value.beq] at hv
      subst hvs
      refine ⟨.map [], [], ⟨?_, ?_, rfl, .nil, fun _ => Nat.zero_le _, Nat.le_refl _, hk.hasVal hE (.inr hrep) _⟩, by
        simp only [canonVal, hk0, hEn0.kv, canonMap]; exact .map (fun _ => rfl) (by simp [KMap.get?]), by rw [hk0]; exact .map hEn0.kv .nil⟩
      · simp only [confVal, hM0, hk0, hEn0.kv, confMap, KMap.distinct, Bool.and_self]
      · simp only [encVal, hk0, hM0, hEn0.kv, if_true, encMapEntries, hk.unless hE (.inr hrep)]
        simp only [encMapEntries] at h
        exact h
  | .bool x, f, f', f0, f0', b, hw, hw0, hk, hat, hc, h, hl =>
    (heldScalar hE hk hat.kind hat.kind0 (hat.card hk.card) (fun _ _ => by simp only [encVal])
      (fun _ _ => by simp only [confVal]) rfl rfl (fun _ _ => by simp only [canonVal]) hc h hl).elim (fun us h => ⟨_, us, h.1, h.2, .flat _ _ rfl⟩)
  | .i32 x, f, f', f0, f0', b, hw, hw0, hk, hat, hc, h, hl =>
    (heldScalar hE hk hat.kind hat.kind0 (hat.card hk.card) (fun _ _ => by simp only [encVal])
      (fun _ _ => by simp only [confVal]) rfl rfl (fun _ _ => by simp only [canonVal]) hc h hl).elim (fun us h => ⟨_, us, h.1, h.2, .flat _ _ rfl⟩)
  | .i64 x, f, f', f0, f0', b, hw, hw0, hk, hat, hc, h, hl =>
    (heldScalar hE hk hat.kind hat.kind0 (hat.card hk.card) (fun _ _ => by simp only [encVal])
      (fun _ _ => by simp only [confVal]) rfl rfl (fun _ _ => by simp only [canonVal]) hc h hl).elim (fun us h => ⟨_, us, h.1, h.2, .flat _ _ rfl⟩)
  | .u32 x, f, f', f0, f0', b, hw, hw0, hk, hat, hc, h, hl =>
    (heldScalar hE hk hat.kind hat.kind0 (hat.card hk.card) (fun _ _ => by simp only [encVal])
      (fun _ _ => by simp only [confVal]) rfl rfl (fun _ _ => by simp only [canonVal]) hc h hl).elim (fun us h => ⟨_, us, h.1, h.2, .flat _ _ rfl⟩)
  | .u64 x, f, f', f0, f0', b, hw, hw0, hk, hat, hc, h, hl =>
    (heldScalar hE hk hat.kind hat.kind0 (hat.card hk.card) (fun _ _ => by simp only [encVal])
      (fun _ _ => by simp only [confVal]) rfl rfl (fun _ _ => by simp only [canonVal]) hc h hl).elim (fun us h => ⟨_, us, h.1, h.2, .flat _ _ rfl⟩)
  | .f32 x, f, f', f0, f0', b, hw, hw0, hk, hat, hc, h, hl =>
    (heldScalar hE hk hat.kind hat.kind0 (hat.card hk.card) (fun _ _ => by simp only [encVal])
      (fun _ _ => by simp only [confVal]) rfl rfl (fun _ _ => by simp only [canonVal]) hc h hl).elim (fun us h => ⟨_, us, h.1, h.2, .flat _ _ rfl⟩)
  | .f64 x, f, f', f0, f0', b, hw, hw0, hk, hat, hc, h, hl =>
    (heldScalar hE hk hat.kind hat.kind0 (hat.card hk.card) (fun _ _ => by simp only [encVal])
      (fun _ _ => by simp only [confVal]) rfl rfl (fun _ _ => by simp only [canonVal]) hc h hl).elim (fun us h => ⟨_, us, h.1, h.2, .flat _ _ rfl⟩)
  | .str x, f, f', f0, f0', b, hw, hw0, hk, hat, hc, h, hl =>
    (heldScalar hE hk hat.kind hat.kind0 (hat.card hk.card) (fun _ _ => by simp only [encVal])
      (fun _ _ => by simp only [confVal]) rfl rfl (fun _ _ => by simp only [canonVal]) hc h hl).elim (fun us h => ⟨_, us, h.1, h.2, .flat _ _ rfl⟩)
  | .bytes x, f, f', f0, f0', b, hw, hw0, hk, hat, hc, h, hl =>
    (heldScalar hE hk hat.kind hat.kind0 (hat.card hk.card) (fun _ _ => by simp only [encVal])
      (fun _ _ => by simp only [confVal]) rfl rfl (fun _ _ => by simp only [canonVal]) hc h hl).elim (fun us h => ⟨_, us, h.1, h.2, .flat _ _ rfl⟩)
  | .enum x, f, f', f0, f0', b, hw, hw0, hk, hat, hc, h, hl =>
    (heldScalar hE hk hat.kind hat.kind0 (hat.card hk.card) (fun _ _ => by simp only [encVal])
      (fun _ _ => by simp only [confVal]) rfl rfl (fun _ _ => by simp only [canonVal]) hc h hl).elim (fun us h => ⟨_, us, h.1, h.2, .flat _ _ rfl⟩)
theorem heldVals (hS0 : S0.wf = true) (hS : S.wf = true) (hE : Evolves S0 S ρ) : (vs : List Value) →
    (f f0 : FieldDesc) → (b : Bytes) → FieldWf S f → FieldWf S0 f0 → FieldKept S0 S ρ f0 f →
    isList S f = true → confVals S f.elem vs = true → encVals S f vs = some b → b.length < 2 ^ 64 →
    ∃ vs0 us, confVals S0 f0.elem vs0 = true ∧ encVals S0 f0 vs0 = some (encUSet (rgt f.number us)) ∧
      b = encUSet (lft f.number us) ∧ Twins S0 S f0 f (depthVals vs) us ∧ vs0.length = vs.length ∧
      depthVals vs0 ≤ depthVals vs ∧
      (∀ (i : Nat) v0 v, (canonVals S0 f0.elem vs0)[i]? = some v0 → vs[i]? = some v → SeenV S0 S ρ v0 v) ∧
      DownL S0 S f0.kind vs vs0
  | [], f, f0, b, _, _, _, _, _, h, _ => by
    simp only [encVals, Option.some.injEq] at h
    subst h
    exact ⟨[], [], rfl, rfl, rfl, .nil, rfl, Nat.le_refl _, by simp, .nil⟩
  | v :: r, f, f0, b, hw, hw0, hk, hL, hc, h, hl => by
    simp only [confVals, Bool.and_eq_true] at hc
    simp only [encVals] at h
    split at h
    · rename_i x y h1 h2
      cases h
      rw [List.length_append] at hl
      obtain ⟨v0, us, K, hseen, hdown⟩ := heldVal hS0 hS hE v f f.elem f0 f0.elem x hw hw0 hk (.inr ⟨rfl, rfl, hL⟩) hc.1 h1 (by omega)
      obtain ⟨vs0, us', e1, e2, e3, e4, e5, e6, e7, e8⟩ := heldVals hS0 hS hE r f f0 y hw hw0 hk hL hc.2 h2 (by omega)
      refine ⟨v0 :: vs0, us ++ us', ?_, ?_, ?_, ?_, by simp only [List.length_cons, e5], ?_, ?_, .cons hdown e8⟩
      · simp only [confVals, K.conf, e1, Bool.and_self]
      · simp only [encVals, K.enc, e2, rgt_append, encUSet_append]
      · rw [K.left, e3, lft_append, encUSet_append]
      · simp only [depthVals]
        exact (K.twins.mono (Nat.le_max_left _ _)).append (e4.mono (Nat.le_max_right _ _))
      · simp only [depthVals]; have := K.depth; omega
      · intro j w0 w h0 h1
        cases j with
        | zero =>
          simp only [canonVals, List.getElem?_cons_zero, Option.some.injEq] at h0 h1
          subst h0; subst h1; exact hseen
        | succ j =>
          simp only [canonVals, List.getElem?_cons_succ] at h0 h1
          exact e7 j w0 w h0 h1
    · cases h
theorem heldMap (hS0 : S0.wf = true) (hS : S.wf = true) (hE : Evolves S0 S ρ) : (kvs : List (MapKey × Value)) →
    (f f0 : FieldDesc) → (i i0 : Nat) → (kd vd kd0 vd0 : FieldDesc) → (b : Bytes) → f.kind = .message i →
    f0.kind = .message i0 → isMap S f = true → isMap S0 f0 = true → EntryOk S i kd vd → EntryOk S0 i0 kd0 vd0 →
    FieldKept S0 S ρ kd0 kd → FieldKept S0 S ρ vd0 vd → confMap S kd vd kvs = true →
    encMapEntries S f.number kd vd kvs = some b → b.length < 2 ^ 64 →
    ∃ kvs0 us, confMap S0 kd0 vd0 kvs0 = true ∧
      encMapEntries S0 f.number kd0 vd0 kvs0 = some (encUSet (rgt f.number us)) ∧
      b = encUSet (lft f.number us) ∧ Twins S0 S f0 f (depthMap kvs) us ∧ kvs0.map (·.1) = kvs.map (·.1) ∧
      depthMap kvs0 ≤ depthMap kvs ∧
      (∀ k, (KMap.get? (canonMap S0 vd0 kvs0) k).isSome = (KMap.get? kvs k).isSome ∧
        ∀ v0 v, KMap.get? (canonMap S0 vd0 kvs0) k = some v0 → KMap.get? kvs k = some v → v.beq v0 = false →
          SeenV S0 S ρ v0 v) ∧ DownM S0 S vd0.kind kvs kvs0
  | [], f, f0, i, i0, kd, vd, kd0, vd0, b, _, _, _, _, _, _, _, _, _, h, _ => by
    simp only [encMapEntries, Option.some.injEq] at h
    subst h
    exact ⟨[], [], rfl, rfl, rfl, .nil, rfl, Nat.le_refl _, fun k => ⟨rfl, by simp [KMap.get?]⟩, .nil⟩
  | (k, v) :: r, f, f0, i, i0, kd, vd, kd0, vd0, b, hk, hk0, hm, hm0, hEn, hEn0, hkk, hkv, hc, h, hl => by
    simp only [confMap, Bool.and_eq_true] at hc
    simp only [encMapEntries] at h
    split at h
    · rename_i la lb x y z h1 h2 h3 h4 h5
      cases h
      simp only [List.length_append] at hl
      obtain ⟨v0, us, K, hseen, hdown⟩ := heldVal hS0 hS hE v vd vd vd0 vd0 y hEn.val.1 hEn0.val.1 hkv (.inl ⟨rfl, rfl⟩)
        hc.1.2 h4 (by omega)
      obtain ⟨kvs0, us', e1, e2, e3, e4, e5, e6, e7, e8⟩ := heldMap hS0 hS hE r f f0 i i0 kd vd kd0 vd0 z hk hk0 hm hm0
        hEn hEn0 hkk hkv hc.2 h5 (by omega)
      have hxl := encKey_len hEn.key.1.num.2 h3 (by omega)
      rw [hxl] at h1
      rw [lenVal_eq hS v vd y hEn.val.1.num.2 (conf_accepted hS v vd hc.1.2).2 h4 (by omega)] at h2
      cases h1; cases h2
      have hy0 : (encUSet (rgt vd.number us)).length = y.length := by rw [K.left]; exact K.twins.len
      have hlv0 := lenVal_eq hS0 v0 vd0 _ hEn0.val.1.num.2 (conf_accepted hS0 v0 vd0 K.conf).2 K.enc
        (by rw [hy0]; omega)
      have hkey0 : keyOk kd0.kind k = true := (hkk.kind.keyOk k).trans hc.1.1
      have henc0 : encKey kd0 k = some x := (hkk.encKey k).trans h3
      have hlk0 : lenKey kd0 k = some x.length := (hkk.lenKey k).trans hxl
      have hnum : vd.number = 2 := hEn.val.2.1
      have head : ∃ p : UVal × UVal, p.1 = .len (x ++ y) ∧ p.2 = .len (x ++ encUSet (rgt vd.number us)) ∧
          Twin S f (depthVal v) p.1 p.2 ∧ Twin S0 f0 (depthVal v) p.1 p.2 := by
        have hone := K.one hEn0.val.2.2
        refine ⟨(.len (x ++ y), .len (x ++ encUSet (rgt vd.number us))), rfl, rfl, ?_⟩
        match us, hone, K with
        | [], _, K =>
          have hy : y = [] := K.left
          subst hy
          refine ⟨Twin.refl ?_ ?_ ⟨fun _ => ⟨_, rfl⟩, nofun⟩, Twin.refl ?_ ?_ ⟨fun _ => ⟨_, rfl⟩, nofun⟩⟩
          all_goals first
            | (simp only [UVal.depth]; omega)
            | (simp only [UVal.Wf, List.append_nil]; omega)
        | [(u, u0)], _, K =>
          have hy : y = encodeKey 2 u.wireType ++ uPayload 2 u := by
            rw [K.left, hnum]; exact enc_one 2 u
          have hy' : encUSet (rgt vd.number [(u, u0)]) = encodeKey 2 u0.wireType ++ uPayload 2 u0 := by
            rw [hnum]; exact enc_one 2 u0
          have ht := K.twins (u, u0) List.mem_cons_self
          have hlen : (x ++ (encodeKey 2 u.wireType ++ uPayload 2 u)).length < 2 ^ 64 := by
            rw [← hy, List.length_append]; omega
          rw [hy', hy]
          exact ⟨Twin.entry hS hk hm hEn.kv hc.1.1 h3 ht.1 hlen,
            Twin.entry hS0 hk0 hm0 hEn0.kv hkey0 henc0 ht.2 hlen⟩
        | _ :: _ :: _, hone, _ => simp at hone
      obtain ⟨⟨p1, p2⟩, hp1, hp2, t, t0⟩ := head
      simp only at hp1 hp2 t t0
      refine ⟨(k, v0) :: kvs0, (p1, p2) :: us', ?_, ?_, ?_, ?_, ?_, ?_, ?_, .cons hdown e8⟩
      · simp only [confMap, hkey0, K.conf, e1, Bool.and_self]
      · simp only [encMapEntries, hlk0, hlv0, henc0, K.enc, e2, hp2, rgt, List.map_cons, encUSet, encUVal_eq,
          UVal.wireType, uPayload_len, List.length_append]
      · rw [e3, hp1]
        simp only [lft, List.map_cons, encUSet, encUVal_eq, UVal.wireType, uPayload_len, List.length_append]
      · simp only [depthMap]
        have h1 := Twins.one (S0 := S0) (S := S) t t0
        exact (h1.mono (Nat.le_max_left _ _)).append (e4.mono (Nat.le_max_right _ _))
      · simp only [List.map_cons, e5]
      · simp only [depthMap]; have := K.depth; omega
      · intro j
        simp only [canonMap, KMap.get?]
        by_cases hj : k = j
        · simp only [hj, if_true, Option.isSome_some, true_and, Option.some.injEq]
          rintro w0 w rfl rfl hne
          by_cases hh : hasVal S0 vd0 v0 = some true
          · simp only [hh, if_true]; exact hseen
          · exfalso
            have hp0 : hasVal S vd v ≠ some true := by rw [← K.has]; exact hh
            obtain ⟨dv, hdv, -⟩ := fieldDefault_conf hS hEn.val.1
            have hmk : vd.kind.isMessage = false := by
              cases hmk : vd.kind.isMessage with
              | false => rfl
              | true =>
                have := hEn.val.1.msg hEn.val.2.2 hmk
                exact absurd (by unfold hasVal; rw [if_pos this]) hp0
            have hdv0 : fieldDefault S0 vd0 = some dv := (hkv.fieldDefault hE (.inl hmk)).trans hdv
            simp only [hh, if_false, hdv0] at hne
            rw [beq_default hp0 hdv] at hne
            cases hne
        · simp only [hj, if_false]; exact e7 j
    · cases h
theorem heldSlots (hS0 : S0.wf = true) (hS : S.wf = true) (hE : Evolves S0 S ρ) : (fs : List (Nat × Slot)) →
    (d0 d : Nat) → (x y : Bytes) → (lo : Nat) → ρ d0 d → SMap.sortedFrom lo fs = true →
    confSlots S d fs = true → encSlots S d fs = some (x, y) → (x ++ y).length < 2 ^ 64 →
    ∃ fs0 us vs us0 vs0, KeptSlots S0 S d0 d fs x y fs0 us vs us0 vs0 ∧ SeenSlots S0 S ρ d0 d fs0 fs ∧
      DownS S0 S d0 d fs fs0
  | [], d0, d, x, y, lo, _, _, _, h, _ => by
    simp only [encSlots, Option.some.injEq, Prod.mk.injEq] at h
    obtain ⟨rfl, rfl⟩ := h
    exact ⟨[], [], [], [], [], ⟨rfl, rfl, ⟨rfl, rfl⟩, .refl _, fun _ => rfl, nofun, nofun, .refl _, Nat.le_refl _⟩,
      ⟨fun _ _ _ _ h => absurd h List.not_mem_nil, fun _ _ h => absurd h List.not_mem_nil⟩, .nil⟩
  | (n, .taken) :: r, d0, d, x, y, lo, hd, hs, hc, h, hl => by
    simp only [confSlots] at hc
    simp only [encSlots] at h
    simp only [SMap.sortedFrom, Bool.and_eq_true] at hs
    obtain ⟨fs0, us, vs, us0, vs0, K, hsn, hdn⟩ := heldSlots hS0 hS hE r d0 d x y n hd hs.2 hc h hl
    exact ⟨fs0, us, vs, us0, vs0, K.drop, hsn.hide (fun _ _ _ h => Slot.noConfusion h), .taken hdn⟩
  | (n, .unknown u) :: r, d0, d, x, y, lo, hd, hs, hc, h, hl => by
    simp only [confSlots, Bool.and_eq_true, Option.isNone_iff_eq_none] at hc
    simp only [encSlots] at h
    simp only [SMap.sortedFrom, Bool.and_eq_true] at hs
    have hnr : n ∉ r.map (·.1) := by
      intro hm
      obtain ⟨p, hp, e⟩ := List.mem_map.1 hm
      have := SMap.mem_gt hs.2 p hp
      omega
    split at h
    · cases h
    · rename_i a c hss
      cases h
      obtain ⟨fs0, us, vs, us0, vs0, K, hsn, hdn⟩ := heldSlots hS0 hS hE r d0 d x c n hd hs.2 hc.2 hss
        (by simp only [List.length_append] at hl ⊢; omega)
      have hn0 : S0.field? d0 n = none := by
        cases hf : S0.field? d0 n with
        | none => rfl
        | some g => obtain ⟨g', hg', -⟩ := hE.field hd hf; rw [hc.1.1.1] at hg'; cases hg'
      have hx0 : S0.ext? d0 n = none := by
        cases hf : S0.ext? d0 n with
        | none => rfl
        | some g => obtain ⟨g', hg', -⟩ := hE.ext hd hf; rw [hc.1.1.2] at hg'; cases hg'
      have hu := hc.1.2
      simp only [unknownOk, Bool.and_eq_true, List.all_eq_true, beq_iff_eq] at hu
      have hw := (Wire.USet.wf_iff u).1 ((USet.wf_iff u).1 hu.2)
      have hlu : lefts (u.map (fun p => (p.1, p.2, p.2))) = u := by simp [lefts, Function.comp_def]
      have hru : rights (u.map (fun p => (p.1, p.2, p.2))) = u := by simp [rights, Function.comp_def]
      refine ⟨(n, .unknown u) :: fs0, K.add' (P := _ ∧ _) ⟨hsn.unknown.hide (fun _ _ _ h => Slot.noConfusion h), .unknown hdn⟩ (s := .unknown u) (w := u.map (fun p => (p.1, p.2, p.2))) hnr ?_ false false rfl
        (by simp only [hlu, Bool.false_eq_true, if_false]) ?_ ?_ ?_⟩
      · intro t ht
        obtain ⟨p, hp, rfl⟩ := List.mem_map.1 ht
        refine ⟨hu.1.2 p hp, Pair.strange hS0 hS (hw p hp).1 (hw p hp).2 ?_ ?_ ?_ ?_⟩
        · simp only [depthSlots]
          exact Nat.le_trans ((USet.depth_le u).1 (Nat.le_refl _) p hp) (Nat.le_max_left _ _)
        · refine delimited_strange (fun f hf e => ?_) _
          rw [hu.1.2 p hp] at e
          rcases hf with hf | hf
          · rw [e, hc.1.1.1] at hf; cases hf
          · rw [e, hc.1.1.2] at hf; cases hf
        · rw [hu.1.2 p hp]; exact hn0
        · rw [hu.1.2 p hp]; exact hx0
      · simp only [encSlots, K.enc, hru, Bool.false_eq_true, if_false]
      · simp only [confSlots, hn0, hx0, hc.1.2, K.conf, Option.isNone_none, Bool.and_self]
      · simp only [depthSlots]; have := K.depth; omega
  | (n, .val v) :: r, d0, d, x, y, lo, hd, hs, hc, h, hl => by
    simp only [confSlots, Bool.and_eq_true] at hc
    simp only [encSlots] at h
    simp only [SMap.sortedFrom, Bool.and_eq_true] at hs
    have hnr : n ∉ r.map (·.1) := by
      intro hm
      obtain ⟨p, hp, e⟩ := List.mem_map.1 hm
      have := SMap.mem_gt hs.2 p hp
      omega
    split at h
    · rename_i p q a c h1 h2 h3
      cases h
      simp only [List.length_append] at hl
      obtain ⟨fs0, us, vs, us0, vs0, K, hsn, hdn⟩ := heldSlots hS0 hS hE r d0 d a c n hd hs.2 hc.2 h3
        (by rw [List.length_append]; omega)
      -- what happens to a present value of field `f`
      have strange : ∀ (f : FieldDesc) (bs : Bytes) (cc : Bool), Known S d f → f.number = n → FieldWf S f →
          confVal S f v = true → hasVal S f v = some true → encVal S f v = some bs → bs.length < 2 ^ 64 →
          S0.field? d0 n = none → S0.ext? d0 n = none →
          ∃ fs0 us vs us0 vs0, KeptSlots S0 S d0 d ((n, .val v) :: r) (if cc then bs ++ a else a)
            (if cc then c else bs ++ c) fs0 us vs us0 vs0 ∧ SeenSlots S0 S ρ d0 d fs0 ((n, .val v) :: r) ∧
            DownS S0 S d0 d ((n, .val v) :: r) fs0 := by
        intro f bs cc hf hfn hwf hcv hhas he hbl hn0 hx0
        have h0 := none_known hn0 hx0
        have hhide : ∀ w f0 f, Slot.val v = .val w → Known S0 d0 f0 → f0.number = n → Known S d f → f.number = n →
            ¬ hasVal S f w = some true := by
          intro w f0 f _ k1 k2
          rcases k1 with k1 | k1
          · rw [k2, hn0] at k1; cases k1
          · rw [k2, hx0] at k1; cases k1
        obtain ⟨w, rfl, hw⟩ := asVal hS v f f bs hwf.num.2 rfl hcv (isMap_value hcv) he hbl
        have hlu : lefts (w.map (fun p => (p.1, p.2, p.2))) = w := by simp [lefts, Function.comp_def]
        have hru : rights (w.map (fun p => (p.1, p.2, p.2))) = w := by simp [rights, Function.comp_def]
        by_cases hwn : w = []
        · subst hwn
          have e1 : (if cc then encUSet [] ++ a else a) = a := by cases cc <;> rfl
          have e2 : (if cc then c else encUSet [] ++ c) = c := by cases cc <;> rfl
          rw [e1, e2]
          exact ⟨fs0, us, vs, us0, vs0, K.drop, hsn.hide hhide, .vanish hf hfn hhas h0 he hdn⟩
        · refine ⟨(n, .unknown w) :: fs0, K.add' (P := _ ∧ _) ⟨hsn.unknown.hide hhide,
            .strange hf hfn hhas h0 he hwn (fun p hp => ⟨(hw p hp).1, (hw p hp).2.1, (hw p hp).2.2.1⟩) hdn⟩ (s := .val v) (w := w.map (fun p => (p.1, p.2, p.2))) hnr ?_ cc false
            (by rw [hlu]) (by rw [hlu]) ?_ ?_ ?_⟩
          · intro t ht
            obtain ⟨p, hp, rfl⟩ := List.mem_map.1 ht
            obtain ⟨b1, b2, b3, b4⟩ := hw p hp
            refine ⟨b1.trans hfn, Pair.strange hS0 hS ?_ b2 ?_ ?_ ?_ ?_⟩
            · rw [b1]; exact hwf.num
            · simp only [depthSlots]; exact Nat.le_trans b3 (Nat.le_max_left _ _)
            · rw [b1]; exact b4.delimited hS hf
            · rw [b1, hfn]; exact hn0
            · rw [b1, hfn]; exact hx0
          · simp only [encSlots, K.enc, hru, Bool.false_eq_true, if_false]
          · simp only [confSlots, hn0, hx0, K.conf, Option.isNone_none, Bool.and_true, Bool.true_and, unknownOk,
              Bool.and_eq_true, List.all_eq_true, beq_iff_eq, Bool.not_eq_true', List.isEmpty_eq_false_iff]
            refine ⟨⟨hwn, fun p hp => (hw p hp).1.trans hfn⟩, (USet.wf_iff w).2 ((Wire.USet.wf_iff w).2 (fun p hp => ?_))⟩
            obtain ⟨b1, b2, b3, b4⟩ := hw p hp
            exact ⟨by rw [b1]; exact hwf.num, b2⟩
          · simp only [depthSlots]
            have := K.depth
            have := (USet.depth_le (d := depthVal v) w).2 (fun p hp => (hw p hp).2.2.1)
            omega
      have known : ∀ (f f0 : FieldDesc) (bs : Bytes) (cc : Bool), Known S d f → f.number = n → FieldWf S f →
          Known S0 d0 f0 → FieldWf S0 f0 → FieldKept S0 S ρ f0 f →
          (if cc then S0.field? d0 n = some f0 ∧ S0.ext? d0 n = none else S0.field? d0 n = none ∧ S0.ext? d0 n = some f0) →
          confVal S f v = true → hasVal S f v = some true → encVal S f v = some bs → bs.length < 2 ^ 64 →
          ∃ fs0 us vs us0 vs0, KeptSlots S0 S d0 d ((n, .val v) :: r) (if cc then bs ++ a else a)
            (if cc then c else bs ++ c) fs0 us vs us0 vs0 ∧ SeenSlots S0 S ρ d0 d fs0 ((n, .val v) :: r) ∧
            DownS S0 S d0 d ((n, .val v) :: r) fs0 := by
        intro f f0 bs cc hf hfn hwf hf0 hwf0 hk hcc hcv hhas he hbl
        obtain ⟨v0, w, V, hseen, hdown⟩ := heldVal hS0 hS hE v f f f0 f0 bs hwf hwf0 hk (.inl ⟨rfl, rfl⟩) hcv he hbl
        have hlu : lefts (w.map (fun p => (n, p.1, p.2))) = lft n w := by simp [lefts, lft, Function.comp_def]
        have hru : rights (w.map (fun p => (n, p.1, p.2))) = rgt n w := by simp [rights, rgt, Function.comp_def]
        have hleft := V.left
        have henc := V.enc
        rw [hfn] at hleft henc
        have hhas0 := V.has.trans hhas
        have hshow := hsn.show hS0 hS hf hf0 hk.number hhas hhas0 hseen
        rw [hfn] at hshow
        refine ⟨(n, .val v0) :: fs0, K.add' (P := _ ∧ _) ⟨hshow, .known hf hfn hhas hf0 (hk.number.trans hfn) hdown hdn⟩ (s := .val v) (w := w.map (fun p => (n, p.1, p.2))) hnr ?_ cc cc
            (by rw [hlu, hleft]) (by rw [hlu, hleft]) ?_ ?_ ?_⟩
        · intro t ht
          obtain ⟨p, hp, rfl⟩ := List.mem_map.1 ht
          refine ⟨rfl, ?_⟩
          obtain ⟨t1, t2⟩ := V.twins p hp
          have := Pair.known hS0 hS hwf hf hf0 hk.number t1 t2
          rw [hfn] at this
          exact this.mono (by simp only [depthSlots]; exact Nat.le_max_left _ _)
        · cases cc
          · simp only [Bool.false_eq_true, if_false] at hcc
            simp only [encSlots, hcc.1, hcc.2, ifPresent, hhas0, henc, K.enc, hru, Bool.false_eq_true, if_false,
              List.nil_append]
          · simp only [if_true] at hcc
            simp only [encSlots, hcc.1, hcc.2, ifPresent, hhas0, henc, K.enc, hru, if_true, List.nil_append]
        · cases cc
          · simp only [Bool.false_eq_true, if_false] at hcc
            simp only [confSlots, hcc.1, hcc.2, V.conf, K.conf, Bool.and_self]
          · simp only [if_true] at hcc
            simp only [confSlots, hcc.1, V.conf, K.conf, Bool.and_self]
        · simp only [depthSlots]
          have := K.depth
          have := V.depth
          omega
      have hc1 := hc.1
      cases hf : S.field? d n with
      | some f =>
        have hfn := (Schema.wf_field hS hf).2
        have hwf := (Schema.wf_field hS hf).1
        have hkn : Known S d f := .inl (by rw [hfn]; exact hf)
        rw [hf] at hc1 h1
        have hx : S.ext? d n = none := by
          cases hx : S.ext? d n with
          | none => rfl
          | some g =>
            rw [(Schema.wf_ext hS hx).2.2.1] at hf
            cases hf
        have hx0 : S0.ext? d0 n = none := by
          cases hg : S0.ext? d0 n with
          | none => rfl
          | some g => obtain ⟨g', hg', -⟩ := hE.ext hd hg; rw [hx] at hg'; cases hg'
        rw [hx] at h2
        simp only [ifPresent, Option.some.injEq] at h2
        subst h2
        simp only [ifPresent] at h1
        split at h1
        · cases h1
        · rename_i hhas
          cases h1
          refine ⟨fs0, us, vs, us0, vs0, K.drop, hsn.hide (fun w g0 g e _ _ k3 k4 k5 => ?_), .absent hkn hfn (by rw [hhas]; nofun) hdn⟩
          cases e
          rw [known_same hS hkn k3 (k4.trans hfn.symm), hhas] at k5; cases k5
        · rename_i hhas
          cases hf0 : S0.field? d0 n with
          | none => simpa only [if_true, List.nil_append] using strange f p true hkn hfn hwf hc1 hhas h1 (by omega) hf0 hx0
          | some f0 =>
            obtain ⟨f', hf', hk⟩ := hE.field hd hf0
            rw [hf] at hf'
            cases hf'
            have hw0 := Schema.wf_field hS0 hf0
            simpa only [if_true, List.nil_append] using known f f0 p true hkn hfn hwf
              (.inl (by rw [hw0.2]; exact hf0)) hw0.1 hk (by simp only [if_true]; exact ⟨hf0, hx0⟩) hc1 hhas h1 (by omega)
      | none =>
        rw [hf] at hc1 h1
        simp only [ifPresent, Option.some.injEq] at h1
        subst h1
        have hf0 : S0.field? d0 n = none := by
          cases hg : S0.field? d0 n with
          | none => rfl
          | some g => obtain ⟨g', hg', -⟩ := hE.field hd hg; rw [hf] at hg'; cases hg'
        cases hx : S.ext? d n with
        | none => rw [hx] at hc1; cases hc1
        | some f =>
          rw [hx] at hc1 h2
          have hfn := (Schema.wf_ext hS hx).2.1
          have hwf := (Schema.wf_ext hS hx).1
          have hkn : Known S d f := .inr (by rw [hfn]; exact hx)
          simp only [ifPresent] at h2
          split at h2
          · cases h2
          · rename_i hhas
            cases h2
            refine ⟨fs0, us, vs, us0, vs0, K.drop, hsn.hide (fun w g0 g e _ _ k3 k4 k5 => ?_), .absent hkn hfn (by rw [hhas]; nofun) hdn⟩
            cases e
            rw [known_same hS hkn k3 (k4.trans hfn.symm), hhas] at k5; cases k5
          · rename_i hhas
            cases hx0 : S0.ext? d0 n with
            | none => simpa only [Bool.false_eq_true, if_false, List.nil_append] using
                strange f q false hkn hfn hwf hc1 hhas h2 (by omega) hf0 hx0
            | some f0 =>
              obtain ⟨f', hf', hk⟩ := hE.ext hd hx0
              rw [hx] at hf'
              cases hf'
              have hw0 := Schema.wf_ext hS0 hx0
              simpa only [Bool.false_eq_true, if_false, List.nil_append] using known f f0 q false hkn hfn hwf
                (.inr (by rw [hw0.2.1]; exact hx0)) hw0.1 hk
                (by simp only [Bool.false_eq_true, if_false]; exact ⟨hf0, hx0⟩) hc1 hhas h2 (by omega)
    · cases h
end

/-- What an old program holds for an encoded message, what it writes, and what a new one reads from it. -/
theorem held_msg (hS0 : S0.wf = true) (hS : S.wf = true) (hE : Evolves S0 S ρ) {d0 d : Nat}
    {fs : List (Nat × Slot)} (hd : ρ d0 d) (hm : confMsg S ⟨d, fs⟩ = true) (hdep : depthMsg ⟨d, fs⟩ ≤ recursionLimit)
    {b : Bytes} (hb : encMsg S ⟨d, fs⟩ = some b) (hl : b.length < 2 ^ 64) :
    ∃ fs0 b0, DownS S0 S d0 d fs fs0 ∧ confMsg S0 ⟨d0, fs0⟩ = true ∧
      decode S0 d0 b = .ok (canonMsg S0 ⟨d0, fs0⟩) ∧ confMsg S0 (canonMsg S0 ⟨d0, fs0⟩) = true ∧
      SeenV S0 S ρ (canonMsg S0 ⟨d0, fs0⟩).toValue (.msg d fs) ∧ encMsg S0 ⟨d0, fs0⟩ = some b0 ∧
      b0.length = b.length ∧ decode S d b0 = .ok (canonMsg S ⟨d, fs⟩) := by
  obtain ⟨h1, h2⟩ := decode_encMsg hS hm hdep hb hl
  simp only [depthMsg] at hdep
  have hmc := hm
  simp only [confMsg, Bool.and_eq_true] at hmc
  simp only [encMsg] at hb
  split at hb
  · cases hb
  · rename_i x y hxy
    cases hb
    obtain ⟨fs0, us, vs, us0, vs0, hK, hseen, hdown⟩ :=
      heldSlots hS0 hS hE fs d0 d x y 0 hd hmc.1.1 hmc.2 hxy hl
    have hM := hK.msg hS0 hS hE hd hm
    generalize lefts (us ++ vs) = X at hM
    generalize rights (us0 ++ vs0) = Y at hM
    have henc : encMsg S0 ⟨d0, fs0⟩ = some (encUSet Y) := by
      simp only [encMsg, hM.enc, hM.right]
    have hlen : (encUSet Y).length = (x ++ y).length := by rw [hM.left, hM.len]
    have hdep0 : depthMsg ⟨d0, fs0⟩ ≤ recursionLimit := Nat.le_trans hM.depth hdep
    obtain ⟨k1, k2⟩ := decode_encMsg hS0 hM.conf hdep0 henc (by rw [hlen]; exact hl)
    have pX : Parsed recursionLimit (x ++ y) X := by
      rw [hM.left]
      exact parsed_enc X (fun p hp => ⟨(hM.okX p hp).1, (hM.okX p hp).2.1, Nat.le_trans (hM.okX p hp).2.2 hdep⟩)
    have pY : Parsed recursionLimit (encUSet Y) Y :=
      parsed_enc Y (fun p hp => ⟨(hM.okY p hp).1, (hM.okY p hp).2.1, Nat.le_trans (hM.okY p hp).2.2 hdep⟩)
    have he : confMsg S (DynMsg.empty d) = true := confMsg_empty hm
    have he0 : confMsg S0 (DynMsg.empty d0) = true := confMsg_empty hM.conf
    refine ⟨fs0, encUSet Y, hdown, hM.conf, ?_, k2, ?_, henc, hlen, ?_⟩
    · refine (merge_iff_run hS0 he0 pX hM.delX.2).2 ?_
      exact (hM.run0 recursionLimit hdep _ he0 rfl _).2 ((merge_iff_run hS0 he0 pY hM.delY.2).1 k1)
    · exact hseen.msg hS0 hS hd hM.conf hm
    · refine (merge_iff_run hS he pY hM.delY.1).2 ?_
      exact (hM.run recursionLimit hdep _ he rfl _).1 ((merge_iff_run hS he pX hM.delX.1).1 h1)

end

/-- A message with its map entries in another order is written with as many bytes. -/
theorem JumbledS.encMsg {S : Schema} {a a' : List (Nat × Slot)} (h : JumbledS a a') {d : Nat} {b : Bytes}
    (hb : Dyn.encMsg S ⟨d, a⟩ = some b) : ∃ b', Dyn.encMsg S ⟨d, a'⟩ = some b' ∧ b'.length = b.length := by
  have hs := JumbledS.enc (S := S) a a' h d
  simp only [Dyn.encMsg] at hb ⊢
  split at hb
  · cases hb
  · rename_i x y hx
    cases hb
    rw [hx] at hs
    cases hy : encSlots S d a' with
    | none => rw [hy] at hs; cases hs
    | some p =>
      rw [hy] at hs
      simp only [SameLens, Option.map_some, Option.some.injEq, Prod.mk.injEq] at hs
      obtain ⟨h1, h2⟩ := hs
      exact ⟨_, rfl, by simp only [List.length_append]; omega⟩

mutual
/-- No map anywhere in the value has more than one entry. -/
def Value.single : Value → Bool
  | .msg _ fs => singleSlots fs
  | .list vs => singleVals vs
  | .map kvs => decide (kvs.length ≤ 1) && singleMap kvs
  | _ => true
def singleVals : List Value → Bool
  | [] => true
  | v :: r => v.single && singleVals r
def singleMap : List (MapKey × Value) → Bool
  | [] => true
  | (_, v) :: r => v.single && singleMap r
def singleSlots : List (Nat × Slot) → Bool
  | [] => true
  | (_, .val v) :: r => v.single && singleSlots r
  | (_, .taken) :: r => singleSlots r
  | (_, .unknown _) :: r => singleSlots r
end

mutual
/-- Such a value has one order only. -/
theorem Jumbled.eq_single : (v : Value) → (w : Value) → Jumbled v w → v.single = true → w = v
  | v, _, .refl _, _ => rfl
  | .msg d fs, _, .msg h, hs => by
    simp only [Value.single] at hs
    rw [JumbledS.eq_single fs _ h hs]
  | .list vs, _, .list h, hs => by
    simp only [Value.single] at hs
    rw [JumbledL.eq_single vs _ h hs]
  | .map kvs, _, .map h hp, hs => by
    simp only [Value.single, Bool.and_eq_true, decide_eq_true_eq] at hs
    rw [JumbledM.eq_single kvs _ h hs.2] at hp
    clear h
    have hl := hs.1
    match kvs, hl with
    | [], _ => rw [hp.nil_eq]
    | [p], _ => rw [List.perm_singleton.1 hp.symm]
    | _ :: _ :: _, hl => simp at hl
theorem JumbledL.eq_single : (a : List Value) → (b : List Value) → JumbledL a b → singleVals a = true → b = a
  | [], _, .nil, _ => rfl
  | v :: r, _, .cons h t, hs => by
    simp only [singleVals, Bool.and_eq_true] at hs
    rw [Jumbled.eq_single v _ h hs.1, JumbledL.eq_single r _ t hs.2]
theorem JumbledM.eq_single : (a : List (MapKey × Value)) → (b : List (MapKey × Value)) → JumbledM a b →
    singleMap a = true → b = a
  | [], _, .nil, _ => rfl
  | (k, v) :: r, _, .cons h t, hs => by
    simp only [singleMap, Bool.and_eq_true] at hs
    rw [Jumbled.eq_single v _ h hs.1, JumbledM.eq_single r _ t hs.2]
theorem JumbledS.eq_single : (a : List (Nat × Slot)) → (b : List (Nat × Slot)) → JumbledS a b →
    singleSlots a = true → b = a
  | [], _, .nil, _ => rfl
  | (n, .val v) :: r, _, .val h t, hs => by
    simp only [singleSlots, Bool.and_eq_true] at hs
    rw [Jumbled.eq_single v _ h hs.1, JumbledS.eq_single r _ t hs.2]
  | (n, .val v) :: r, _, .keep t, hs => by
    simp only [singleSlots, Bool.and_eq_true] at hs
    rw [JumbledS.eq_single r _ t hs.2]
  | (n, .taken) :: r, _, .keep t, hs => by
    simp only [singleSlots] at hs
    rw [JumbledS.eq_single r _ t hs]
  | (n, .unknown u) :: r, _, .keep t, hs => by
    simp only [singleSlots] at hs
    rw [JumbledS.eq_single r _ t hs]
end

end Verif.Dyn
