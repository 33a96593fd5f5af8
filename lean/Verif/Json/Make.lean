import Verif.Json.Leaf
import Verif.Dyn.Size
/-!
What `makeMsg` and `transcodeTo` give for the well-known types: the fields of the standard message
are those of the schema's own.
-/
set_option autoImplicit false
namespace Verif.Json
open Verif.Wire Verif.Dyn Verif.Pool

/-! ### Reading a field -/

/-- The number with the sign of a zero dropped: a field without presence that holds `-0.0` counts
as unset. -/
def plusZero : Value → Value
  | .f32 v => .f32 (if v = 0x80000000#32 then 0#32 else v)
  | .f64 v => .f64 (if v = 0x8000000000000000#64 then 0#64 else v)
  | v => v

theorem f32_zero {v : BitVec 32} : f32Eq v 0#32 = decide (v = 0#32 ∨ v = 0x80000000#32) := by
  have h1 : (v == 0#32) = decide (v.toNat = 0) := by
    rw [Bool.eq_iff_iff]; simp [← BitVec.toNat_inj]
  have h2 : (v = 0#32 ∨ v = 0x80000000#32) ↔ v.toNat % 0x80000000 = 0 := by
    have := v.isLt
    rw [← BitVec.toNat_inj, ← BitVec.toNat_inj]
    simp only [BitVec.toNat_ofNat]
    omega
  unfold f32Eq
  simp only [h2]
  rw [h1, Bool.eq_iff_iff]
  simp
  omega

theorem f64_zero {v : BitVec 64} : f64Eq v 0#64 = decide (v = 0#64 ∨ v = 0x8000000000000000#64) := by
  have h1 : (v == 0#64) = decide (v.toNat = 0) := by
    rw [Bool.eq_iff_iff]; simp [← BitVec.toNat_inj]
  have h2 : (v = 0#64 ∨ v = 0x8000000000000000#64) ↔ v.toNat % 0x8000000000000000 = 0 := by
    have := v.isLt
    rw [← BitVec.toNat_inj, ← BitVec.toNat_inj]
    simp only [BitVec.toNat_ofNat]
    omega
  unfold f64Eq
  simp only [h2]
  rw [h1, Bool.eq_iff_iff]
  simp
  omega

theorem f32_zero' {v : BitVec 32} : f32Eq v 0 = decide (v = 0#32 ∨ v = 0x80000000#32) := f32_zero
theorem f64_zero' {v : BitVec 64} : f64Eq v 0 = decide (v = 0#64 ∨ v = 0x8000000000000000#64) := f64_zero

/-- A field without presence that holds one scalar. -/
structure PlainField (f : FieldDesc) : Prop where
  presence : f.presence = false
  card : f.card ≠ .repeated
  kind : f.kind.plain = true
  default : f.default = none

theorem PlainField.get {S : Schema} {f : FieldDesc} (h : PlainField f) : fieldDefault S f = kindDefault S f.kind := by
  unfold fieldDefault
  rw [isList_of_ne h.card, isMap_of_ne h.card, h.default]
  rfl

theorem PlainField.isMessage {f : FieldDesc} (h : PlainField f) : f.kind.isMessage = false := by
  have := h.kind
  cases hk : f.kind <;> rw [hk] at this <;> first | rfl | cases this

theorem plain_has {S : Schema} {f : FieldDesc} (h : PlainField f) {v : Value} (hv : scalarOk f.kind v = true) :
    ∃ z, kindDefault S f.kind = some z ∧ plusZero z = z ∧ renVal id z = z ∧ (∀ ρ, renVal ρ v = v) ∧
      (∀ T : Schema, kindDefault T f.kind = some z) ∧
      ((hasVal S f v = some true ∧ plusZero v = v) ∨ (hasVal S f v = some false ∧ plusZero v = z)) ∧ canonVal S f v = v := by
  have hp := h.kind
  have hh : hasVal S f v = (kindDefault S f.kind).map (fun z => !(v.beq z)) := by
    unfold hasVal isDefault
    rw [h.presence, h.get]
    cases kindDefault S f.kind <;> rfl
  rw [hh]
  cases hk : f.kind <;> rw [hk] at hp hv <;> first | (cases hp; done) | skip
  all_goals cases v <;> first | (cases hv; done) | skip
  all_goals refine ⟨_, rfl, by first | rfl | decide, rfl, fun _ => rfl, fun _ => rfl, ?_, rfl⟩
  all_goals simp only [kindDefault, Option.map_some, Value.beq, plusZero, f32_zero', f64_zero', Option.some.injEq, Bool.not_eq_true', Bool.not_eq_false']
  all_goals first
    | (rename_i v; by_cases h0 : v = 0#32 ∨ v = 0x80000000#32
       · exact .inr ⟨decide_eq_true h0, by rcases h0 with rfl | rfl <;> rfl⟩
       · exact .inl ⟨decide_eq_false h0, by rw [if_neg (fun h => h0 (.inr h))]⟩)
    | (rename_i v; by_cases h0 : v = 0#64 ∨ v = 0x8000000000000000#64
       · exact .inr ⟨decide_eq_true h0, by rcases h0 with rfl | rfl <;> rfl⟩
       · exact .inl ⟨decide_eq_false h0, by rw [if_neg (fun h => h0 (.inr h))]⟩)
    | grind

theorem getValue_some {fs : FieldSet} {n : Nat} {v : Value} :
    FieldSet.getValue fs n = some v ↔ SMap.get? fs n = some (.val v) := by
  unfold FieldSet.getValue
  cases SMap.get? fs n with
  | none => simp
  | some s => cases s <;> simp

theorem canon_get {S : Schema} (hS : S.wf = true) {d : Nat} {md : MsgDesc} {fs : FieldSet} (hC : Conf S ⟨d, fs⟩ md)
    {n : Nat} {f : FieldDesc} (hf : md.getField n = some f) (hp : PlainField f) :
    DynMsg.getByNumber S md ⟨d, canonSlots S d fs⟩ n = (DynMsg.getByNumber S md ⟨d, fs⟩ n).map (Option.map plusZero) := by
  have hd : S.msg? d = some md := hC.desc
  have hn := (getField_mem hf).2
  have hkn : Known S d f := .inl (by rw [field?_eq hd, hn]; exact hf)
  simp only [DynMsg.getByNumber, hf, DynMsg.getField, FieldSet.get, getValue_canon hS hC hkn, hp.get]
  cases hg : FieldSet.getValue fs f.number with
  | none =>
    obtain ⟨-, hv⟩ := known_conf hS hC hkn
    simp only
    cases hk : f.kind <;> first | rfl | (have := hp.kind; rw [hk] at this; cases this)
  | some v =>
    obtain ⟨hfd, hv⟩ := known_conf hS hC hkn
    have hv := (hv v (getValue_some.1 hg)).1
    obtain ⟨z, hz, hz1, -, -, -, hz4, hz5⟩ := plain_has (S := S) hp (scalarOk_of_confVal hp.isMessage hp.card hv)
    rcases hz4 with ⟨h4, h4'⟩ | ⟨h4, h4'⟩
    · simp only [h4, if_true, hz5, Option.map_some, h4']
    · simp [h4, hz, h4']

theorem PlainField.sim {ρ : Nat → Nat} {I : Nat → Prop} {f g : FieldDesc} (h : PlainField f) (hs : FSim ρ I f g) :
    PlainField g ∧ g.kind = f.kind := by
  have hk : g.kind = f.kind := by
    have h1 := hs.kind
    have h2 := h.kind
    cases hf : f.kind <;> rw [hf] at h1 h2 <;> first | (cases h2; done) | exact h1
  exact ⟨⟨by rw [hs.presence]; exact h.presence, by rw [hs.card]; exact h.card, by rw [hk]; exact h.kind, hs.gdef⟩, hk⟩

theorem ren_get {S T : Schema} {ρ : Nat → Nat} {I : Nat → Prop} (hS : S.wf = true) (hE : Emb S T ρ I) {d : Nat}
    {md td : MsgDesc} (hd : I d) (htd : T.msg? (ρ d) = some td) {fs : FieldSet} (hC : Conf S ⟨d, fs⟩ md) {n : Nat}
    {f : FieldDesc} (hf : md.getField n = some f) (hp : PlainField f) :
    ∃ g, td.getField n = some g ∧ PlainField g ∧ g.kind = f.kind ∧
      DynMsg.getByNumber T td (renMsg ρ ⟨d, fs⟩) n = DynMsg.getByNumber S md ⟨d, fs⟩ n := by
  have hmd : S.msg? d = some md := hC.desc
  have h1 := hE.field hd n
  rw [field?_eq hmd, field?_eq htd, hf] at h1
  rcases h1 with ⟨h1, _⟩ | ⟨f', g, h1, h2, h3⟩
  · cases h1
  cases h1
  obtain ⟨h4, h5⟩ := hp.sim h3
  refine ⟨g, h2, h4, h5, ?_⟩
  have hn := (getField_mem hf).2
  have hkn : Known S d f := .inl (by rw [field?_eq hmd, hn]; exact hf)
  simp only [DynMsg.getByNumber, hf, h2, DynMsg.getField, FieldSet.get, renMsg, getValue_ren, h3.number, hp.get, h4.get, h5]
  cases hg : FieldSet.getValue fs f.number with
  | none =>
    simp only [Option.map_none]
    cases hk : f.kind <;> first | rfl | (have := hp.kind; rw [hk] at this; cases this)
  | some v =>
    have hv := ((known_conf hS hC hkn).2 v (getValue_some.1 hg)).1
    obtain ⟨z, -, -, -, h6, -⟩ := plain_has (S := S) hp (scalarOk_of_confVal hp.isMessage hp.card hv)
    simp only [Option.map_some, h6]

/-! ### Reading -/

/-- A message of a well-known type with the fields of the standard message: what a plain field
holds. -/
theorem make_std {S : Schema} (hS : S.wf = true) (hL : StdLike S) {d : Nat} {md : MsgDesc} {w : Wkt}
    (hmd : S.msg? d = some md) (hw : wkt? md.name = some w) {gs : FieldSet}
    (hc : confMsg stdSchema ⟨w.std, gs⟩ = true) (hdep : depthMsg ⟨w.std, gs⟩ ≤ recursionLimit)
    (hsz : ∀ b, encMsg stdSchema ⟨w.std, gs⟩ = some b → b.length < 2 ^ 64) :
    ∃ (σ : Nat → Nat) (J : Nat → Prop), Emb stdSchema S σ J ∧ J w.std ∧ σ w.std = d ∧
      makeMsg S d w gs = .ok (canonMsg S (renMsg σ ⟨w.std, gs⟩)) ∧ confMsg S (renMsg σ ⟨w.std, gs⟩) = true ∧
      confMsg S (canonMsg S (renMsg σ ⟨w.std, gs⟩)) = true := by
  obtain ⟨ρ, σ, I, J, hρ, hσ, hI, hd, hJ, hback⟩ := hL d md w hmd hw
  obtain ⟨b, hb⟩ := conf_encodes stdSchema_wf hc
  have hb2 := encMsg_ren hσ (m := ⟨w.std, gs⟩) hJ hc
  have hc4 := confMsg_ren hσ (m := ⟨w.std, gs⟩) hJ hc
  have hdep2 : depthMsg (renMsg σ ⟨w.std, gs⟩) ≤ recursionLimit := by
    simp only [depthMsg, renMsg, depthSlots_ren] at hdep ⊢
    exact hdep
  obtain ⟨hdec, hc5⟩ := decode_encMsg hS hc4 hdep2 (hb2.trans hb) (hsz b hb)
  have hdesc : σ w.std = d := by rw [← hd]; exact hback _ hI
  have hdesc2 : (renMsg σ ⟨w.std, gs⟩).desc = d := hdesc
  rw [hdesc2] at hdec
  refine ⟨σ, J, hσ, hJ, hdesc, ?_, hc4, hc5⟩
  simp only [makeMsg, hb, hdec]
  rfl

/-- The same, for what the fields without presence hold. -/
theorem make_get {S : Schema} (hS : S.wf = true) (hL : StdLike S) {d : Nat} {md : MsgDesc} {w : Wkt}
    (hmd : S.msg? d = some md) (hw : wkt? md.name = some w) {gs : FieldSet}
    (hc : confMsg stdSchema ⟨w.std, gs⟩ = true) (hdep : depthMsg ⟨w.std, gs⟩ ≤ recursionLimit)
    (hsz : ∀ b, encMsg stdSchema ⟨w.std, gs⟩ = some b → b.length < 2 ^ 64) :
    ∃ m, makeMsg S d w gs = .ok m ∧ m.desc = d ∧ confMsg S m = true ∧
      ∀ sd n f, stdSchema.msg? w.std = some sd → sd.getField n = some f → PlainField f →
        DynMsg.getByNumber S md m n = (DynMsg.getByNumber stdSchema sd ⟨w.std, gs⟩ n).map (Option.map plusZero) := by
  obtain ⟨σ, J, hσ, hJ, hd, h1, h2, h3⟩ := make_std hS hL hmd hw hc hdep hsz
  refine ⟨_, h1, hd, h3, fun sd n f hsd hf hp => ?_⟩
  obtain ⟨sd', hC⟩ := confMsg_iff.1 hc
  have hsd' : stdSchema.msg? w.std = some sd' := hC.desc
  rw [hsd] at hsd'
  cases hsd'
  have htd : S.msg? (σ w.std) = some md := by rw [hd]; exact hmd
  obtain ⟨g, hg1, hg2, -, hg4⟩ := ren_get stdSchema_wf hσ hJ htd hC hf hp
  obtain ⟨md', hC'⟩ := confMsg_iff.1 h2
  have hmd' : S.msg? (σ w.std) = some md' := hC'.desc
  rw [htd] at hmd'
  cases hmd'
  rw [← hg4]
  exact canon_get hS hC' hg1 hg2

/-! ### Writing -/

/-- The standard message of a message of a well-known type. -/
theorem to_std {S : Schema} (hS : S.wf = true) (hL : StdLike S) {m : DynMsg} {md : MsgDesc} {w : Wkt}
    (hmd : S.msg? m.desc = some md) (hw : wkt? md.name = some w)
    (hc : confMsg S m = true) (hlev : levelsSlots m.fields ≤ recursionLimit) (hsz : ∀ b, encMsg S m = some b → b.length < 2 ^ 64) :
    ∃ (ρ : Nat → Nat) (I : Nat → Prop), Emb S stdSchema ρ I ∧ I m.desc ∧ ρ m.desc = w.std ∧
      transcodeTo S w m = .ok (canonMsg stdSchema (renMsg ρ m)).fields ∧ confMsg stdSchema (renMsg ρ m) = true ∧
      confMsg stdSchema ⟨w.std, (canonMsg stdSchema (renMsg ρ m)).fields⟩ = true := by
  obtain ⟨ρ, σ, I, J, hρ, hσ, hI, hd, hJ, hback⟩ := hL m.desc md w hmd hw
  obtain ⟨b, hb⟩ := conf_encodes hS hc
  have hc1 := confMsg_ren hρ hI hc
  have hb1 := encMsg_ren hρ hI hc
  have hdep : depthMsg m ≤ recursionLimit := Nat.le_trans (depthSlots_levels _) hlev
  have hdep1 : depthMsg (renMsg ρ m) = depthMsg m := by
    simp only [depthMsg, renMsg, depthSlots_ren]
  obtain ⟨hdec, hc2⟩ := decode_encMsg stdSchema_wf hc1 (by omega) (hb1.trans hb) (hsz b hb)
  have hdesc1 : (renMsg ρ m).desc = w.std := hd
  rw [hdesc1] at hdec
  refine ⟨ρ, I, hρ, hI, hd, ?_, hc1, ?_⟩
  · have hl : levelsSlots (canonMsg stdSchema (renMsg ρ m)).fields ≤ recursionLimit := by
      have hc1' := hc1
      simp only [confMsg, Bool.and_eq_true] at hc1'
      refine Nat.le_trans (levelsSlots_canon std_mapsPresent _ _ hc1'.2) ?_
      simp only [renMsg, levelsSlots_ren]
      exact hlev
    simp only [transcodeTo, hb, hdec, ofDecode, if_pos hl]
  · have hfs : canonMsg stdSchema (renMsg ρ m) = ⟨w.std, (canonMsg stdSchema (renMsg ρ m)).fields⟩ := by
      rw [← hd]; rfl
    rw [hfs] at hc2
    exact hc2

/-- The same, for what the fields without presence hold. -/
theorem to_get {S : Schema} (hS : S.wf = true) (hL : StdLike S) {m : DynMsg} {md : MsgDesc} {w : Wkt}
    (hmd : S.msg? m.desc = some md) (hw : wkt? md.name = some w)
    (hc : confMsg S m = true) (hlev : levelsSlots m.fields ≤ recursionLimit) (hsz : ∀ b, encMsg S m = some b → b.length < 2 ^ 64) :
    ∃ fs, transcodeTo S w m = .ok fs ∧ confMsg stdSchema ⟨w.std, fs⟩ = true ∧
      ∀ sd n f, stdSchema.msg? w.std = some sd → sd.getField n = some f → PlainField f →
        DynMsg.getByNumber stdSchema sd ⟨w.std, fs⟩ n = (DynMsg.getByNumber S md m n).map (Option.map plusZero) := by
  obtain ⟨ρ, I, hρ, hI, hd, h1, h2, h3⟩ := to_std hS hL hmd hw hc hlev hsz
  refine ⟨_, h1, h3, fun sd n f hsd hf hp => ?_⟩
  obtain ⟨md', hC⟩ := confMsg_iff.1 hc
  have hmd' : S.msg? m.desc = some md' := hC.desc
  rw [hmd] at hmd'
  cases hmd'
  have htd : stdSchema.msg? (ρ m.desc) = some sd := by rw [hd]; exact hsd
  have h4 := hρ.field hI n
  rw [field?_eq hmd, field?_eq htd, hf] at h4
  rcases h4 with ⟨_, h4⟩ | ⟨f0, g, h4, h5, h6⟩
  · cases h4
  cases h5
  have hp0 : PlainField f0 := by
    refine ⟨by rw [← h6.presence]; exact hp.presence, by rw [← h6.card]; exact hp.card, ?_, h6.fdef⟩
    have h7 := h6.kind
    have h8 := hp.kind
    cases hk : f0.kind <;> rw [hk] at h7 <;> first | rfl | skip
    · obtain ⟨-, h7⟩ := h7
      rw [h7] at h8; cases h8
    · obtain ⟨e, h7⟩ := h7
      rw [h7] at h8; cases h8
  obtain ⟨g, hg1, hg2, -, hg4⟩ := ren_get hS hρ hI htd hC h4 hp0
  obtain ⟨sd', hC'⟩ := confMsg_iff.1 h2
  have hsd' : stdSchema.msg? (ρ m.desc) = some sd' := hC'.desc
  rw [htd] at hsd'
  cases hsd'
  rw [← hg4]
  have := canon_get stdSchema_wf hC' hg1 hg2
  rw [← hd]
  exact this

end Verif.Json
