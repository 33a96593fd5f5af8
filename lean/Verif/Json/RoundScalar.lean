import Verif.Json.Object
import Verif.Text.RoundTrip
import Verif.Props.JsonInts
import Verif.Props.JsonBytes
/-!
Written scalars and map keys read back.
-/
set_option autoImplicit false
namespace Verif.Json
open Verif.Wire Verif.Dyn Verif.Pool Verif.Props
open Verif.Text (Pairs byName_mem)

/-- The `f32` that survives JSON text: any but the largest and the smallest
(`C43_float_max_false`) and `±7.038531e-26` (`C43_float_false`). -/
def f32Ok (v : BitVec 32) : Prop :=
  v ≠ 0x7F7FFFFF#32 ∧ v ≠ 0xFF7FFFFF#32 ∧ v ≠ 0x15AE43FD#32 ∧ v ≠ 0x95AE43FD#32

instance (v : BitVec 32) : Decidable (f32Ok v) := by unfold f32Ok; infer_instance

/-- What is assumed of floating point: a finite `f32` other than four (`f32Ok`) comes back
from JSON text as a double within range that is cast to it again; the standard library, should
it accept the names of the infinities and of NaN, reads them as such. -/
structure JFloatSpec (env : JEnv) : Prop where
  fin32 : ∀ v, finite32 v = true → f32Ok v → outOfF32 (env.widen v) = false ∧ env.narrow (env.widen v) = v
  inf32 : ∀ v, env.parse32 infText = some v → v = 0x7F800000#32
  ninf32 : ∀ v, env.parse32 ninfText = some v → v = 0xFF800000#32
  nan32 : ∀ v, env.parse32 nanText = some v → isNan32 v = true
  inf64 : ∀ v, env.parse64 infText = some v → v = 0x7FF0000000000000#64
  ninf64 : ∀ v, env.parse64 ninfText = some v → v = 0xFFF0000000000000#64
  nan64 : ∀ v, env.parse64 nanText = some v → isNan64 v = true

/-- `enumName` gives a declared name of the number. -/
def JNamesEnums (env : JEnv) : Prop :=
  ∀ ed v n, env.enumName ed v = some n → (n, v) ∈ ed.values

theorem nan32_of {v : BitVec 32} (h1 : finite32 v = false) (h2 : v ≠ 0x7F800000#32)
    (h3 : v ≠ 0xFF800000#32) : isNan32 v = true := by
  simp only [finite32, decide_eq_false_iff_not] at h1
  simp only [isNan32, decide_eq_true_eq]
  have h2' : v.toNat ≠ 0x7F800000 := fun h => h2 (BitVec.eq_of_toNat_eq h)
  have h3' : v.toNat ≠ 0xFF800000 := fun h => h3 (BitVec.eq_of_toNat_eq h)
  have := v.isLt
  omega

theorem nan64_of {v : BitVec 64} (h1 : finite64 v = false) (h2 : v ≠ 0x7FF0000000000000#64)
    (h3 : v ≠ 0xFFF0000000000000#64) : isNan64 v = true := by
  have h1' : ¬ (v.toNat % 2 ^ 63 < 0x7FF0000000000000) := by
    simp only [finite64, expBits, bne_eq_false_iff_eq] at h1
    omega
  simp only [isNan64, decide_eq_true_eq]
  have h2' : v.toNat ≠ 0x7FF0000000000000 := fun h => h2 (BitVec.eq_of_toNat_eq h)
  have h3' : v.toNat ≠ 0xFFF0000000000000 := fun h => h3 (BitVec.eq_of_toNat_eq h)
  have := v.isLt
  omega

theorem visitFloat_ser {env : JEnv} (hF : JFloatSpec env) {v : BitVec 32} (hv : f32Ok v) :
    ∃ w, visitFloat env (serF32 env v) = .ok w ∧ (w = v ∨ isNan32 v = true ∧ isNan32 w = true) := by
  unfold serF32
  by_cases h1 : finite32 v = true
  · rw [if_pos h1]
    obtain ⟨h2, h3⟩ := hF.fin32 v h1 hv
    exact ⟨v, by simp [visitFloat, h2, h3], .inl rfl⟩
  · rw [if_neg h1]
    by_cases h2 : v = 0x7F800000#32
    · rw [if_pos h2]
      simp only [visitFloat]
      split
      · rename_i w hw
        exact ⟨w, rfl, .inl (by rw [hF.inf32 w hw, h2])⟩
      · exact ⟨v, by simp [h2], .inl rfl⟩
    · rw [if_neg h2]
      by_cases h3 : v = 0xFF800000#32
      · rw [if_pos h3]
        simp only [visitFloat]
        split
        · rename_i w hw
          exact ⟨w, rfl, .inl (by rw [hF.ninf32 w hw, h3])⟩
        · exact ⟨v, by simp [h3, show ninfText ≠ infText by decide], .inl rfl⟩
      · rw [if_neg h3]
        have hn := nan32_of (by simpa using h1) h2 h3
        simp only [visitFloat]
        split
        · rename_i w hw
          exact ⟨w, rfl, .inr ⟨hn, hF.nan32 w hw⟩⟩
        · exact ⟨_, by rw [if_neg (by decide), if_neg (by decide), if_pos trivial], .inr ⟨hn, by decide⟩⟩

theorem visitDouble_ser {env : JEnv} (hF : JFloatSpec env) (v : BitVec 64) :
    ∃ w, visitDouble env (serF64 v) = .ok w ∧ (w = v ∨ isNan64 v = true ∧ isNan64 w = true) := by
  unfold serF64
  by_cases h1 : finite64 v = true
  · rw [if_pos h1]
    exact ⟨v, rfl, .inl rfl⟩
  · rw [if_neg h1]
    by_cases h2 : v = 0x7FF0000000000000#64
    · rw [if_pos h2]
      simp only [visitDouble]
      split
      · rename_i w hw
        exact ⟨w, rfl, .inl (by rw [hF.inf64 w hw, h2])⟩
      · exact ⟨v, by simp [h2], .inl rfl⟩
    · rw [if_neg h2]
      by_cases h3 : v = 0xFFF0000000000000#64
      · rw [if_pos h3]
        simp only [visitDouble]
        split
        · rename_i w hw
          exact ⟨w, rfl, .inl (by rw [hF.ninf64 w hw, h3])⟩
        · exact ⟨v, by simp [h3, show ninfText ≠ infText by decide], .inl rfl⟩
      · rw [if_neg h3]
        have hn := nan64_of (by simpa using h1) h2 h3
        simp only [visitDouble]
        split
        · rename_i w hw
          exact ⟨w, rfl, .inr ⟨hn, hF.nan64 w hw⟩⟩
        · exact ⟨_, by rw [if_neg (by decide), if_neg (by decide), if_pos trivial], .inr ⟨hn, by decide⟩⟩

/-! ### Integers -/

theorem natNumeral_dec (n : Nat) : NatNumeral (decDigits n) n := by
  obtain ⟨h1, h2, h3⟩ := decDigits_spec n
  exact ⟨_, .inl rfl, h1, h2, h3.symm⟩

theorem intNumeral_dec (v : Int) : IntNumeral (decInt v) v := by
  obtain ⟨h1, h2, h3⟩ := decDigits_spec v.natAbs
  refine ⟨_, h1, h2, ?_⟩
  unfold decInt
  split
  · exact .inr ⟨rfl, by omega⟩
  · exact .inl ⟨.inl rfl, by omega⟩

theorem decDigits_no_minus (n : Nat) (s : List Char) : decDigits n ≠ '-' :: s := by
  intro h
  have := (decDigits_spec n).2.1 '-' (by rw [h]; simp)
  exact minus_not_digit this

theorem intValue_ofInt {v : Int} (h1 : -2 ^ 63 ≤ v) (h2 : v < 2 ^ 63) : IntValue (.ofInt v) v := by
  unfold Json.ofInt
  split
  · simp only [IntValue]
    rw [BitVec.toInt_ofInt_eq_self (by decide) (by omega) (by omega)]
  · simp only [IntValue, BitVec.toNat_ofInt]
    omega

theorem toInt32_bounds (v : BitVec 32) : -2 ^ 31 ≤ v.toInt ∧ v.toInt < 2 ^ 31 := by
  have h1 := BitVec.le_toInt v
  have h2 := BitVec.toInt_lt (x := v)
  simp only [Nat.add_one_sub_one] at h1 h2
  omega

theorem visitI32_ser (v : BitVec 32) : visitI32 (.ofInt v.toInt) = .ok v := by
  have := toInt32_bounds v
  exact (C41_int32 _ v).2 (intValue_ofInt (by omega) (by omega))

theorem visitU32_ser (v : BitVec 32) : visitU32 (.uint (v.setWidth 64)) = .ok v := by
  refine (C41_uint32_partial _ (fun _ h => by cases h) v).2 ?_
  simp only [IntValue, BitVec.toNat_setWidth]
  have := v.isLt
  omega

theorem toInt64_bounds (v : BitVec 64) : -2 ^ 63 ≤ v.toInt ∧ v.toInt < 2 ^ 63 := by
  have h1 := BitVec.le_toInt v
  have h2 := BitVec.toInt_lt (x := v)
  simp only [Nat.add_one_sub_one] at h1 h2
  omega

theorem intValue_unique {j : Json} {a b : Int} (hj : ∀ x, j ≠ .float x) (ha : IntValue j a) (hb : IntValue j b) :
    a = b := by
  cases j with
  | float x => exact absurd rfl (hj x)
  | uint v => exact ha.trans hb.symm
  | sint v => exact ha.trans hb.symm
  | str s =>
    obtain ⟨d1, _, h1, h2⟩ := ha
    obtain ⟨d2, _, h3, h4⟩ := hb
    have e : ∀ {d : List Char} {c : Char} {r : List Char}, (∀ c ∈ d, isDigit c) → d = c :: r → isDigit c := by
      intro d c r h e; exact h c (by rw [e]; simp)
    rcases h2 with ⟨h2 | h2, ha⟩ | ⟨h2, ha⟩ <;> rcases h4 with ⟨h4 | h4, hb⟩ | ⟨h4, hb⟩
    · rw [ha, hb, ← h2, ← h4]
    · exact absurd (e h1 (h2.symm.trans h4)) plus_not_digit
    · exact absurd (e h1 (h2.symm.trans h4)) minus_not_digit
    · exact absurd (e h3 (h4.symm.trans h2)) plus_not_digit
    · rw [h2] at h4; cases h4; rw [ha, hb]
    · rw [h2] at h4; cases h4
    · exact absurd (e h3 (h4.symm.trans h2)) minus_not_digit
    · rw [h2] at h4; cases h4
    · rw [h2] at h4; cases h4; rw [ha, hb]
  | null => cases ha
  | bool b => cases ha
  | arr xs => cases ha
  | obj es => cases ha

theorem visitI64_ser (o : SOpts) (v : BitVec 64) : visitI64 (serI64 o v) = .ok v := by
  have hb := toInt64_bounds v
  have key : IntValue (serI64 o v) v.toInt ∧ ∀ x, serI64 o v ≠ .float x := by
    unfold serI64
    split
    · exact ⟨intNumeral_dec _, nofun⟩
    · refine ⟨intValue_ofInt hb.1 hb.2, ?_⟩
      unfold Json.ofInt
      split <;> exact nofun
  refine (C41_int64_partial _ (fun h => ?_) v).2 key.1
  have := intValue_unique key.2 key.1 h
  omega

theorem visitU64_ser (o : SOpts) (v : BitVec 64) : visitU64 (serU64 o v) = .ok v := by
  have hb := v.isLt
  have key : IntValue (serU64 o v) v.toNat ∧ (∀ x, serU64 o v ≠ .float x) ∧ ∀ s, serU64 o v ≠ .str ('-' :: s) := by
    unfold serU64
    split
    · refine ⟨?_, nofun, fun s h => ?_⟩
      · obtain ⟨h1, h2, h3⟩ := decDigits_spec v.toNat
        exact ⟨_, h1, h2, .inl ⟨.inl rfl, by rw [h3]⟩⟩
      · exact decDigits_no_minus _ s (Json.str.inj h)
    · exact ⟨rfl, nofun, nofun⟩
  refine (C41_uint64_partial _ key.2.2 (fun h => ?_) v).2 key.1
  have := intValue_unique key.2.1 key.1 h
  omega

/-! ### Enums -/

theorem enumNumber_mem {ed : EnumDesc} (hn : (ed.values.map (·.1)).Nodup) {n : Name} {v : BitVec 32}
    (h : (n, v) ∈ ed.values) : enumNumber ed n = some v := by
  unfold enumNumber
  rw [byName_mem hn h]
  rfl

theorem visitEnum_ofInt (o : DOpts) (ed : EnumDesc) (v : BitVec 32) :
    visitEnum o ed (.ofInt v.toInt) = .ok (some v) := by
  have hb := toInt32_bounds v
  have ht : ∀ x : Int, x = v.toInt →
      (tryInto (-2 ^ 31) (2 ^ 31 - 1) x).map (fun v => some (BitVec.ofInt 32 v)) = .ok (some v) := by
    rintro _ rfl
    unfold tryInto
    rw [if_pos (by omega)]
    simp [Except.map]
  unfold Json.ofInt
  split
  · refine ht _ ?_
    rw [BitVec.toInt_ofInt_eq_self (by decide) (by omega) (by omega)]
  · refine ht _ ?_
    simp only [BitVec.toNat_ofInt]
    omega

theorem deEnum_ser {env : JEnv} (hN : JNamesEnums env) {S : Schema} {so : SOpts} (o : DOpts) {e : Nat}
    {ed : EnumDesc} (he : S.enums[e]? = some ed) (hn : (ed.values.map (·.1)).Nodup)
    (hnull : ed.name ≠ nullName) {v : BitVec 32} {j : Json} (h : serEnum env S so (.enum e) v = .ok j) :
    deEnum S o e j = .ok (some (.enum v)) := by
  unfold deEnum
  simp only [he, if_neg hnull]
  have : visitEnum o ed j = .ok (some v) := by
    simp only [serEnum, he, if_neg hnull] at h
    split at h
    · cases h; exact visitEnum_ofInt o ed v
    · split at h
      · rename_i n hn'
        cases h
        simp only [visitEnum, enumNumber_mem hn (hN _ _ _ hn')]
      · cases h; exact visitEnum_ofInt o ed v
  rw [this]
  rfl

/-! ### Strings and keys -/

theorem strOf_ok {b : Bytes} {s : List Char} (h : strOf b = .ok s) : utf8Encode s = b := by
  unfold strOf at h
  split at h
  · rename_i t ht
    cases h
    exact utf8Encode_decode _ _ ht
  · cases h

theorem deKey_ser {kind : Kind} {k : MapKey} (hk : keyOk kind k = true) {s : List Char}
    (h : serKey k = .ok s) : deKey kind s = .ok k := by
  have e1 : ∀ v : BitVec 32, parseSigned 32 (decInt v.toInt) = some v :=
    fun v => (parseSigned_iff (by decide)).2 (intNumeral_dec _)
  have e2 : ∀ v : BitVec 64, parseSigned 64 (decInt v.toInt) = some v :=
    fun v => (parseSigned_iff (by decide)).2 (intNumeral_dec _)
  have e3 : ∀ v : BitVec 32, parseUnsigned 32 (decDigits v.toNat) = some v :=
    fun v => parseUnsigned_iff.2 (natNumeral_dec _)
  have e4 : ∀ v : BitVec 64, parseUnsigned 64 (decDigits v.toNat) = some v :=
    fun v => parseUnsigned_iff.2 (natNumeral_dec _)
  cases k with
  | bool b =>
    cases h
    cases kind <;> first | (cases b <;> rfl) | cases hk
  | i32 v => cases h; cases kind <;> first | (simp only [deKey, e1]; rfl) | cases hk
  | i64 v => cases h; cases kind <;> first | (simp only [deKey, e2]; rfl) | cases hk
  | u32 v => cases h; cases kind <;> first | (simp only [deKey, e3]; rfl) | cases hk
  | u64 v => cases h; cases kind <;> first | (simp only [deKey, e4]; rfl) | cases hk
  | str b =>
    have := strOf_ok h
    cases kind <;> first | (cases hk; done) | (simp only [deKey, this])

/-! ### Scalars -/

/-- What is required of the value itself. -/
def scalarKeep : Value → Prop
  | .f32 v => f32Ok v
  | _ => True

/-- A written scalar reads back. -/
theorem deScalar_ser {env : JEnv} (hF : JFloatSpec env) {S : Schema} {pay : Payloads} {so : SOpts} {kind : Kind} {v : Value}
    (hv : scalarOk kind v = true) (he : ∀ e, kind ≠ .enum e) (hk : scalarKeep v) {j : Json}
    (h : serScalar env S so kind v = .ok j) :
    ∃ w, deScalar env kind j = .ok w ∧ AlikeBy S pay v w ∧ scalarOk kind w = true := by
  cases v with
  | bool b =>
    cases h
    cases kind <;> first | exact ⟨_, rfl, .refl _, rfl⟩ | cases hv
  | i32 v =>
    cases h
    cases kind <;> first | exact ⟨.i32 v, by simp only [deScalar, visitI32_ser]; rfl, .refl _, rfl⟩ | cases hv
  | i64 v =>
    cases h
    cases kind <;> first | exact ⟨.i64 v, by simp only [deScalar, visitI64_ser]; rfl, .refl _, rfl⟩ | cases hv
  | u32 v =>
    cases h
    cases kind <;> first | exact ⟨.u32 v, by simp only [deScalar, visitU32_ser]; rfl, .refl _, rfl⟩ | cases hv
  | u64 v =>
    cases h
    cases kind <;> first | exact ⟨.u64 v, by simp only [deScalar, visitU64_ser]; rfl, .refl _, rfl⟩ | cases hv
  | f32 v =>
    cases h
    obtain ⟨w, h1, h2⟩ := visitFloat_ser hF hk
    have hA : AlikeBy S pay (.f32 v) (.f32 w) := by
      rcases h2 with rfl | ⟨a, b⟩
      · exact .refl _
      · exact .nan32 a b
    cases kind <;> first | exact ⟨.f32 w, by simp only [deScalar, h1]; rfl, hA, rfl⟩ | cases hv
  | f64 v =>
    cases h
    obtain ⟨w, h1, h2⟩ := visitDouble_ser hF v
    have hA : AlikeBy S pay (.f64 v) (.f64 w) := by
      rcases h2 with rfl | ⟨a, b⟩
      · exact .refl _
      · exact .nan64 a b
    cases kind <;> first | exact ⟨.f64 w, by simp only [deScalar, h1]; rfl, hA, rfl⟩ | cases hv
  | str b =>
    obtain ⟨s, hs, rfl⟩ := except_map_ok.1 h
    have := strOf_ok hs
    cases kind <;> first
      | exact ⟨.str b, by simp only [deScalar, visitString, this]; rfl, .refl _, hv⟩
      | cases hv
  | bytes b =>
    cases h
    cases kind <;> first
      | exact ⟨.bytes b, by simp only [deScalar, visitBytes, C42_roundtrip]; rfl, .refl _, rfl⟩
      | cases hv
  | enum v =>
    cases kind <;> first | exact absurd rfl (he _) | cases hv
  | msg d fs => cases h
  | list vs => cases h
  | map kvs => cases h

end Verif.Json
