import Verif.Json.Writes
import Verif.Json.DecEq
import Verif.Props.JsonSafe
/-!
The JSON round-trip (C43).
-/
set_option autoImplicit false
namespace Verif.Props
open Verif.Wire Verif.Dyn Verif.Pool Verif.Json

/-- With no message of a well-known type about, nothing is asked of those. -/
theorem leaf_ordinary (env : JEnv) (S : Schema) (so : SOpts) (o : DOpts) : LeafOk env S so o (Ordinary S) noPay := by
  intro m md k K j hmd hw _ ho
  rw [ho md hmd] at hw
  cases hw

/-- C43: a conforming message with no well-known types in it is written with any options once the
stack allows two levels per nested message, and what was written is read with any options and the
same descriptor as a message of the same type that is alike: the same fields and extensions are
present, with alike values.
Missing: messages of well-known types.  Excluded, because the property fails there: the largest
finite `float` (`C43_float_max_false`), the `float` `7.038531e-26` (`C43_float_false`), their
negatives, and fields of type `NullValue` (`C43_null_false`), which
`jsonWf` forbids; it also asks that JSON names and enum value names are distinct, as a pool ensures
(`C68_json`).  When the declared names are written, none of them may be the JSON name of another
field (`C43_names_false`). -/
theorem C43_roundtrip_partial {env : JEnv} {S : Schema} (hwf : S.wf = true) (hnames : jsonWf S = true)
    {so : SOpts} (hcross : so.protoNames = true → namesApart S = true) (hfloats : JFloatSpec env)
    (henums : JNamesEnums env) (o : DOpts) {m : DynMsg} (hm : confMsg S m = true) (ho : Ordinary S m) (hk : keepSlots f32Ok (Ordinary S) m.fields)
    {k : Nat} (hd : 2 * depthMsg m + 2 ≤ k) :
    ∃ j m', toJson env S so k m = .ok j ∧ fromJson env S o k m.desc j = .ok m' ∧ m'.desc = m.desc ∧
      AlikeMsg S m m' ∧ confMsg S m' = true := by
  obtain ⟨j, hj⟩ := toJson_total (env := env) (so := so) hwf hnames hm ho hk hd
  obtain ⟨m', h⟩ := json_reads ⟨hwf, hnames, hcross, hfloats, henums, leaf_ordinary env S so o⟩ (Nat.le_refl k) hm ho hk hj
  exact ⟨j, m', hj, h⟩

/-! ### The hypotheses can be met -/

/-- Floats for the examples: a `float` is its bits. -/
def jToy : JEnv := { jEnv with
  widen := fun v => v.setWidth 64
  narrow := fun v => v.setWidth 32 }

theorem jToy_floats : JFloatSpec jToy where
  fin32 v h _ := by
    have e : (jToy.widen v).toNat = v.toNat := by
      show (v.setWidth 64).toNat = v.toNat
      rw [BitVec.toNat_setWidth]
      have := v.isLt
      omega
    constructor
    · have hv := v.isLt
      have h1 : expBits (jToy.widen v) = 0 := by simp only [expBits, e]; omega
      have h2 : manBits (jToy.widen v) < 2 ^ 52 := by simp only [manBits, e]; omega
      have h3 : 2 ^ 52 ≤ maxF32 := by decide +kernel
      have h4 : finite64 (jToy.widen v) = true := by simp [finite64, h1]
      simp only [outOfF32, h4, if_true, units, h1, decide_eq_false_iff_not]
      omega
    · show (v.setWidth 64).setWidth 32 = v
      apply BitVec.eq_of_toNat_eq
      simp only [BitVec.toNat_setWidth]
      have := v.isLt
      omega
  inf32 := nofun
  ninf32 := nofun
  nan32 := nofun
  inf64 := nofun
  ninf64 := nofun
  nan64 := nofun

theorem jToy_enums : JNamesEnums jToy := by
  intro ed v n h
  simp only [jToy, jEnv, Option.map_eq_some_iff] at h
  obtain ⟨⟨a, b⟩, h, rfl⟩ := h
  have h1 := List.find?_some h
  have h2 := List.mem_of_find?_eq_some h
  simp only [beq_iff_eq] at h1
  subst h1
  exact h2

example : jsonWf Ex.schema = true := by decide +kernel
theorem ex_ordinary (m : DynMsg) : Ordinary Ex.schema m := by
  intro md h
  have : Ex.schema.msgs.all (fun md => wkt? md.name == none) = true := by decide +kernel
  exact eq_of_beq (List.all_eq_true.1 this md (List.mem_of_getElem? h))
example : keepSlots f32Ok (Ordinary Ex.schema) Ex.big.fields := by
  simp [Ex.big, Ex.small, keepSlots, keepVal, keepVals, keepMap, ex_ordinary, DynMsg.toValue]
example : (toJson jToy Ex.schema .default 9 Ex.big).isOk = true := by decide +kernel

/-! ### Where it fails -/

/-- C43 does not hold for `f32::MAX`: `serde_json` writes `3.4028235e38`, the shortest text that
rounds to it, which as an `f64` lies above `f32::MAX` and is rejected as out of range. -/
theorem C43_float_max_false {env : JEnv} (hw : env.widen 0x7F7FFFFF#32 = 0x47EFFFFFE54DAFF8#64) :
    (oneSchema .float).wf = true ∧ jsonWf (oneSchema .float) = true ∧
    ∃ m, confMsg (oneSchema .float) m = true ∧
      ∀ so o k, ∃ j, toJson env (oneSchema .float) so (k + 1) m = .ok j ∧
        fromJson env (oneSchema .float) o (k + 1) m.desc j = .error .err := by
  refine ⟨by decide +kernel, by decide +kernel, ⟨0, [(1, .val (.f32 0x7F7FFFFF#32))]⟩, by decide +kernel,
    fun so o k => ⟨.obj [(fieldKey so (Ex.fld 1 "n" .float), .float 0x47EFFFFFE54DAFF8#64)], ?_, ?_⟩⟩
  · have h1 : serVal env (oneSchema .float) so (k + 1) .float (.f32 0x7F7FFFFF#32) =
        .ok (.float 0x47EFFFFFE54DAFF8#64) := by
      simp only [serVal, serScalar, serF32]
      rw [hw]
      rfl
    have h2 : ∀ b, iter (oneSchema .float) ⟨"t.N".toList, [Ex.fld 1 "n" .float], false, []⟩ b
        [(1, .val (.f32 0x7F7FFFFF#32))] = some [.field (Ex.fld 1 "n" .float) (.f32 0x7F7FFFFF#32)] := by
      decide +kernel
    have h3 : (oneSchema .float).msg? 0 = some ⟨"t.N".toList, [Ex.fld 1 "n" .float], false, []⟩ := rfl
    have h4 : wkt? "t.N".toList = none := by decide +kernel
    have h5 : (Ex.fld 1 "n" .float).kind = .float := rfl
    simp only [toJson, serMsg, h3, h4, serFields, h2, mapE, serItem, h5, h1]
    rfl
  · have h1 : (oneSchema .float).msg? 0 = some ⟨"t.N".toList, [Ex.fld 1 "n" .float], false, []⟩ := rfl
    have h2 : wkt? "t.N".toList = none := by decide +kernel
    have h3 : fieldKey so (Ex.fld 1 "n" .float) = "n".toList := by
      cases so with
      | mk a b c d => cases c <;> rfl
    have h4 : keyField ⟨"t.N".toList, [Ex.fld 1 "n" .float], false, []⟩ "n".toList =
      some (Ex.fld 1 "n" .float) := rfl
    have h5 : outOfF32 0x47EFFFFFE54DAFF8#64 = true := by decide +kernel
    have h6 : isList (oneSchema .float) (Ex.fld 1 "n" .float) = false := by decide +kernel
    have h7 : isMap (oneSchema .float) (Ex.fld 1 "n" .float) = false := by decide +kernel
    have h8 : (Ex.fld 1 "n" .float).kind = .float := rfl
    have h9 : deVal env (oneSchema .float) o (k + 1) (Ex.fld 1 "n" .float) (.float 0x47EFFFFFE54DAFF8#64) =
        .error .err := by
      simp only [deVal, h6, h7, h8, deKind, deScalar, visitFloat, h5]
      rfl
    simp only [fromJson, deMsg, h1, h2, h3, deEntries, deEntry, h4, deOpt, h9]

/-- C43 does not hold for the `float` `7.038531e-26` (and its negative): it is written as the
shortest decimal that rounds to it as a `float`, but read as a double and then narrowed, which
gives the next `float` (`double_rounding`). -/
theorem C43_float_false {env : JEnv} (hw : env.widen 0x15AE43FD#32 = 0x3AB5C87FB0000000#64)
    (hn : env.narrow 0x3AB5C87FB0000000#64 = 0x15AE43FE#32) :
    ∃ m, confMsg (oneSchema .float) m = true ∧ m.fields = [(1, .val (.f32 0x15AE43FD#32))] ∧
      ∀ so o k, ∃ j, toJson env (oneSchema .float) so (k + 1) m = .ok j ∧
        fromJson env (oneSchema .float) o (k + 1) m.desc j = .ok ⟨0, [(1, .val (.f32 0x15AE43FE#32))]⟩ := by
  refine ⟨⟨0, [(1, .val (.f32 0x15AE43FD#32))]⟩, by decide +kernel, rfl,
    fun so o k => ⟨.obj [(fieldKey so (Ex.fld 1 "n" .float), .float 0x3AB5C87FB0000000#64)], ?_, ?_⟩⟩
  · have h1 : serVal env (oneSchema .float) so (k + 1) .float (.f32 0x15AE43FD#32) =
        .ok (.float 0x3AB5C87FB0000000#64) := by
      simp only [serVal, serScalar, serF32]
      rw [hw]
      rfl
    have h2 : ∀ b, iter (oneSchema .float) ⟨"t.N".toList, [Ex.fld 1 "n" .float], false, []⟩ b
        [(1, .val (.f32 0x15AE43FD#32))] = some [.field (Ex.fld 1 "n" .float) (.f32 0x15AE43FD#32)] := by
      decide +kernel
    have h3 : (oneSchema .float).msg? 0 = some ⟨"t.N".toList, [Ex.fld 1 "n" .float], false, []⟩ := rfl
    have h4 : wkt? "t.N".toList = none := by decide +kernel
    have h5 : (Ex.fld 1 "n" .float).kind = .float := rfl
    simp only [toJson, serMsg, h3, h4, serFields, h2, mapE, serItem, h5, h1]
    rfl
  · have h1 : (oneSchema .float).msg? 0 = some ⟨"t.N".toList, [Ex.fld 1 "n" .float], false, []⟩ := rfl
    have h2 : wkt? "t.N".toList = none := by decide +kernel
    have h3 : fieldKey so (Ex.fld 1 "n" .float) = "n".toList := by
      cases so with
      | mk a b c d => cases c <;> rfl
    have h4 : keyField ⟨"t.N".toList, [Ex.fld 1 "n" .float], false, []⟩ "n".toList =
      some (Ex.fld 1 "n" .float) := rfl
    have h5 : outOfF32 0x3AB5C87FB0000000#64 = false := by decide +kernel
    have h6 : isList (oneSchema .float) (Ex.fld 1 "n" .float) = false := by decide +kernel
    have h7 : isMap (oneSchema .float) (Ex.fld 1 "n" .float) = false := by decide +kernel
    have h8 : (Ex.fld 1 "n" .float).kind = .float := rfl
    have h9 : deVal env (oneSchema .float) o (k + 1) (Ex.fld 1 "n" .float) (.float 0x3AB5C87FB0000000#64) =
        .ok (some (.f32 0x15AE43FE#32)) := by
      simp only [deVal, h6, h7, h8, deKind, deScalar, visitFloat, h5, hn]
      rfl
    simp only [fromJson, deMsg, h1, h2, h3, deEntries, deEntry, h4, deOpt, h9]
    rfl

example : ∃ env : JEnv, env.widen 0x15AE43FD#32 = 0x3AB5C87FB0000000#64 ∧
    env.narrow 0x3AB5C87FB0000000#64 = 0x15AE43FE#32 :=
  ⟨{ jToy with widen := fun _ => 0x3AB5C87FB0000000#64, narrow := fun _ => 0x15AE43FE#32 }, rfl, rfl⟩

/-- A message with a wrapper, a `NullValue` and a `Value`. -/
def nullsMsg : MsgDesc where
  name := "t.N".toList
  fields := [{ Ex.fld 1 "w" (.message 10) with presence := true },
    { Ex.fld 2 "n" (.enum 0) with presence := true },
    { Ex.fld 3 "v" (.message 5) with presence := true },
    { Ex.fld 4 "ws" (.message 10) with card := .repeated }]
  mapEntry := false
  extensions := []

/-- The standard types and this message. -/
def nullsSchema : Schema where
  msgs := stdSchema.msgs ++ [nullsMsg]
  enums := stdSchema.enums

/-- C43 does not hold for a `FloatValue` (or `DoubleValue`) that holds a NaN or an infinity: it is
written as `null`, which leaves a singular field unset when read, and is rejected in a list. -/
theorem C43_wrapper_false : nullsSchema.wf = true ∧
    ∃ m j, confMsg nullsSchema m = true ∧ m.desc = 18 ∧ toJson jToy nullsSchema .default 9 m = .ok j ∧
      FieldSet.has nullsSchema m.fields { Ex.fld 1 "w" (.message 10) with presence := true } = some true ∧
      fromJson jToy nullsSchema .default 9 18 j = .ok (DynMsg.empty 18) :=
  ⟨by decide +kernel, ⟨18, [(1, .val (.msg 10 [(1, .val (.f32 0x7FC00000#32))]))]⟩, .obj [("w".toList, .null)],
    by decide +kernel, rfl, by decide +kernel, by decide +kernel, by decide +kernel⟩

/-- As `C43_wrapper_false`, in a repeated field: what was written cannot be read. -/
theorem C43_wrapper_list_false :
    ∃ m j, confMsg nullsSchema m = true ∧ m.desc = 18 ∧ toJson jToy nullsSchema .default 9 m = .ok j ∧
      fromJson jToy nullsSchema .default 9 18 j = .error .err :=
  ⟨⟨18, [(4, .val (.list [.msg 10 [(1, .val (.f32 0x7FC00000#32))]]))]⟩, .obj [("ws".toList, .arr [.null])],
    by decide +kernel, rfl, by decide +kernel, by decide +kernel⟩

/-- C43 does not hold for fields of type `NullValue`: any number is written as `null`, and read
as zero. -/
theorem C43_null_false :
    ∃ m j, confMsg nullsSchema m = true ∧ m.desc = 18 ∧ toJson jToy nullsSchema .default 9 m = .ok j ∧
      FieldSet.getValue m.fields 2 = some (.enum 7) ∧
      fromJson jToy nullsSchema .default 9 18 j = .ok ⟨18, [(2, .val (.enum 0))]⟩ :=
  ⟨⟨18, [(2, .val (.enum 7))]⟩, .obj [("n".toList, .null)],
    by decide +kernel, rfl, by decide +kernel, rfl, by decide +kernel⟩

/-- C43 does not hold for a `google.protobuf.Value` with no kind set: it is written as `null`, and
read as the null value. -/
theorem C43_value_false :
    ∃ m j, confMsg nullsSchema m = true ∧ m.desc = 18 ∧ toJson jToy nullsSchema .default 9 m = .ok j ∧
      FieldSet.getValue m.fields 3 = some (.msg 5 []) ∧
      fromJson jToy nullsSchema .default 9 18 j = .ok ⟨18, [(3, .val (.msg 5 [(1, .val (.enum 0))]))]⟩ :=
  ⟨⟨18, [(3, .val (.msg 5 []))]⟩, .obj [("v".toList, .null)],
    by decide +kernel, rfl, by decide +kernel, rfl, by decide +kernel⟩

end Verif.Props
