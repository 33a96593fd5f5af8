import Verif.Json.LeafAny
import Verif.Props.JsonWkt
import Verif.Props.Binary
/-!
The JSON round-trip of `google.protobuf.Any` (C43).
-/
set_option autoImplicit false
namespace Verif.Props
open Verif.Wire Verif.Dyn Verif.Pool Verif.Json

/-- C43 with well-known types, `Any` among them: whatever a conforming message is written as, with
any options, is read with any options and the same descriptor as a message of the same type that is
alike, where two `Any`s are alike when they have the same type URL and what the bytes of the first
decode as is alike to what the bytes of the second encode (`anyPay`; `C43_any_bytes` says what the
bytes of the second decode as).  The `Any`s may hold others, to any number `n` of levels.
`AnyOk` is asked of the message and every message in it, down to those in `Any`s: as `WktOk`, and type
URLs with the full name itself. -/
theorem C43_any_partial {env : JEnv} {S : Schema} (hwf : S.wf = true) (hnames : jsonWf S = true) (hstd : StdLike S)
    {so : SOpts} (hcross : so.protoNames = true → namesApart S = true) (hfloats : JFloatSpec env)
    (htimes : JTimeSpec env) (henums : JNamesEnums env) (horder : OrderOk env) (o : DOpts) (n : Nat)
    {m : DynMsg} (hm : confMsg S m = true) (ho : AnyOk env S so o n m)
    (hk : keepSlots f32Ok (AnyOk env S so o n) m.fields)
    {k K : Nat} (hK : k ≤ K) {j : Json} (hj : toJson env S so k m = .ok j) :
    ∃ m', fromJson env S o K m.desc j = .ok m' ∧ m'.desc = m.desc ∧ AlikeMsgBy S (anyPay S) m m' ∧
      confMsg S m' = true :=
  json_reads ⟨hwf, hnames, hcross, hfloats, henums,
    leaf_any o hwf hnames hcross hstd hfloats htimes henums horder n⟩ hK hm ho hk hj

/-- C43: the bytes of the second of two alike `Any`s decode, unless nested too deeply, as a message
that differs from the alike one in nothing that is encoded. -/
theorem C43_any_bytes {S : Schema} (hwf : S.wf = true) {d : Nat} {fs gs : FieldSet} {p p' : DynMsg}
    (h : anyPay S d fs gs p p') (hdep : depthMsg p' ≤ recursionLimit) :
    ∃ url b', AnySays S ⟨d, gs⟩ url b' ∧ (b'.length < 2 ^ 64 →
      ∃ q, decode S p.desc b' = .ok q ∧ confMsg S q = true ∧ SameMsg S p' q) := by
  obtain ⟨url, n, b, b', -, h2, -, -, hd, -, hc, hb⟩ := h
  refine ⟨url, b', h2, fun hl => ?_⟩
  obtain ⟨c, hc1, hc2⟩ := C01_roundtrip hwf hc hdep
  rw [hb] at hc1
  cases hc1
  rw [← hd]
  exact hc2 hl

/-! ### The hypotheses can be met -/

/-- A message with an `Any`. -/
def boxMsg : MsgDesc where
  name := "Box".toList
  fields := [{ Ex.fld 1 "any" (.message 0) with presence := true }, Ex.fld 2 "n" .int32]
  mapEntry := false
  extensions := []

/-- The standard types and this message. -/
def boxSchema : Schema where
  msgs := stdSchema.msgs ++ [boxMsg]
  enums := stdSchema.enums

theorem box_like : StdLike boxSchema := by
  refine stdLike_append (fun d hd => ?_) (fun d md hd h => ?_)
  · exact List.getElem?_append_left hd
  · have hd' := (List.getElem?_eq_some_iff.1 h).1
    have : d = 18 := by
      have : boxSchema.msgs.length = 19 := by decide
      omega
    subst this
    cases h
    decide +kernel

/-- The type URL. -/
def boxUrl : List Char := "t/Box".toList
/-- A box with a number, in an `Any`. -/
def boxAny : DynMsg := ⟨0, [(1, .val (.str (utf8Encode boxUrl))), (2, .val (.bytes [16, 7]))]⟩
/-- In a box. -/
def boxEx : DynMsg := ⟨18, [(1, .val boxAny.toValue), (2, .val (.i32 3))]⟩

example : boxSchema.wf = true ∧ jsonWf boxSchema = true ∧ namesApart boxSchema = true := by decide +kernel
example : confMsg boxSchema boxEx = true := by decide +kernel
example : (toJson wToy boxSchema .default 9 boxEx).isOk = true := by decide +kernel

theorem box_says {url : List Char} {b : Bytes} (h : AnySays boxSchema boxAny url b) : url = boxUrl ∧ b = [16, 7] := by
  obtain ⟨md, h1, -, h3, h4⟩ := h
  cases h1
  have e1 : DynMsg.getByNumber boxSchema (stdSchema.msgs[0]) boxAny 1 = some (some (.str (utf8Encode boxUrl))) := by
    decide +kernel
  have e2 : DynMsg.getByNumber boxSchema (stdSchema.msgs[0]) boxAny 2 = some (some (.bytes [16, 7])) := by
    decide +kernel
  have h3' := e1.symm.trans h3
  have h4' := e2.symm.trans h4
  simp only [Option.some.injEq, Value.str.injEq, Value.bytes.injEq] at h3' h4'
  refine ⟨?_, h4'.symm⟩
  have := congrArg utf8Decode h3'
  rw [utf8Decode_encode, utf8Decode_encode] at this
  exact (Option.some.inj this).symm

theorem box_carries : CarriesOk wToy boxSchema .default .default (AnyOk wToy boxSchema .default .default 0) boxAny where
  depth := by decide +kernel
  size b hb := by
    have : encMsg boxSchema boxAny = some [10, 5, 116, 47, 66, 111, 120, 18, 2, 16, 7] := by decide +kernel
    rw [this] at hb
    cases hb
    decide
  payload url b n p pd h1 h2 h3 h4 h5 := by
    obtain ⟨rfl, rfl⟩ := box_says h1
    have e1 : Text.urlName boxUrl = some "Box".toList := by decide +kernel
    rw [e1] at h2
    cases h2
    have e2 : Text.Schema.msgByName boxSchema "Box".toList = some 18 := by decide +kernel
    rw [e2] at h3
    have h3 := Option.some.inj h3
    rw [← h3] at h4 h5
    have e3 : decode boxSchema 18 [16, 7] = .ok ⟨18, [(2, .val (.i32 7))]⟩ := by decide +kernel
    rw [e3] at h4
    cases h4
    cases h5
    refine ⟨by decide +kernel, wktOk_plain (md := boxMsg) rfl (by decide +kernel), ?_⟩
    simp [keepSlots, keepVal]
  size' k K j gs b h1 h2 h3 := by
    have hj : j = .obj [(typeKey, .str boxUrl), ("n".toList, .uint 7)] := by
      have e0 : boxSchema.msg? 0 = some stdSchema.msgs[0] := rfl
      have e1 : wkt? (stdSchema.msgs[0]).name = some .any := by decide +kernel
      have e2 : transcodeTo boxSchema .any boxAny = .ok boxAny.fields := by decide +kernel
      have e3 : strOf (stdStr boxAny.fields 1) = .ok boxUrl := by decide +kernel
      have e4 : Text.urlName boxUrl = some "Box".toList := by decide +kernel
      have e5 : Text.Schema.msgByName boxSchema "Box".toList = some 18 := by decide +kernel
      have e6 : decode boxSchema 18 (stdBytes boxAny.fields 2) = .ok ⟨18, [(2, .val (.i32 7))]⟩ := by decide +kernel
      have e7 : (wkt? "Box".toList).isSome = false := by decide +kernel
      have e8 : boxSchema.msg? 18 = some boxMsg := rfl
      have e9 : iter boxSchema boxMsg (!SOpts.default.skipDefault) [(2, .val (.i32 7))] =
        some [.field (Ex.fld 2 "n" .int32) (.i32 7)] := by decide +kernel
      have e10 : boxAny.desc = 0 := rfl
      simp only [toJson, serMsg, e10, e0, e1, serAny, e2, e3, e4, e5, e6, ofDecode, e7, e8, serFields, e9] at h1
      cases k with
      | zero => cases h1
      | succ k => cases h1; rfl
    subst hj
    have hg : gs = boxAny.fields := by
      have e1 : findKey typeKey [] [(typeKey, Json.str boxUrl), ("n".toList, .uint 7)] =
        some ([], .str boxUrl, [("n".toList, .uint 7)]) := rfl
      have e2 : Text.urlName boxUrl = some "Box".toList := by decide +kernel
      have e3 : Text.Schema.msgByName boxSchema "Box".toList = some 18 := by decide +kernel
      have e4 : (wkt? "Box".toList).isSome = false := by decide +kernel
      have e5 : boxSchema.msg? 18 = some boxMsg := rfl
      have e6 : wToy.order [] = [] := rfl
      have e8 : encMsg boxSchema ⟨18, [(2, .val (.i32 7))]⟩ = some [16, 7] := by decide +kernel
      cases K with
      | zero =>
        simp only [deAny, e1, e2, e3, anyPayload, e4, e5, e6, deEntries] at h2
        cases h2
      | succ K =>
        have e9 : deEntry boxSchema .default (deVal wToy boxSchema .default (K + 1)) boxMsg (DynMsg.empty 18) "n".toList
            (.uint 7) = .ok ⟨18, [(2, .val (.i32 7))]⟩ := rfl
        simp only [deAny, e1, e2, e3, anyPayload, e4, e5, e6, deEntries, e9] at h2
        have h2 := (show _ = _ from congrArg (fun x => match x with
          | none => Except.error JErr.panic
          | some b => Except.ok [(1, Slot.val (Value.str (utf8Encode boxUrl))), (2, Slot.val (Value.bytes b))]) e8).symm.trans h2
        cases h2
        rfl
    subst hg
    have : encMsg stdSchema ⟨Wkt.any.std, boxAny.fields⟩ = some [10, 5, 116, 47, 66, 111, 120, 18, 2, 16, 7] := by
      decide +kernel
    rw [this] at h3
    cases h3
    decide

theorem box_any : AnyOk wToy boxSchema .default .default 1 boxAny :=
  ⟨fun md h hn => by cases h; exact absurd (by decide +kernel) hn, fun _ _ _ => box_carries⟩

example : AnyOk wToy boxSchema .default .default 1 boxEx :=
  ⟨fun _ _ _ => wktOk_plain (md := boxMsg) rfl (by decide +kernel),
    fun md h hn => by cases h; exact absurd hn (by decide +kernel)⟩
example : keepSlots f32Ok (AnyOk wToy boxSchema .default .default 1) boxEx.fields := by
  simp only [boxEx, boxAny, DynMsg.toValue, keepSlots, keepVal, and_true]
  exact box_any
example : OrderOk wToy := fun l => l.reverse_perm

end Verif.Props
