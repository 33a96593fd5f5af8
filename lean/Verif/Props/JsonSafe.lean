import Verif.Json.SerSafe
import Verif.Dyn.DecEq
import Verif.Dyn.Canon
import Verif.Props.Text
/-!
Properties of JSON reading and writing: C58 (reading is total and yields well-typed messages)
and C59 (writing a well-typed message does not panic).

`extsApart S` says that the extensions of each message have distinct numbers.  `jsonSafe S` says
moreover that no repeated field of a message that is not a well-known type holds
`google.protobuf.Value` or `google.protobuf.NullValue`.
`OrderOk` says that a `HashMap` yields the entries put into it.
-/
set_option autoImplicit false
namespace Verif.Props
open Verif.Wire Verif.Dyn Verif.Pool Verif.Json

/-- Conversions for the examples below. -/
def jEnv : JEnv where
  widen _ := 0x3FF0000000000000#64
  narrow _ := 0x3F800000#32
  ofI64 _ := 0
  ofU64 _ := 0
  ofI64s _ := 0
  ofU64s _ := 0
  parse64 _ := none
  parse32 _ := none
  enumName e n := (e.values.find? (fun p => p.2 == n)).map (·.1)
  showTime _ _ := []
  parseTime _ := none
  showDur _ _ := []
  parseDur _ := none
  order l := l.reverse

/-! ### C58 -/

/-- **C58.** Reading any JSON value into a message type gives a message of that type that the setters
accept (so by `C07` it can be encoded) or an `Err`, never a panic.  Partial: the extensions of a
message have distinct numbers, see `C58_dup_false`. -/
theorem C58_safe_partial {env : JEnv} (hO : OrderOk env) {S : Schema} (hS : S.wf = true)
    (hX : extsApart S = true) (o : DOpts) (k : Nat) {d : Nat} {md : MsgDesc} (hd : S.msg? d = some md)
    (j : Json) :
    (∃ m, fromJson env S o k d j = .ok m ∧ accepted S m = true ∧ m.desc = d) ∨
    fromJson env S o k d j = .error .err ∨
    (fromJson env S o k d j = .error .stack ∧ k + 1 < j.depth) := by
  have h := fromJson_acc (st := false) (o := o) (k := k) (j := j) hS hX hO hd nofun
  cases e : fromJson env S o k d j with
  | ok m => exact .inl ⟨m, rfl, h.ok e⟩
  | error x =>
    cases x with
    | err => exact .inr (.inl rfl)
    | panic => exact absurd rfl (h.error e).1
    | stack =>
      refine .inr (.inr ⟨rfl, Nat.lt_of_not_le fun hj => ?_⟩)
      exact (fromJson_acc (st := true) (o := o) hS hX hO hd (fun _ => hj)).error e |>.2 rfl rfl

/-- **C58.** Reading any JSON value into a message type gives a conforming message of that
type or an `Err`, never a panic.  Partial: the schema is `jsonSafe`, see `C58_null_false` and
`C58_ext_false`. -/
theorem C58_total_partial {env : JEnv} (hO : OrderOk env) {S : Schema} (hS : S.wf = true)
    (hJ : jsonSafe S = true) (o : DOpts) (k : Nat) {d : Nat} {md : MsgDesc} (hd : S.msg? d = some md)
    (j : Json) :
    (∃ m, fromJson env S o k d j = .ok m ∧ confMsg S m = true ∧ m.desc = d) ∨
    fromJson env S o k d j = .error .err ∨ fromJson env S o k d j = .error .stack := by
  have h := fromJson_sound (st := false) (o := o) (k := k) (j := j) hS hJ hO hd nofun
  cases e : fromJson env S o k d j with
  | ok m => exact .inl ⟨m, rfl, h.ok e⟩
  | error x =>
    cases x with
    | err => exact .inr (.inl rfl)
    | panic => exact absurd rfl (h.error e).1
    | stack => exact .inr (.inr rfl)

/-- **C58**, the stack: the recursion is no deeper than the nesting of the JSON value, which
`serde_json` limits. -/
theorem C58_depth_partial {env : JEnv} (hO : OrderOk env) {S : Schema} (hS : S.wf = true)
    (hJ : jsonSafe S = true) (o : DOpts) {k d : Nat} {md : MsgDesc} (hd : S.msg? d = some md)
    {j : Json} (hj : j.depth ≤ k + 1) : fromJson env S o k d j ≠ .error .stack := by
  intro e
  exact (fromJson_sound (st := true) (o := o) hS hJ hO hd (fun _ => hj)).error e |>.2 rfl rfl

example : OrderOk jEnv := fun l => l.reverse_perm
example : jsonSafe Ex.schema = true := by decide +kernel
example : jsonSafe stdSchema = true := by decide +kernel
/-- `{"a": 1, "child": {"xs": [2.0, "3"]}, "t.ext": "5", "o1": null}` -/
def exJson : Json := .obj [("a".toList, .uint 1), ("child".toList, .obj [("xs".toList,
  .arr [.float 0x4000000000000000#64, .str "3".toList])]), ("t.ext".toList, .str "5".toList),
  ("o1".toList, .null)]
example : fromJson jEnv Ex.schema .default 5 0 exJson =
    .ok ⟨0, [(1, .val (.i32 1)), (3, .val (.msg 0 [(4, .val (.list [.i32 2, .i32 3]))])),
      (100, .val (.i64 5))]⟩ := by decide +kernel
example : exJson.depth = 4 := by decide +kernel

/-- A message with a repeated `google.protobuf.Value`, and a repeated extension of that
type. -/
def valuesMsg : MsgDesc where
  name := "t.V".toList
  fields := [{ Ex.fld 1 "vs" (.message 5) with card := .repeated }]
  mapEntry := false
  extensions := [{ Ex.fld 100 "t.x" (.message 5) with card := .repeated }]

/-- The standard types and this message. -/
def valuesSchema : Schema where
  msgs := stdSchema.msgs ++ [valuesMsg]
  enums := stdSchema.enums

example : extsApart valuesSchema = true ∧ valuesSchema.wf = true := by decide +kernel

theorem fromJson_values {env : JEnv} {o : DOpts} {k : Nat} {key : List Char} {r : Except JErr DynMsg}
    (h : deEntry valuesSchema o (deVal env valuesSchema o k) valuesMsg (DynMsg.empty 18) key .null = r) :
    fromJson env valuesSchema o k 18 (.obj [(key, .null)]) = r := by
  have h1 : valuesSchema.msg? 18 = some valuesMsg := rfl
  have h2 : wkt? valuesMsg.name = none := by decide +kernel
  unfold fromJson deMsg
  simp only [h1, h2, deEntries]
  rw [h]
  cases r <;> rfl

/-- C58 does not hold for repeated fields of type `google.protobuf.Value`: `{"vs": null}` is
accepted, and the result holds a single message where a list is declared. -/
theorem C58_null_false : valuesSchema.wf = true ∧ valuesSchema.msg? 18 = some valuesMsg ∧
    ∃ m, (∀ env o k, fromJson env valuesSchema o k 18 (.obj [("vs".toList, .null)]) = .ok m) ∧
    m.desc = 18 ∧ confMsg valuesSchema m = false ∧
    FieldSet.getValue m.fields 1 = some (.msg 5 [(1, .val (.enum 0))]) := by
  refine ⟨by decide +kernel, rfl, ⟨18, [(1, .val (.msg 5 [(1, .val (.enum 0))]))]⟩,
    fun env o k => fromJson_values ?_, rfl, by decide +kernel, rfl⟩
  have h1 : keyField valuesMsg "vs".toList = some { Ex.fld 1 "vs" (.message 5) with card := .repeated } := rfl
  have h2 : deNull valuesSchema { Ex.fld 1 "vs" (.message 5) with card := .repeated } =
      .ok (some (.msg 5 [(1, .val (.enum 0))])) := by decide +kernel
  have h3 : Text.anyHas valuesSchema [] (Text.oneofMembers valuesMsg
      { Ex.fld 1 "vs" (.message 5) with card := .repeated }) = some false := by decide +kernel
  have h4 : DynMsg.setField valuesSchema valuesMsg (DynMsg.empty 18)
      { Ex.fld 1 "vs" (.message 5) with card := .repeated } (.msg 5 [(1, .val (.enum 0))]) =
      some ⟨18, [(1, .val (.msg 5 [(1, .val (.enum 0))]))]⟩ := by
    decide +kernel
  simp only [deEntry, h1, deOpt, h2, DynMsg.empty] at h4 ⊢
  simp only [h3, h4]

/-- C58 does not hold for repeated extensions of that type either: `{"t.x": null}` is accepted,
and the result holds a single message where a list is declared. -/
theorem C58_ext_false : ∃ m, (∀ env o k, fromJson env valuesSchema o k 18 (.obj [("t.x".toList, .null)]) = .ok m) ∧
    m.desc = 18 ∧ confMsg valuesSchema m = false ∧
    FieldSet.getValue m.fields 100 = some (.msg 5 [(1, .val (.enum 0))]) := by
  refine ⟨⟨18, [(100, .val (.msg 5 [(1, .val (.enum 0))]))]⟩, fun env o k => fromJson_values ?_, rfl,
    by decide +kernel, rfl⟩
  have h1 : keyField valuesMsg "t.x".toList = none := rfl
  have h2 : keyExt valuesMsg "t.x".toList = some { Ex.fld 100 "t.x" (.message 5) with card := .repeated } := rfl
  have h3 : deNull valuesSchema { Ex.fld 100 "t.x" (.message 5) with card := .repeated } =
      .ok (some (.msg 5 [(1, .val (.enum 0))])) := by decide +kernel
  simp only [deEntry, h1, h2, deOpt, h3]
  rfl

/-- A message with two extensions of the same number, an integer and a string. -/
def twiceMsg : MsgDesc where
  name := "M".toList
  fields := []
  mapEntry := false
  extensions := [{ Ex.fld 100 "a" .int32 with jsonName := "[a]".toList },
    { Ex.fld 100 "b" .string with jsonName := "[b]".toList }]

/-- The standard types and this message. -/
def twiceSchema : Schema where
  msgs := stdSchema.msgs ++ [twiceMsg]
  enums := stdSchema.enums

/-- `{"@type": "/M", "[b]": "x"}` -/
def twiceJson : Json := .obj [("@type".toList, .str "/M".toList), ("[b]".toList, .str "x".toList)]

/-- C58 does not hold when two extensions have the same number, which a pool accepts (`C32_false`):
reading an `Any` with the second one inside panics, and reading the message itself gives one that
cannot be encoded. -/
theorem C58_dup_false : twiceSchema.wf = true ∧ twiceSchema.msg? 18 = some twiceMsg ∧
    ∀ env, OrderOk env → ∀ o k,
      fromJson env twiceSchema o (k + 1) Wkt.any.std twiceJson = .error .panic ∧
      ∃ m, fromJson env twiceSchema o (k + 1) 18 (.obj [("[b]".toList, .str "x".toList)]) = .ok m ∧
        encMsg twiceSchema m = none := by
  refine ⟨by decide +kernel, rfl, fun env hO o k => ?_⟩
  have ho : env.order [] = [] := (hO []).eq_nil
  have h1 : deEntries twiceSchema o (deVal env twiceSchema o (k + 1)) twiceMsg (DynMsg.empty 18)
      [("[b]".toList, .str "x".toList)] = .ok ⟨18, [(100, .val (.str (utf8Encode "x".toList)))]⟩ := rfl
  have h2 : encMsg twiceSchema ⟨18, [(100, .val (.str (utf8Encode "x".toList)))]⟩ = none := by decide +kernel
  have h3 : wkt? twiceMsg.name = none := by decide +kernel
  have h4 : twiceSchema.msg? 18 = some twiceMsg := rfl
  have h5 : twiceSchema.msg? Wkt.any.std = stdSchema.msg? Wkt.any.std := rfl
  have h6 : ∃ md, stdSchema.msg? Wkt.any.std = some md ∧ wkt? md.name = some .any := by
    refine ⟨_, rfl, by decide +kernel⟩
  obtain ⟨md, h7, h8⟩ := h6
  have h9 : findKey typeKey [] [("@type".toList, .str "/M".toList), ("[b]".toList, .str "x".toList)] =
      some ([], .str "/M".toList, [("[b]".toList, .str "x".toList)]) := rfl
  have h10 : Text.urlName "/M".toList = some "M".toList := by decide +kernel
  have h11 : Text.Schema.msgByName twiceSchema "M".toList = some 18 := by decide +kernel
  have h12 : (wkt? "M".toList).isSome = false := by decide +kernel
  constructor
  · simp only [fromJson, deMsg, h5, h7, h8, twiceJson, deAny, h9, h10, h11, anyPayload, h12,
      Bool.false_eq_true, if_false, h4, ho]
    simp only [deEntries] at h1 ⊢
    simp only [h1, h2]
  · refine ⟨_, ?_, h2⟩
    simp only [fromJson, deMsg, h4, h3, h1]

/-! ### C59 -/

/-- **C59.** Writing a conforming message gives JSON or an `Err`, never a panic. -/
theorem C59_total (env : JEnv) {S : Schema} (hS : S.wf = true) (o : SOpts) (k : Nat) {m : DynMsg}
    (hm : confMsg S m = true) :
    (∃ j, toJson env S o k m = .ok j) ∨ toJson env S o k m = .error .err ∨
      toJson env S o k m = .error .stack := by
  have h := toJson_sound (env := env) (o := o) hS k hm
  cases e : toJson env S o k m with
  | ok j => exact .inl ⟨j, rfl⟩
  | error x =>
    cases x with
    | err => exact .inr (.inl rfl)
    | panic => exact absurd rfl (h.error e).1
    | stack => exact .inr (.inr rfl)

example : (toJson jEnv Ex.schema .default 9 Ex.big).isOk = true := by decide +kernel

/-! The stack: an `Any` inside an `Any` inside an `Any`. -/

/-- `"/google.protobuf.Any"` -/
def anyUrl : List Char := "/google.protobuf.Any".toList

/-- An `Any` that holds the given bytes as an `Any`. -/
def anyOf (b : Bytes) : DynMsg := ⟨0, [(1, .val (.str (utf8Encode anyUrl))), (2, .val (.bytes b))]⟩

/-- The bytes of `n` of them inside each other. -/
def anyBytes : Nat → Bytes
  | 0 => [0x10, 0x00]
  | n + 1 => 0x0A :: 20 :: (utf8Encode anyUrl ++ (0x12 :: (encodeVarint (anyBytes n).length ++ anyBytes n)))

theorem anyOf_conf (b : Bytes) : confMsg stdSchema (anyOf b) = true :=
  std_any (utf8Valid_encode anyUrl) b

theorem anyOf_depth (b : Bytes) : depthMsg (anyOf b) ≤ recursionLimit := by
  simp [anyOf, depthMsg, depthSlots, depthVal]

theorem anyOf_has {b : Bytes} (hb : b ≠ []) :
    hasVal stdSchema (stdField 1 "type_url" .string .optional false none) (.str (utf8Encode anyUrl)) = some true ∧
    hasVal stdSchema (stdField 2 "value" .bytes .optional false none) (.bytes b) = some true := by
  refine ⟨by decide +kernel, ?_⟩
  have : hasVal stdSchema (stdField 2 "value" .bytes .optional false none) (.bytes b) =
      some (!(Value.beq (.bytes b) (.bytes []))) := rfl
  rw [this]
  cases b with
  | nil => exact absurd rfl hb
  | cons x r => simp [Value.beq]

theorem anyOf_canon {b : Bytes} (hb : b ≠ []) : canonMsg stdSchema (anyOf b) = anyOf b := by
  have h1 : stdSchema.field? 0 1 = some (stdField 1 "type_url" .string .optional false none) := rfl
  have h2 : stdSchema.field? 0 2 = some (stdField 2 "value" .bytes .optional false none) := rfl
  unfold canonMsg anyOf
  simp only [canonSlots, h1, h2, (anyOf_has hb).1, (anyOf_has hb).2, if_true, canonVal]

theorem enc_anyOf {b : Bytes} (hb : b ≠ []) : encMsg stdSchema (anyOf b) =
    some (0x0A :: 20 :: (utf8Encode anyUrl ++ (0x12 :: (encodeVarint b.length ++ b)))) := by
  have h1 : stdSchema.field? 0 1 = some (stdField 1 "type_url" .string .optional false none) := rfl
  have h2 : stdSchema.field? 0 2 = some (stdField 2 "value" .bytes .optional false none) := rfl
  have h3 : stdSchema.ext? 0 1 = none := rfl
  have h4 : stdSchema.ext? 0 2 = none := rfl
  have e : ∀ (f : FieldDesc) v, f.presence = false → hasVal stdSchema f v = some true →
      isDefault stdSchema f v = some false := by
    intro f v hp hv
    unfold hasVal at hv
    rw [hp] at hv
    simp only [Bool.false_eq_true, if_false, Option.map_eq_some_iff] at hv
    obtain ⟨a, h1, h2⟩ := hv
    cases a <;> simp_all
  have e1 := e _ _ rfl (anyOf_has hb).1
  have e2 := e _ _ rfl (anyOf_has hb).2
  unfold encMsg anyOf
  simp only [encSlots, h1, h2, h3, h4, ifPresent, (anyOf_has hb).1, (anyOf_has hb).2, encVal, unlessDefault,
    e1, e2]
  have k1 : encodeKey 1 .lengthDelimited = [0x0A] := by decide +kernel
  have k2 : encodeKey 2 .lengthDelimited = [0x12] := by decide +kernel
  have k3 : encodeVarint (utf8Encode anyUrl).length = [20] := by decide +kernel
  simp [stdField, scalarEnc, Kind.wireType, k1, k2, k3]

/-- `n + 1` of them inside each other. -/
def anyChain (n : Nat) : DynMsg := anyOf (anyBytes n)

theorem anyBytes_ne (n : Nat) : anyBytes n ≠ [] := by cases n <;> simp [anyBytes]

theorem anyBytes_len (n : Nat) : (anyBytes n).length ≤ 40 * (n + 1) := by
  induction n with
  | zero => decide
  | succ n ih =>
    have h1 : (utf8Encode anyUrl).length = 20 := by decide +kernel
    have h2 : (encodeVarint (anyBytes n).length).length ≤ 10 := by
      have : ∀ k x, (encodeVarintAux k x).length ≤ k := by
        intro k
        induction k with
        | zero => intro x; simp [encodeVarintAux]
        | succ k ih =>
          intro x
          unfold encodeVarintAux
          split
          · simp
          · have := ih (x / 128)
            simp only [List.length_cons]
            omega
      exact this 10 _
    simp only [anyBytes, List.length_cons, List.length_append]
    omega

theorem serAny_chain {n : Nat} (hn : n < 2 ^ 40) (o : SOpts) (val : Kind → Value → Except JErr Json) :
    serAny stdSchema o val (anyChain (n + 1)) =
      (val (.message 0) (anyChain n).toValue).map (fun j => .obj [(typeKey, .str anyUrl), (valueKey, j)]) := by
  have hlen := anyBytes_len n
  have hlen1 := anyBytes_len (n + 1)
  have hlen2 := anyBytes_len (n + 2)
  have h0 : ∀ n, anyBytes (n + 1) = 0x0A :: 20 :: (utf8Encode anyUrl ++
      (0x12 :: (encodeVarint (anyBytes n).length ++ anyBytes n))) := fun _ => rfl
  have d1 := (decode_encMsg stdSchema_wf (anyOf_conf (anyBytes (n + 1))) (anyOf_depth _)
    (b := anyBytes (n + 2)) (enc_anyOf (anyBytes_ne _)) (by omega)).1
  have d0 := (decode_encMsg stdSchema_wf (anyOf_conf (anyBytes n)) (anyOf_depth _)
    (b := anyBytes (n + 1)) (enc_anyOf (anyBytes_ne _)) (by omega)).1
  rw [anyOf_canon (anyBytes_ne _)] at d0 d1
  have t : transcodeTo stdSchema .any (anyChain (n + 1)) = .ok (anyChain (n + 1)).fields := by
    unfold transcodeTo anyChain
    rw [enc_anyOf (anyBytes_ne _), ← h0]
    have d1' : decode stdSchema Wkt.any.std (anyBytes (n + 2)) = .ok (anyOf (anyBytes (n + 1))) := d1
    simp only [d1']
    rfl
  have u : strOf (utf8Encode anyUrl) = .ok anyUrl := by decide +kernel
  have c : (wkt? Wkt.any.name).isSome = true := by decide +kernel
  have e1 : stdStr (anyChain (n + 1)).fields 1 = utf8Encode anyUrl := rfl
  have e2 : stdBytes (anyChain (n + 1)).fields 2 = anyBytes (n + 1) := rfl
  have e3 : Text.urlName anyUrl = some Wkt.any.name := by decide +kernel
  have e4 : Text.Schema.msgByName stdSchema Wkt.any.name = some 0 := by decide +kernel
  have d0' : decode stdSchema 0 (anyBytes (n + 1)) = .ok (anyChain n) := d0
  unfold serAny
  simp only [t, e1, u, e2, e3, e4, d0', ofDecode, c, if_true]

theorem toJson_chain (env : JEnv) (o : SOpts) : ∀ (k n : Nat), k ≤ n → n < 2 ^ 40 →
    toJson env stdSchema o k (anyChain (n + 1)) = .error .stack := by
  intro k
  have step : ∀ k n, n < 2 ^ 40 → toJson env stdSchema o k (anyChain (n + 1)) =
      (serVal env stdSchema o k (.message 0) (anyChain n).toValue).map
        (fun j => .obj [(typeKey, .str anyUrl), (valueKey, j)]) := by
    intro k n hn
    have h1 : stdSchema.msg? (anyChain (n + 1)).desc = some (stdSchema.msgs[0]) := rfl
    have h2 : wkt? (stdSchema.msgs[0]).name = some .any := by decide +kernel
    unfold toJson serMsg
    simp only [h1, h2]
    exact serAny_chain hn o _
  induction k with
  | zero => intro n _ hn; rw [step _ _ hn]; rfl
  | succ k ih =>
    intro n hk hn
    obtain ⟨n, rfl⟩ : ∃ n', n = n' + 1 := ⟨n - 1, by omega⟩
    rw [step _ _ hn]
    have : serVal env stdSchema o (k + 1) (.message 0) (anyChain (n + 1)).toValue =
        toJson env stdSchema o k (anyChain (n + 1)) := rfl
    rw [this, ih n (by omega) (by omega)]
    rfl

/-- C59 does not extend to the stack: an `Any` may hold an `Any` and so on, the recursion limit
of the wire format does not apply to it, and writing it as JSON recurses into each.  For every
stack (of up to `2^40` calls) there is a conforming message of nesting depth zero, of at most
forty bytes per call, that overflows it. -/
theorem C59_stack_false (k : Nat) (hk : k < 2 ^ 40) : ∃ m, confMsg stdSchema m = true ∧ depthMsg m = 0 ∧
    (∃ b, encMsg stdSchema m = some b ∧ b.length ≤ 40 * (k + 3)) ∧
    ∀ env o, toJson env stdSchema o k m = .error .stack := by
  refine ⟨anyChain (k + 1), anyOf_conf _, ?_, ⟨anyBytes (k + 2), enc_anyOf (anyBytes_ne _), anyBytes_len _⟩,
    fun env o => toJson_chain env o k k (Nat.le_refl _) hk⟩
  simp [anyChain, anyOf, depthMsg, depthSlots, depthVal]

end Verif.Props
