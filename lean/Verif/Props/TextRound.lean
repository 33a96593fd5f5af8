import Verif.Text.PrintTotal
import Verif.Props.Text
import Verif.Json.DecEq
/-!
The text format round-trip (C34).
-/
set_option autoImplicit false
namespace Verif.Props
open Verif.Wire Verif.Dyn Verif.Pool Verif.Text

/-- C34: printing a message of any schema, compact or pretty, with or without default
fields, in either order, succeeds once the stack allows two levels per nested message, and
parsing the text with the same descriptor gives a message of the same type that is alike:
the same fields and extensions are present, with alike values.
Missing: messages printed as an expanded `Any` (`C34_any_partial`, `C34_any_false`), and unknown fields
that are printed (`C34_unknown_false`), and one `float` (`C34_float_false`).  Names are assumed to be as `protoc` has them
(`textWf`; for groups see `C34_group_false`). -/
theorem C34_roundtrip_partial {env : TEnv} {S : Schema} {o : FOpts} (hwf : S.wf = true)
    (hnames : textWf S = true) (hfloats : FloatSpec env) (henums : NamesEnums env)
    (hskip : o.skipUnknown = true) (hany : o.expandAny = false ∨ ∀ md ∈ S.msgs, md.name ≠ anyName)
    {m : DynMsg} (hm : confMsg S m = true) (hf : textSlots m.fields) {k : Nat} (hk : 2 * depthMsg m + 2 ≤ k) :
    ∃ s m', toText env S o k m = some s ∧ parseText env S k m.desc s = .ok m' ∧ m'.desc = m.desc ∧
      AlikeMsg S m m' := by
  have hX : RoundCtx env S o := ⟨hwf, hnames, hfloats, henums, hskip, hany⟩
  obtain ⟨s, hs⟩ := toText_total hX.prints hm trivial hf hk
  obtain ⟨m', h1, h2⟩ := text_reads hX.ctx (Nat.le_refl k) hm trivial hf hs
  refine ⟨s, m', hs, h1, ?_, h2⟩
  cases m with
  | mk d fs =>
    cases m' with
    | mk d' gs =>
      cases h2 with
      | refl => rfl
      | msg => rfl
      | pay hp => exact hp.elim

/-- C34: what `AlikeMsg` means for a reader of the two messages: every field and extension
of the type has the same presence, and a present scalar other than a float has the same value. -/
theorem C34_alike_reads {S : Schema} {m m' : DynMsg} (h : AlikeMsg S m m') (hd : m'.desc = m.desc)
    {f : FieldDesc} (hf : Known S m.desc f) :
    FieldSet.has S m'.fields f = FieldSet.has S m.fields f ∧
    ∀ v w, FieldSet.has S m.fields f = some true → FieldSet.get S m.fields f = some v →
      FieldSet.get S m'.fields f = some w → Alike S v w := by
  cases m with
  | mk d fs =>
    cases m' with
    | mk d' gs =>
      cases h with
      | refl => exact ⟨rfl, fun v w _ hv hw => by rw [hv] at hw; cases hw; exact .refl v⟩
      | pay hp => exact hp.elim
      | msg hh hv => exact ⟨(hh f hf).symm, fun v w h1 h2 h3 => hv f v w hf h1 h2 h3⟩

/-- Alike values which are not floats, lists, maps or messages are equal. -/
theorem C34_alike_scalar {S : Schema} {v w : Value} (h : Alike S v w)
    (hv : match v with
      | .f32 _ | .f64 _ | .list _ | .map _ | .msg _ _ => False
      | _ => True) : w = v := by
  cases h <;> first | rfl | exact hv.elim

/-! ### The hypotheses can be met -/

/-- A toy float syntax: the bit pattern in decimal, with a point. -/
def toyShow64 (v : BitVec 64) : List Char :=
  if isNan64 v then "NaN".toList
  else if v = inf64 then "inf".toList
  else if v = neg64 inf64 then "-inf".toList
  else decDigits v.toNat ++ ".0".toList

/-- As `toyShow64`. -/
def toyShow32 (v : BitVec 32) : List Char :=
  if isNan32 v then "NaN".toList
  else if v = inf32 then "inf".toList
  else if v = ninf32 then "-inf".toList
  else decDigits v.toNat ++ ".0".toList

/-- An environment for the examples. -/
def toyEnv : TEnv where
  show32 := toyShow32
  show64 := toyShow64
  parse64 s := some (BitVec.ofNat 64 (posVal 10 (s.takeWhile cDigit)))
  narrow w :=
    if w = nan64 then 0x7FC00000#32
    else if w = inf64 then inf32
    else if w = neg64 inf64 then ninf32
    else w.setWidth 32
  enumName e n := (e.values.find? (fun p => p.2 == n)).map (·.1)

theorem decDigits_cDigit (n : Nat) : ∀ c ∈ decDigits n, cDigit c = true :=
  fun c hc => inR_iff.2 ((decDigits_spec n).2.1 c hc)

theorem toyEnv_parse (n : Nat) : toyEnv.parse64 (decDigits n ++ ('.' :: ['0'])) = some (BitVec.ofNat 64 n) := by
  show some (BitVec.ofNat 64 (posVal 10 ((decDigits n ++ ('.' :: ['0'])).takeWhile cDigit))) = _
  rw [List.takeWhile_append_of_pos (decDigits_cDigit n)]
  have : List.takeWhile cDigit ('.' :: ['0']) = [] := by decide
  rw [this, List.append_nil, posVal_decDigits]

theorem toyEnv_floats : FloatSpec toyEnv where
  nan64 v h := by simp [toyEnv, toyShow64, h]
  inf64 := by decide
  ninf64 := by decide
  nan32 v h := by simp [toyEnv, toyShow32, h]
  inf32 := by decide
  ninf32 := by decide
  fin64 v h := by
    refine ⟨false, decDigits v.toNat, ['0'], v, ?_, (decDigits_spec _).1, decDigits_cDigit _, by decide, ?_, rfl⟩
    · have h1 : isNan64 v = false := by
        simp only [isFin64, isNan64, decide_eq_true_eq, decide_eq_false_iff_not] at h ⊢
        omega
      have h2 : v ≠ inf64 := by rintro rfl; revert h; decide
      have h3 : v ≠ neg64 inf64 := by rintro rfl; revert h; decide
      simp [toyEnv, toyShow64, h1, h2, h3, signText]
    · rw [toyEnv_parse]
      simp
  fin32 v h _ := by
    refine ⟨BitVec.ofNat 64 v.toNat, ⟨false, decDigits v.toNat, ['0'], _, ?_, (decDigits_spec _).1,
      decDigits_cDigit _, by decide, toyEnv_parse _, rfl⟩, ?_⟩
    · have h1 : isNan32 v = false := by
        simp only [isFin32, isNan32, decide_eq_true_eq, decide_eq_false_iff_not] at h ⊢
        omega
      have h2 : v ≠ inf32 := by rintro rfl; revert h; decide
      have h3 : v ≠ ninf32 := by rintro rfl; revert h; decide
      simp [toyEnv, toyShow32, h1, h2, h3, signText]
    · have hv := v.isLt
      have big : ∀ w : BitVec 64, 2 ^ 32 ≤ w.toNat → BitVec.ofNat 64 v.toNat ≠ w := by
        rintro w hw rfl
        rw [BitVec.toNat_ofNat] at hw
        omega
      show (if BitVec.ofNat 64 v.toNat = nan64 then _ else if BitVec.ofNat 64 v.toNat = inf64 then _
        else if BitVec.ofNat 64 v.toNat = neg64 inf64 then _ else _) = v
      rw [if_neg (big _ (by decide)), if_neg (big _ (by decide)), if_neg (big _ (by decide))]
      apply BitVec.eq_of_toNat_eq
      simp
  narrowNan := by decide
  narrowInf := by decide
  narrowNinf := by decide

theorem toyEnv_enums : NamesEnums toyEnv := by
  intro ed v n h
  simp only [toyEnv, Option.map_eq_some_iff] at h
  obtain ⟨p, hp, rfl⟩ := h
  have h1 := List.mem_of_find?_eq_some hp
  have h2 := List.find?_some hp
  simp only [beq_iff_eq] at h2
  rw [← h2]
  exact h1

example : Ex.schema.wf = true ∧ textWf Ex.schema = true ∧ FloatSpec toyEnv ∧ NamesEnums toyEnv ∧
    FOpts.default.skipUnknown = true ∧ (∀ md ∈ Ex.schema.msgs, md.name ≠ anyName) ∧
    confMsg Ex.schema Ex.big = true ∧ 2 * depthMsg Ex.big + 2 ≤ 4 :=
  ⟨by decide, by decide +kernel, toyEnv_floats, toyEnv_enums, rfl, by decide, by decide, by decide⟩
example : textSlots Ex.big.fields := by
  simp [Ex.big, Ex.small, textSlots, keepSlots, keepVal, keepVals, keepMap, DynMsg.toValue]

/-- What is printed for `Ex.big`: compact, then pretty in part. -/
example : toText toyEnv Ex.schema FOpts.default 4 Ex.big = some
    ("a:7,s:\"hi\",child{a:-1,o1:\"x\"},xs:[1,-2,300],tags:[{key:\"k\",value:4607182418800017408.0}," ++
     "{key:\"\",value:0.0}],o2{xs:[5]},ys:[\"\",\"ab\"],G{v:-5},e:NEG,[t.ext]:0," ++
     "[t.msgs]:[{a:-1,o1:\"x\"},{}]").toList := by decide +kernel
example : toText toyEnv Ex.schema { FOpts.default with pretty := true } 4 ⟨0, [(3, .val Ex.small.toValue),
    (5, .val (.map [(.str [107], .f64 0)]))]⟩ = some
    "child {\n  a: -1\n  o1: \"x\"\n}\ntags: [{\n  key: \"k\"\n  value: 0.0\n}]".toList := by decide +kernel

/-! ### Where it fails -/

/-- The schema of `google.protobuf.Any` and of `t.N { int32 n = 1; }`. -/
def anyN : Schema where
  msgs := anySchema.msgs ++ (oneSchema .int32).msgs
  enums := []

/-- C34 does not hold with `Any` expanded, as it is by default.  The type URL is written as
it is, and the parser takes one slash only: `a//t.N` prints as text that is rejected.  Unknown
fields inside the payload are dropped: the value `\x28\x03` (field 5) reads back as absent. -/
theorem C34_any_false :
    anyN.wf = true ∧ textWf anyN = true ∧
    (let m : DynMsg := ⟨0, [(1, .val (.str (utf8Encode "a//t.N".toList))), (2, .val (.bytes [8, 1]))]⟩
     confMsg anyN m = true ∧ toText toyEnv anyN FOpts.default 9 m = some "[a//t.N]{n:1}".toList ∧
     parseText toyEnv anyN 9 0 "[a//t.N]{n:1}".toList = .error .unexpected) ∧
    (let m : DynMsg := ⟨0, [(1, .val (.str (utf8Encode "a/t.N".toList))), (2, .val (.bytes [40, 3]))]⟩
     confMsg anyN m = true ∧ toText toyEnv anyN FOpts.default 9 m = some "[a/t.N]{}".toList ∧
     parseText toyEnv anyN 9 0 "[a/t.N]{}".toList =
       .ok ⟨0, [(1, .val (.str (utf8Encode "a/t.N".toList))), (2, .val (.bytes []))]⟩) := by
  refine ⟨by decide +kernel, by decide +kernel, ⟨by decide +kernel, by decide +kernel, by decide +kernel⟩,
    by decide +kernel, by decide +kernel, by decide +kernel⟩

/-- C34 does not hold when unknown fields are printed: a field number is no field name. -/
theorem C34_unknown_false :
    let m : DynMsg := ⟨0, [(1, .val (.i32 1)), (5, .unknown [(5, .varint 3)])]⟩
    confMsg (oneSchema .int32) m = true ∧
    toText toyEnv (oneSchema .int32) { FOpts.default with skipUnknown := false } 9 m =
      some "n:1,5:3".toList ∧
    parseText toyEnv (oneSchema .int32) 9 0 "n:1,5:3".toList = .error .unexpected := by
  refine ⟨by decide +kernel, by decide +kernel, by decide +kernel⟩

/-- A group field `x` of message `t.Grp`. -/
def groupSchema : Schema where
  msgs := [
    { name := "t.H".toList, fields := [{ Ex.fld 1 "x" (.message 1) with presence := true, group := true }],
      mapEntry := false, extensions := [] },
    { name := "t.Grp".toList, fields := [], mapEntry := false, extensions := [] }]
  enums := []

/-- C34 does not hold for a group field that is not named like its message in lower case:
the message's name is printed, and the parser does not find it. -/
theorem C34_group_false :
    groupSchema.wf = true ∧ confMsg groupSchema ⟨0, [(1, .val (.msg 1 []))]⟩ = true ∧
    toText toyEnv groupSchema FOpts.default 9 ⟨0, [(1, .val (.msg 1 []))]⟩ = some "Grp{}".toList ∧
    parseText toyEnv groupSchema 9 0 "Grp{}".toList = .error .fieldNotFound := by
  refine ⟨by decide +kernel, by decide +kernel, by decide +kernel, by decide +kernel⟩

/-- The text of the `float` with bits `0x15AE43FD`, `7038531 * 10^-32`. -/
def shortText : List Char := "0.00000000000000000000000007038531".toList

/-- Two roundings are not one.  The number `7038531 * 10^-32` is nearest to the `float` of bits
`0x15AE43FD`, which is `0xAE43FD * 2^-107`: that is why it is printed so.  The nearest double is
`0x15C87FB0000000 * 2^-136`, of bits `0x3AB5C87FB0000000`.  It lies half way between that `float`
and the next, whose last bit is even, so that it is rounded to the next. -/
theorem double_rounding :
    (2 * (7038531 * 2 ^ 107 - 0xAE43FD * 10 ^ 32 : Int)).natAbs < 10 ^ 32 ∧
    (2 * (7038531 * 2 ^ 136 - 0x15C87FB0000000 * 10 ^ 32 : Int)).natAbs < 10 ^ 32 ∧
    2 * (0x15C87FB0000000 * 2 ^ 107) = (0xAE43FD + 0xAE43FE) * 2 ^ 136 ∧ 0xAE43FE % 2 = 0 := by
  decide +kernel

/-- C34 does not hold for the `float` `7.038531e-26` (and its negative): it is printed as the
shortest decimal that rounds to it as a `float`, but read as a double and then narrowed, which
gives the next `float` (`double_rounding`). -/
theorem C34_float_false {env : TEnv} (hs : env.show32 0x15AE43FD#32 = shortText)
    (hp : env.parse64 shortText = some 0x3AB5C87FB0000000#64)
    (hn : env.narrow 0x3AB5C87FB0000000#64 = 0x15AE43FE#32) :
    (oneSchema .float).wf = true ∧ textWf (oneSchema .float) = true ∧
    ∃ m, confMsg (oneSchema .float) m = true ∧ m.fields = [(1, .val (.f32 0x15AE43FD#32))] ∧
      ∀ k, ∃ s, toText env (oneSchema .float) FOpts.default (k + 1) m = some s ∧
        parseText env (oneSchema .float) (k + 1) m.desc s = .ok ⟨0, [(1, .val (.f32 0x15AE43FE#32))]⟩ := by
  refine ⟨by decide +kernel, by decide +kernel, ⟨0, [(1, .val (.f32 0x15AE43FD#32))]⟩, by decide +kernel, rfl,
    fun k => ⟨"n".toList ++ (':' :: (shortText ++ [])), ?_, ?_⟩⟩
  · have h1 : fmtVal env (oneSchema .float) FOpts.default (k + 1) 0 (.f32 0x15AE43FD#32) (some .float) =
        some shortText := by
      simp only [fmtVal, fmtScalar, hs]
    have h2 : items FOpts.default (oneSchema .float) ⟨"t.N".toList, [Ex.fld 1 "n" .float], false, []⟩
        [(1, .val (.f32 0x15AE43FD#32))] = some [.field (Ex.fld 1 "n" .float) (.f32 0x15AE43FD#32)] := by
      decide +kernel
    have h3 : (oneSchema .float).msg? 0 = some ⟨"t.N".toList, [Ex.fld 1 "n" .float], false, []⟩ := rfl
    have h4 : asAny (oneSchema .float) ⟨"t.N".toList, [Ex.fld 1 "n" .float], false, []⟩
        ⟨0, [(1, .val (.f32 0x15AE43FD#32))]⟩ = some none := by
      unfold asAny
      exact if_pos (by decide +kernel)
    have h5 : (Ex.fld 1 "n" .float).kind = .float := rfl
    have h6 : fieldLabel (oneSchema .float) (Ex.fld 1 "n" .float) = some "n".toList := rfl
    simp only [toText, h3, fmtMsg, h4, fmtFields, h2]
    have h7 : fmtItem (oneSchema .float) FOpts.default (k + 1) 0
        (fmtVal env (oneSchema .float) FOpts.default (k + 1) 0)
        (.field (Ex.fld 1 "n" .float) (.f32 0x15AE43FD#32)) = some ("n".toList ++ (':' :: shortText)) := by
      simp only [fmtItem, h5, h1, h6]
      rfl
    show Option.map _ (fmtAll _ [Item.field (Ex.fld 1 "n" .float) (.f32 0x15AE43FD#32)]) = _
    simp only [fmtAll, h7, List.append_nil]
    rfl
  · have hl : lex env.parse64 ("n".toList ++ (':' :: (shortText ++ []))) =
        [.tok (.ident "n".toList), .tok .colon, .tok (.float 0x3AB5C87FB0000000#64)] := by
      rw [lex_ident (by decide) (Halts.cons (by decide)), lex_punct (t := .colon) rfl (by decide),
        show shortText = ['0'] ++ ('.' :: "00000000000000000000000007038531".toList) from rfl,
        lex_float (by decide) (by decide) (by decide) hp Stop.nil]
      rfl
    have h3 : (oneSchema .float).msg? 0 = some ⟨"t.N".toList, [Ex.fld 1 "n" .float], false, []⟩ := rfl
    simp only [parseText, mergeText, hl, mergeToks, DynMsg.empty, h3]
    have h4 : parseField env (oneSchema .float) (parseMsg env (oneSchema .float) (k + 1))
        ⟨"t.N".toList, [Ex.fld 1 "n" .float], false, []⟩ 0 []
        [.tok (.ident "n".toList), .tok .colon, .tok (.float 0x3AB5C87FB0000000#64)] =
        .ok ([(1, .val (.f32 0x15AE43FE#32))], []) := by
      rw [← hn]
      rfl
    simp only [List.length, topLoop, h4]

/-- An environment with that number. -/
example : ∃ env : TEnv, env.show32 0x15AE43FD#32 = shortText ∧
    env.parse64 shortText = some 0x3AB5C87FB0000000#64 ∧
    env.narrow 0x3AB5C87FB0000000#64 = 0x15AE43FE#32 :=
  ⟨{ toyEnv with show32 := fun _ => shortText, parse64 := fun _ => some 0x3AB5C87FB0000000#64,
                 narrow := fun _ => 0x15AE43FE#32 }, rfl, rfl, rfl⟩

end Verif.Props
