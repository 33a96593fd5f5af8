import Verif.Text.RoundAny
import Verif.Props.TextRound
import Verif.Props.JsonAny
/-!
The text format round-trip of an expanded `google.protobuf.Any` (C34).
-/
set_option autoImplicit false
namespace Verif.Props
open Verif.Wire Verif.Dyn Verif.Pool Verif.Text
open Verif.Json (AnySays anyPay)

/-- C34 with `Any` expanded, as it is by default: printing a message succeeds, and parsing the text
with the same descriptor gives a message of the same type that is alike, where two `Any`s are alike when
they have the same type URL and what the bytes of the first decode as is alike to what the bytes of the
second encode (`anyPay`; `C43_any_bytes` says what the bytes of the second decode as).  The `Any`s may
hold others, to any number `n` of levels; each level needs 205 more levels of stack, since a decoded
message is at most 101 levels deep.
`TextAnyOk` is asked of the message and every message in it, down to those in `Any`s: an `Any` that is
expanded has a type URL of two dotted names with one slash between (others are printed as
they are, and rejected: `C34_any_false`).
Missing: unknown fields that are printed (`C34_unknown_false`), and one `float` (`C34_float_false`). -/
theorem C34_any_partial {env : TEnv} {S : Schema} {o : FOpts} (hwf : S.wf = true) (hnames : textWf S = true)
    (hsafe : textSafe S = true) (hlike : anysLike S = true) (hfloats : FloatSpec env)
    (hparse : ParsesFloats env.parse64) (henums : NamesEnums env) (hskip : o.skipUnknown = true) (n : Nat)
    {m : DynMsg} (hm : confMsg S m = true) (ho : TextAnyOk S n m) (hk : keepSlots textF32 (TextAnyOk S n) m.fields)
    {k : Nat} (hd : 2 * depthMsg m + 2 + 205 * n ≤ k) :
    ∃ s m', toText env S o k m = some s ∧ parseText env S k m.desc s = .ok m' ∧ m'.desc = m.desc ∧
      AlikeMsgBy S (anyPay S) m m' := by
  obtain ⟨s, hs⟩ := toText_total (textAny_prints (env := env) hwf hnames hskip hlike n) hm ho hk hd
  obtain ⟨m', h1, h2⟩ := text_reads (textAny_ctx hwf hnames hfloats hparse henums hskip hsafe hlike n)
    (Nat.le_refl k) hm ho hk hs
  refine ⟨s, m', hs, h1, ?_, h2⟩
  cases m with
  | mk d fs =>
    cases m' with
    | mk d' gs =>
      cases h2 with
      | refl => rfl
      | msg => rfl
      | pay hp => rfl

/-! ### The hypotheses can be met -/

/-- An `Any` with a `t.N`, in an `Any`. -/
def innerAny : DynMsg := ⟨0, [(1, .val (.str (utf8Encode "a/t.N".toList))), (2, .val (.bytes [8, 1]))]⟩
/-- The bytes of `innerAny`. -/
def innerBytes : Bytes := [10, 5, 97, 47, 116, 46, 78, 18, 2, 8, 1]
/-- An `Any` with that. -/
def outerAny : DynMsg :=
  ⟨0, [(1, .val (.str (utf8Encode "b.c/google.protobuf.Any".toList))), (2, .val (.bytes innerBytes))]⟩

example : anyN.wf = true ∧ textWf anyN = true ∧ textSafe anyN = true ∧ anysLike anyN = true ∧
    confMsg anyN outerAny = true ∧ ParsesFloats toyEnv.parse64 :=
  ⟨by decide +kernel, by decide +kernel, by decide +kernel, by decide +kernel, by decide +kernel, fun _ _ => rfl⟩

theorem says_of {S : Schema} {m : DynMsg} {md : MsgDesc} {u url : List Char} {v b : Bytes} (hmd : S.msg? m.desc = some md)
    (h1 : DynMsg.getByNumber S md m 1 = some (some (.str (utf8Encode u))))
    (h2 : DynMsg.getByNumber S md m 2 = some (some (.bytes v))) (h : AnySays S m url b) : url = u ∧ b = v := by
  obtain ⟨md', h3, -, h4, h5⟩ := h.type
  rw [hmd] at h3
  cases h3
  rw [h1] at h4
  rw [h2] at h5
  simp only [Option.some.injEq, Value.str.injEq, Value.bytes.injEq] at h4 h5
  have := utf8Decode_encode u
  rw [h4, utf8Decode_encode] at this
  exact ⟨Option.some.inj this, h5.symm⟩

theorem outer_ok : TextAnyOk anyN 2 outerAny := by
  intro md hmd _
  refine ⟨by decide +kernel, fun b hb => ?_, fun url b n p h1 h2 h3 h4 => ?_⟩
  · have : encMsg anyN outerAny = some ([10, 23, 98, 46, 99, 47, 103, 111, 111, 103, 108, 101, 46, 112, 114, 111, 116, 111,
      98, 117, 102, 46, 65, 110, 121, 18, 11] ++ innerBytes) := by decide +kernel
    rw [this] at hb
    cases hb
    decide
  · obtain ⟨rfl, rfl⟩ := says_of (u := "b.c/google.protobuf.Any".toList) (v := innerBytes) hmd (by cases hmd; rfl)
      (by cases hmd; rfl) h1
    have e1 : urlName "b.c/google.protobuf.Any".toList = some anyName := by decide +kernel
    rw [e1] at h2
    cases h2
    have e2 : Schema.msgByName anyN anyName = some 0 := by decide +kernel
    rw [e2] at h3
    have h3 := Option.some.inj h3
    rw [← h3] at h4
    have e3 : decode anyN 0 innerBytes = .ok innerAny := by decide +kernel
    rw [e3] at h4
    cases h4
    refine ⟨⟨"b.c".toList, by decide +kernel, by decide +kernel, by decide +kernel⟩, ?_, ?_⟩
    · intro md hmd _
      refine ⟨by decide +kernel, fun b hb => ?_, fun url b n p h1 h2 h3 h4 => ?_⟩
      · have : encMsg anyN innerAny = some innerBytes := by decide +kernel
        rw [this] at hb
        cases hb
        decide
      · obtain ⟨rfl, rfl⟩ := says_of (u := "a/t.N".toList) (v := [8, 1]) hmd (by cases hmd; rfl)
          (by cases hmd; rfl) h1
        have e1 : urlName "a/t.N".toList = some "t.N".toList := by decide +kernel
        rw [e1] at h2
        cases h2
        have e2 : Schema.msgByName anyN "t.N".toList = some 1 := by decide +kernel
        rw [e2] at h3
        have h3 := Option.some.inj h3
        rw [← h3] at h4
        have e3 : decode anyN 1 [8, 1] = .ok ⟨1, [(1, .val (.i32 1))]⟩ := by decide +kernel
        rw [e3] at h4
        cases h4
        refine ⟨⟨"a".toList, by decide +kernel, by decide +kernel, by decide +kernel⟩, ?_, ?_⟩
        · intro md hmd
          cases hmd
          decide +kernel
        · simp [keepSlots, keepVal]
    · simp [innerAny, keepSlots, keepVal]
example : keepSlots textF32 (TextAnyOk anyN 2) outerAny.fields := by
  simp [outerAny, keepSlots, keepVal]
example : 2 * depthMsg outerAny + 2 + 205 * 2 ≤ 412 := by decide
example : toText toyEnv anyN FOpts.default 9 outerAny =
    some "[b.c/google.protobuf.Any]{[a/t.N]{n:1}}".toList := by decide +kernel
example : parseText toyEnv anyN 9 0 "[b.c/google.protobuf.Any]{[a/t.N]{n:1}}".toList = .ok outerAny := by decide +kernel

end Verif.Props
