import Verif.Text.Left
import Verif.Text.RoundAny
import Verif.Props.TextSafe
set_option autoImplicit false

/-!
C93: what `merge_text_format` leaves in the message when it fails. `mergeTextLeft env S k m text`
is the caller's message after the call, successful or not.
-/
namespace Verif.Props
open Verif.Wire Verif.Dyn Verif.Pool Verif.Text

/-- **C93.** After a call of `merge_text_format`, failed or not, the message is a conforming
message of the same type: everything proved of conforming messages still holds of it. -/
theorem C93_usable {env : TEnv} (hp : ParsesFloats env.parse64) {S : Schema} (hS : S.wf = true)
    (hA : textSafe S = true) (k : Nat) {m : DynMsg} (hm : confMsg S m = true) (text : List Char) :
    confMsg S (mergeTextLeft env S k m text) = true ∧ (mergeTextLeft env S k m text).desc = m.desc :=
  mergeTextLeft_conf hS hA hp hm text

/-- **C93**, the description of the message left agrees with `merge_text_format` when it
succeeds. -/
theorem C93_success {env : TEnv} {S : Schema} {k : Nat} {m m' : DynMsg} {text : List Char}
    (h : mergeText env S k m text = .ok m') : mergeTextLeft env S k m text = m' :=
  mergeTextLeft_ok h

/-- A schema whose `google.protobuf.Any` is the real one can hold an expanded `Any`. -/
theorem AnyBoth.of_like {S : Schema} (h : anysLike S = true) : AnyBoth S := by
  intro md hmd hn
  have := List.all_eq_true.1 h md hmd
  simp only [anyLike, hn, bne_self_eq_false, Bool.false_or, Bool.and_eq_true] at this
  obtain ⟨_, h2⟩ := this
  split at h2
  · rename_i f g hfs
    simp only [anyField, Bool.and_eq_true, beq_iff_eq] at h2
    refine ⟨g, ?_, ?_⟩
    · simp [MsgDesc.getField, hfs, h2]
    · simp [h2]
  · cases h2

/-- **C93**, on an error: the message is what merging the first tokens of the text alone gives,
and that succeeds. A field is written whole or not at all, unlike when decoding
(`C92_prefix`). -/
theorem C93_prefix {env : TEnv} (hp : ParsesFloats env.parse64) {S : Schema} (hS : S.wf = true)
    (hA : textSafe S = true) (hB : AnyBoth S) {k : Nat} {m : DynMsg} (hm : confMsg S m = true)
    {text : List Char} {e : TErr} (h : mergeText env S k m text = .error e) :
    ∃ c r, lex env.parse64 text = c ++ r ∧ mergeToks env S k m c = .ok (mergeTextLeft env S k m text) :=
  mergeTextLeft_error hS hA hB hp hm text h

/-- **C93**, what was read stays: after the fields named `ns` have been read, a singular field that
is present then is present with the same value when the call returns, whatever the rest of
the text is. -/
theorem C93_read {env : TEnv} (hp : ParsesFloats env.parse64) {S : Schema} (hS : S.wf = true)
    (hA : textSafe S = true) (hB : AnyBoth S) {k : Nat} {m : DynMsg} (hm : confMsg S m = true)
    {text : List Char} {md : MsgDesc} (hd : S.msg? m.desc = some md) (ha : md.name ≠ anyName)
    {ns : List FName} {fs : FieldSet} {r : List LTok}
    (hr : Run env S (parseMsg env S k) md m.desc m.fields (lex env.parse64 text) ns fs r)
    {f : FieldDesc} (hf : Known S m.desc f) (hc : f.card ≠ .repeated)
    (hh : (DynMsg.mk m.desc fs).hasField S f = some true) :
    (mergeTextLeft env S k m text).hasField S f = some true ∧
      (mergeTextLeft env S k m text).getField S f = (DynMsg.mk m.desc fs).getField S f := by
  have := mergeTextLeft_read hS hA hB hp hm hd ha hr hf hc hh
  refine ⟨(has_congr this).trans hh, ?_⟩
  unfold DynMsg.getField FieldSet.get FieldSet.getValue
  rw [this]

/-- **C93**, a failing call does not take away or change a singular field that was set before
it (a failing `merge` can: `C92_atomic_false`). -/
theorem C93_kept {env : TEnv} (hp : ParsesFloats env.parse64) {S : Schema} (hS : S.wf = true)
    (hA : textSafe S = true) (hB : AnyBoth S) {k : Nat} {m : DynMsg} (hm : confMsg S m = true)
    (text : List Char) {md : MsgDesc} (hd : S.msg? m.desc = some md) (ha : md.name ≠ anyName)
    {f : FieldDesc} (hf : Known S m.desc f) (hc : f.card ≠ .repeated)
    (hh : m.hasField S f = some true) :
    (mergeTextLeft env S k m text).hasField S f = some true ∧
      (mergeTextLeft env S k m text).getField S f = m.getField S f :=
  C93_read hp hS hA hB hm hd ha (.nil _ _) hf hc hh

/-- **C93, what does not hold:** a failing call is not undone. The fields before the error stay
in the message. -/
theorem C93_atomic_false :
    mergeText exEnv Ex.schema 5 (DynMsg.empty 0) "a:1 xs:[2,3] nope:4".toList = .error .fieldNotFound ∧
    mergeTextLeft exEnv Ex.schema 5 (DynMsg.empty 0) "a:1 xs:[2,3] nope:4".toList =
      ⟨0, [(1, .val (.i32 1)), (4, .val (.list [.i32 2, .i32 3]))]⟩ := by
  decide +kernel

/-- A `google.protobuf.Any` without the field for the value, which a pool accepts. -/
def halfAny : Schema :=
  { msgs := [{ name := anyName, mapEntry := false, extensions := [], fields := [
      { number := 1, name := "type_url".toList, jsonName := "typeUrl".toList, kind := .string,
        card := .optional, group := false, presence := false, packed := false, default := none,
        oneof := none }] }], enums := [] }

/-- `AnyBoth` is needed: without field 2 the type URL is written although the call fails, and
no part of the text would have written it. -/
theorem C93_any_false :
    halfAny.wf = true ∧ textSafe halfAny = true ∧
    mergeText exEnv halfAny 5 (DynMsg.empty 0) "[a/google.protobuf.Any]{}".toList = .error .invalidAny ∧
    mergeTextLeft exEnv halfAny 5 (DynMsg.empty 0) "[a/google.protobuf.Any]{}".toList =
      ⟨0, [(1, .val (.str (utf8Encode "a/google.protobuf.Any".toList)))]⟩ := by
  decide +kernel

example : ParsesFloats exEnv.parse64 ∧ Ex.schema.wf = true ∧ textSafe Ex.schema = true ∧
    anysLike Ex.schema = true ∧ anysLike anySchema = true ∧ confMsg Ex.schema Ex.small = true :=
  ⟨fun _ _ => rfl, by decide +kernel, by decide +kernel, by decide +kernel, by decide +kernel, by decide +kernel⟩

/-- The hypothesis of `C93_read`: the field `a` is read, what follows is not a field. -/
example : ∃ r, Run exEnv Ex.schema (parseMsg exEnv Ex.schema 5) exM 0 [] (lex exEnv.parse64 "a:1 nope:4".toList)
      [.ident "a".toList] [(1, .val (.i32 1))] r ∧ r ≠ [] ∧
    (DynMsg.mk 0 [(1, .val (.i32 1))]).hasField Ex.schema Ex.fA = some true ∧
    Ex.fA.card ≠ .repeated ∧ exM.name ≠ anyName :=
  ⟨[.tok (.ident "nope".toList), .tok .colon, .tok (.int ['4'] 10)],
    .cons (r := [.tok .colon, .tok (.int ['1'] 10), .tok (.ident "nope".toList), .tok .colon,
      .tok (.int ['4'] 10)]) rfl rfl (.nil _ _), by simp, by decide +kernel, by decide, by decide⟩

/-- A nested message is dropped whole, and the list keeps what earlier fields gave it. -/
example : mergeTextLeft exEnv Ex.schema 5 (DynMsg.empty 0) "xs:7 child{a:1 nope:2}".toList =
      ⟨0, [(4, .val (.list [.i32 7]))]⟩ ∧
    mergeTextLeft exEnv Ex.schema 5 (DynMsg.empty 0) "xs:[7, xs:8".toList = DynMsg.empty 0 := by
  decide +kernel

/-- A token that cannot be read right after a field: the field is there, except after a
string, where the parser looks for another one. -/
example : mergeText exEnv Ex.schema 5 (DynMsg.empty 0) "a:1 $".toList = .error .lex ∧
    mergeTextLeft exEnv Ex.schema 5 (DynMsg.empty 0) "a:1 $".toList = ⟨0, [(1, .val (.i32 1))]⟩ ∧
    mergeText exEnv Ex.schema 5 (DynMsg.empty 0) "o1:\"x\" $".toList = .error .lex ∧
    mergeTextLeft exEnv Ex.schema 5 (DynMsg.empty 0) "o1:\"x\" $".toList = DynMsg.empty 0 := by
  decide +kernel

end Verif.Props
