import Verif.Text.ShowAny
import Verif.Text.OneText
import Verif.Props.TextLayout
/-!
C104: printing ends.  A message of the type its descriptor says, with any unknown fields and `Any`s, has a text under
every choice of options; so do unknown fields by themselves.
-/
set_option autoImplicit false
namespace Verif.Props
open Verif.Wire Verif.Dyn Verif.Pool Verif.Text

/-- **C104, unknown fields.** Every unknown field has a text, although the bytes in it are read as fields again and
again: a stack as deep as the encoding is long is enough. -/
theorem C104_unknown (alt : Bool) (n : Nat) (v : UVal) :
    ∃ s, ∀ k, lenUVal n v ≤ k → displayUnknown alt k (n, v) = some s := by
  obtain ⟨s, hs⟩ := fmtUnknown_shows (displayOpts alt) (lenUVal n v) 0 n v (Nat.le_refl _)
  exact ⟨s, fun k hk => fmtUnknown_gives_le _ 0 _ hk s hs⟩

/-- Bytes that are fields that are fields. -/
example : lenUVal 1 (.len [0x0a, 0x04, 0x0a, 0x02, 0x08, 0x05]) = 8 ∧
    displayUnknown false 8 (1, .len [0x0a, 0x04, 0x0a, 0x02, 0x08, 0x05]) = some "1{1{1{1:5}}}".toList ∧
    displayUnknown false 3 (1, .len [0x0a, 0x04, 0x0a, 0x02, 0x08, 0x05]) = none := by
  decide +kernel

/-- **C104, messages.** A message that conforms to its descriptor has a text.  Default values, field order, layout
and unknown fields may be chosen at will; so may the expansion of `Any`s, if `google.protobuf.Any` is defined as in
`any.proto`. -/
theorem C104_message {S : Schema} (hS : S.wf = true) (env : TEnv) {o : FOpts}
    (ho : o.expandAny = false ∨ anysLike S = true) {m : DynMsg} (hm : confMsg S m = true) :
    ∃ s k0, ∀ k, k0 ≤ k → toText env S o k m = some s := by
  have main : ∃ k0, ∀ k, k0 ≤ k → ∃ s, toText env S o k m = some s := ?_
  · obtain ⟨k0, h0⟩ := main
    obtain ⟨s, hs⟩ := h0 k0 (Nat.le_refl _)
    exact ⟨s, k0, fun k hk => toText_gives env S o m hk s hs⟩
  rcases ho with ho | ho
  · refine (toText_shows (P := fun _ => True) hS ?_ hm (keepVal_all (fun _ => trivial) _)).1
    intro md d fs url body he hC _ ha
    rw [ho] at he; cases he
  · exact (toText_any hS ho _ m hm (Nat.lt_succ_self _)).1

/-- A message with unknown fields, a message with a message in an `Any`, and one with an `Any` in an `Any`. -/
def strangeMsg : DynMsg := ⟨2, [(3, .val (.i32 4)), (7, .unknown [(7, .len [0x08, 0x05]), (7, .group [])])]⟩
def carrier : DynMsg :=
  ⟨2, [(1, .val (.msg 0 [(1, .val (.str (utf8Encode "a/t.N".toList))), (2, .val (.bytes [0x08, 0x05]))]))]⟩
def twice : DynMsg :=
  ⟨0, [(1, .val (.str (utf8Encode "a/google.protobuf.Any".toList))),
    (2, .val (.bytes (0x0a :: 0x05 :: (utf8Encode "a/t.N".toList ++ [0x12, 0x02, 0x08, 0x05]))))]⟩

example : outerSchema.wf = true ∧ anysLike outerSchema = true ∧ confMsg outerSchema strangeMsg = true ∧
    confMsg outerSchema carrier = true ∧ confMsg outerSchema twice = true := by
  decide +kernel

example :
    toText toyEnv outerSchema { FOpts.default with expandAny := false, skipUnknown := false } 9 strangeMsg =
      some "n:4,7{1:5},7{}".toList ∧
    toText toyEnv outerSchema FOpts.default 9 carrier = some "a{[a/t.N]{n:5}}".toList ∧
    toText toyEnv outerSchema FOpts.default 9 twice = some "[a/google.protobuf.Any]{[a/t.N]{n:5}}".toList := by
  decide +kernel

/-- **C104, `Display`.** As for text with the default options; a message as a value has a text too. -/
theorem C104_display {S : Schema} (hS : S.wf = true) (env : TEnv) (alt : Bool) (ho : anysLike S = true) {m : DynMsg}
    (hm : confMsg S m = true) :
    ∃ s s' k0, ∀ k, k0 ≤ k → displayMsg env S alt k m = some s ∧ displayValue env S alt k m.toValue = some s' := by
  obtain ⟨⟨a, ha⟩, b, hb⟩ := toText_any (env := env) (o := displayOpts alt) hS ho _ m hm (Nat.lt_succ_self _)
  obtain ⟨s, hs⟩ := ha a (Nat.le_refl _)
  obtain ⟨s', hs'⟩ := hb b (Nat.le_refl _) 0
  exact ⟨s, s', max a b, fun k hk => ⟨toText_gives env S _ m (by omega) s hs,
    fmtVal_gives_le env S _ 0 _ none (by omega) s' hs'⟩⟩

/-- **C104, one text.** How deep the stack is does not change the text of a message, a value or an unknown field: two
prints that both end write the same. -/
theorem C104_one (env : TEnv) (S : Schema) (o : FOpts) (alt : Bool) (k k' : Nat) :
    (∀ (m : DynMsg) {s s' : List Char}, toText env S o k m = some s → toText env S o k' m = some s' → s = s') ∧
    (∀ (v : Value) {s s' : List Char}, displayValue env S alt k v = some s →
      displayValue env S alt k' v = some s' → s = s') ∧
    (∀ (u : UField) {s s' : List Char}, displayUnknown alt k u = some s → displayUnknown alt k' u = some s' →
      s = s') := by
  have key : ∀ {f : Nat → Option (List Char)}, (∀ {a b : Nat}, a ≤ b → Gives (f a) (f b)) → ∀ {s s' : List Char},
      f k = some s → f k' = some s' → s = s' := by
    intro f hf s s' h h'
    rcases Nat.le_total k k' with hk | hk
    · have := hf hk s h
      rw [h'] at this
      exact (Option.some.inj this).symm
    · have := hf hk s' h'
      rw [h] at this
      exact Option.some.inj this
  exact ⟨fun m _ _ => key (f := fun k => toText env S o k m) (fun h => toText_gives env S o m h),
    fun v _ _ => key (f := fun k => displayValue env S alt k v) (fun h => fmtVal_gives_le env S _ 0 v none h),
    fun u _ _ => key (f := fun k => displayUnknown alt k u) (fun h => fmtUnknown_gives_le _ 0 u h)⟩

example : displayUnknown false 8 (1, .len [0x0a, 0x02, 0x08, 0x05]) = some "1{1{1:5}}".toList ∧
    displayUnknown false 4 (1, .len [0x0a, 0x02, 0x08, 0x05]) = some "1{1{1:5}}".toList := by
  decide +kernel

/-- **C104, values.** A value by itself, of whatever shape, has a text if the messages in its lists and maps conform:
nothing is asked of the types of list elements, map keys or map values. -/
theorem C104_value {S : Schema} (hS : S.wf = true) (env : TEnv) (alt : Bool) (ho : anysLike S = true) {v : Value}
    (hv : ∀ d fs, HeldIn v (.msg d fs) → confMsg S ⟨d, fs⟩ = true) :
    ∃ s k0, ∀ k, k0 ≤ k → displayValue env S alt k v = some s := by
  obtain ⟨a, ha⟩ := value_prints (env := env) (o := displayOpts alt) hS ho _ v (Nat.lt_succ_self _) hv
  obtain ⟨s, hs⟩ := ha a (Nat.le_refl _) 0
  exact ⟨s, a, fun k hk => fmtVal_gives_le env S _ 0 v none hk s hs⟩

/-- A list of a number, a map and a message. -/
def motley : Value := .list [.i32 4, .map [(.bool true, .list [])], .msg 2 []]

example : ∀ d fs, HeldIn motley (.msg d fs) → confMsg outerSchema ⟨d, fs⟩ = true := by
  intro d fs h
  cases h with
  | list hm h =>
    simp only [List.mem_cons, List.not_mem_nil, or_false] at hm
    rcases hm with rfl | rfl | rfl
    · cases h
    · cases h with
      | map hp h =>
        simp only [List.mem_singleton] at hp
        subst hp
        cases h with
        | list hn _ => cases hn
    · cases h
      decide +kernel

example : displayValue toyEnv outerSchema false 5 motley = some "[4,[{key:true,value:[]}],{}]".toList := by
  decide +kernel

/-- **C104, contents.** The message in an `Any` is shorter than the `Any`: taken together, the strings, byte strings
and unknown fields of a decoded message are no longer than the bytes it was decoded from. -/
theorem C104_contents {S : Schema} (hS : S.wf = true) {d : Nat} {md : MsgDesc} (hd : S.msg? d = some md) {b : Bytes}
    {m : DynMsg} (h : decode S d b = .ok m) : heftMsg m ≤ b.length :=
  decode_heft hS hd h

example : heftMsg twice = 23 + 13 ∧
    (match decode outerSchema 0 (0x0a :: 0x05 :: (utf8Encode "a/t.N".toList ++ [0x12, 0x02, 0x08, 0x05])) with
      | .ok m => heftMsg m == 11
      | .error _ => false) = true := by
  decide +kernel

end Verif.Props
