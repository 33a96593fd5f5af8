import Verif.Text.Layout
import Verif.Text.Display
import Verif.Props.TextRound
/-!
C103: what the `pretty` option changes in the text format, and the characters of a text.
-/
set_option autoImplicit false
namespace Verif.Props
open Verif.Wire Verif.Dyn Verif.Pool Verif.Text

/-- C103: for every schema, message and choice of the other options, the pretty and the
compact text either both exist or both do not, and then consist of the same words in the
same order.  A word is a name, a number, a quoted string or a bracketed name, so nothing
inside a string is touched.  Between the words the two differ as `Layout` says: spaces, and
lines indented by two spaces for each pair of braces around them. -/
theorem C103_layout (env : TEnv) (S : Schema) (o : FOpts) (k : Nat) (m : DynMsg) :
    (toText env S { o with pretty := true } k m = none ↔ toText env S { o with pretty := false } k m = none) ∧
    ∀ p c, toText env S { o with pretty := true } k m = some p → toText env S { o with pretty := false } k m = some c →
      Layout (Word env S o.expandAny) 0 p c := by
  have h : LRel _ _ (toText env S { o with pretty := true } k m) (toText env S { o with pretty := false } k m) :=
    toText_rel (env := env) (S := S) (o := o) k m
  revert h
  cases toText env S { o with pretty := true } k m with
  | none =>
    cases toText env S { o with pretty := false } k m with
    | none => exact fun _ => ⟨Iff.rfl, fun _ _ h => by cases h⟩
    | some c => exact False.elim
  | some p =>
    cases toText env S { o with pretty := false } k m with
    | none => exact False.elim
    | some c => exact fun h => ⟨⟨(nomatch ·), (nomatch ·)⟩, fun _ _ h1 h2 => by cases h1; cases h2; exact h⟩

theorem rel_cases {W : List Char → Prop} {d : Nat} : ∀ {x y : Option (List Char)}, LRel W d x y →
    (x = none ∧ y = none) ∨ ∃ p c, x = some p ∧ y = some c ∧ Layout W d p c
  | none, none, _ => .inl ⟨rfl, rfl⟩
  | some p, some c, h => .inr ⟨p, c, rfl, rfl, h⟩
  | none, some _, h => h.elim
  | some _, none, h => h.elim

/-- C103 for `{:#}` and `{}` of messages, values of any kind and unknown fields. -/
theorem C103_display (env : TEnv) (S : Schema) (k : Nat) :
    (∀ m, (displayMsg env S true k m = none ∧ displayMsg env S false k m = none) ∨
      ∃ p c, displayMsg env S true k m = some p ∧ displayMsg env S false k m = some c ∧ Layout (Word env S true) 0 p c) ∧
    (∀ v, (displayValue env S true k v = none ∧ displayValue env S false k v = none) ∨
      ∃ p c, displayValue env S true k v = some p ∧ displayValue env S false k v = some c ∧ Layout (Word env S true) 0 p c) ∧
    ∀ u, (displayUnknown true k u = none ∧ displayUnknown false k u = none) ∨
      ∃ p c, displayUnknown true k u = some p ∧ displayUnknown false k u = some c ∧ Layout (Word env S true) 0 p c :=
  ⟨fun m => rel_cases (toText_rel (o := FOpts.default) k m),
    fun v => rel_cases (fmtVal_rel (o := FOpts.default) k 0 0 v none).rel,
    fun u => rel_cases (fmtUnknown_rel (o := FOpts.default) k 0 0 u)⟩

/-- A character of printable ASCII. -/
def Printable (c : Char) : Prop := 32 ≤ c.toNat ∧ c.toNat ≤ 126

instance (c : Char) : Decidable (Printable c) := inferInstanceAs (Decidable (_ ∧ _))

/-- The names of a schema and the texts of floats are printable ASCII. -/
structure PrintableNames (env : TEnv) (S : Schema) : Prop where
  msg : ∀ md ∈ S.msgs, ∀ c ∈ md.name, Printable c
  field : ∀ md ∈ S.msgs, ∀ f ∈ md.fields, ∀ c ∈ f.name, Printable c
  ext : ∀ md ∈ S.msgs, ∀ f ∈ md.extensions, ∀ c ∈ f.name, Printable c
  enum : ∀ ed ∈ S.enums, ∀ v n, env.enumName ed v = some n → ∀ c ∈ n, Printable c
  f32 : ∀ v, ∀ c ∈ env.show32 v, Printable c
  f64 : ∀ v, ∀ c ∈ env.show64 v, Printable c

theorem digitChar_printable {n : Nat} (h : n < 10) : Printable (digitChar n) := by
  have : ∀ n : Fin 10, Printable (digitChar n.1) := by decide
  exact this ⟨n, h⟩

theorem decDigits_printable (n : Nat) : ∀ c ∈ decDigits n, Printable c := by
  induction n using Nat.strongRecOn with
  | ind n ih =>
    intro c hc
    rw [decDigits] at hc
    by_cases hn : n < 10
    · rw [if_pos hn] at hc
      rcases List.mem_singleton.1 hc with rfl
      exact digitChar_printable hn
    · rw [if_neg hn] at hc
      rcases List.mem_append.1 hc with hc | hc
      · exact ih (n / 10) (by omega) c hc
      · rcases List.mem_singleton.1 hc with rfl
        exact digitChar_printable (by omega)

theorem decInt_printable (i : Int) : ∀ c ∈ decInt i, Printable c := by
  intro c hc
  unfold decInt at hc
  split at hc
  · rcases List.mem_cons.1 hc with rfl | hc
    · decide
    · exact decDigits_printable _ c hc
  · exact decDigits_printable _ c hc

theorem hexPad_printable : ∀ (w n : Nat), ∀ c ∈ hexPad w n, Printable c
  | 0, _, c, hc => by cases hc
  | w + 1, n, c, hc => by
    rcases List.mem_append.1 hc with hc | hc
    · exact hexPad_printable w _ c hc
    · rcases List.mem_singleton.1 hc with rfl
      have : ∀ n : Fin 16, Printable (hexChar n.1) := by decide
      exact this ⟨n % 16, Nat.mod_lt _ (by decide)⟩

theorem fmtByte_printable (b : UInt8) : ∀ c ∈ fmtByte b, Printable c := by
  have : ∀ n : Fin 256, ∀ c ∈ fmtByte (UInt8.ofNat n.1), Printable c := by decide +kernel
  have h := this ⟨b.toNat, b.toNat_lt⟩
  simpa using h

theorem fmtString_printable (b : Bytes) : ∀ c ∈ fmtString b, Printable c := by
  have h : ∀ b : Bytes, ∀ c ∈ fmtBytes b, Printable c := by
    intro b
    induction b with
    | nil => intro c hc; cases hc
    | cons x r ih =>
      intro c hc
      rcases List.mem_append.1 hc with hc | hc
      · exact fmtByte_printable x c hc
      · exact ih c hc
  intro c hc
  rcases List.mem_cons.1 hc with rfl | hc
  · decide
  · rcases List.mem_append.1 hc with hc | hc
    · exact h b c hc
    · rcases List.mem_singleton.1 hc with rfl
      decide

theorem shortName_mem {n : Name} {c : Char} (h : c ∈ shortName n) : c ∈ n := by
  have := (List.takeWhile_sublist _).subset (List.mem_reverse.1 h)
  simpa using this

theorem word_printable {env : TEnv} {S : Schema} (hn : PrintableNames env S) {any : Bool}
    (ha : any = false ∨ ∀ md ∈ S.msgs, md.name ≠ anyName) {w : List Char} (h : Word env S any w) :
    ∀ c ∈ w, Printable c := by
  have bracket : ∀ {n : List Char}, (∀ c ∈ n, Printable c) → ∀ c ∈ '[' :: (n ++ [']']), Printable c := by
    intro n hn c hc
    rcases List.mem_cons.1 hc with rfl | hc
    · decide
    · rcases List.mem_append.1 hc with hc | hc
      · exact hn c hc
      · rcases List.mem_singleton.1 hc with rfl
        decide
  cases h with
  | field hm hf => exact hn.field _ hm _ hf
  | ext hm hf => exact bracket (hn.ext _ hm _ hf)
  | group hm => exact fun c hc => hn.msg _ hm c (shortName_mem hc)
  | url hx hm hu =>
    rcases ha with ha | ha
    · rw [ha] at hx; cases hx
    · unfold asAny at hu
      rw [if_pos (ha _ hm)] at hu
      cases hu
  | enum he hv => exact hn.enum _ he _ _ hv
  | int i => exact decInt_printable i
  | nat n => exact decDigits_printable n
  | hex w n =>
    intro c hc
    rcases List.mem_cons.1 hc with rfl | hc
    · decide
    · rcases List.mem_cons.1 hc with rfl | hc
      · decide
      · exact hexPad_printable w n c hc
  | f32 v => exact hn.f32 v
  | f64 v => exact hn.f64 v
  | bool b => cases b <;> decide
  | str b => exact fmtString_printable b
  | key => decide
  | value => decide

theorem layout_printable {W : List Char → Prop} (hw : ∀ w, W w → ∀ c ∈ w, Printable c) {d : Nat} {p c : List Char}
    (h : Layout W d p c) : (∀ x ∈ p, Printable x ∨ x = '\n') ∧ ∀ x ∈ c, Printable x := by
  have line : ∀ (d : Nat), ∀ x ∈ lineStart d, Printable x ∨ x = '\n' := by
    intro d x hx
    rcases List.mem_cons.1 hx with rfl | hx
    · exact .inr rfl
    · rw [(List.mem_replicate.1 hx).2]; exact .inl (by decide)
  have one : ∀ {P : Char → Prop} {a : Char} {l : List Char}, P a → (∀ x ∈ l, P x) → ∀ x ∈ a :: l, P x := by
    intro P a l ha hl x hx
    rcases List.mem_cons.1 hx with rfl | hx
    · exact ha
    · exact hl x hx
  have app : ∀ {P : Char → Prop} {a l : List Char}, (∀ x ∈ a, P x) → (∀ x ∈ l, P x) → ∀ x ∈ a ++ l, P x := by
    intro P a l ha hl x hx
    rcases List.mem_append.1 hx with hx | hx
    · exact ha x hx
    · exact hl x hx
  induction h with
  | nil => exact ⟨fun _ h => (by cases h), fun _ h => (by cases h)⟩
  | word h _ ih => exact ⟨app (fun x hx => .inl (hw _ h x hx)) ih.1, app (hw _ h) ih.2⟩
  | colon _ ih => exact ⟨one (.inl (by decide)) (one (.inl (by decide)) ih.1), one (by decide) ih.2⟩
  | comma _ ih => exact ⟨one (.inl (by decide)) (one (.inl (by decide)) ih.1), one (by decide) ih.2⟩
  | gap _ ih => exact ⟨one (.inl (by decide)) ih.1, ih.2⟩
  | left _ ih => exact ⟨one (.inl (by decide)) ih.1, one (by decide) ih.2⟩
  | right _ ih => exact ⟨one (.inl (by decide)) ih.1, one (by decide) ih.2⟩
  | sep _ ih => exact ⟨app (line _) ih.1, one (by decide) ih.2⟩
  | empty _ ih =>
    exact ⟨one (.inl (by decide)) (one (.inl (by decide)) ih.1), one (by decide) (one (by decide) ih.2)⟩
  | block _ _ ih1 ih2 =>
    exact ⟨one (.inl (by decide)) (app (line _) (app ih1.1 (app (line _) (one (.inl (by decide)) ih2.1)))),
      one (by decide) (app ih1.2 (one (by decide) ih2.2))⟩

/-- A message with a string, a child, a list and a map, for the examples. -/
def layoutMsg : DynMsg :=
  ⟨0, [(2, .val (.str [65, 10, 34, 32, 58])), (3, .val (.msg 0 [(1, .val (.i32 7))])),
    (4, .val (.list [.i32 1, .i32 2])),
    (5, .val (.map [(.str [120], .f64 0x3FF0000000000000#64)]))]⟩

example : toText exEnv Ex.schema { FOpts.default with pretty := true } 9 layoutMsg =
    some "s: \"A\\n\\\" :\"\nchild {\n  a: 7\n}\nxs: [1, 2]\ntags: [{\n  key: \"x\"\n  value: 1.0\n}]".toList ∧
    toText exEnv Ex.schema { FOpts.default with pretty := false } 9 layoutMsg =
    some "s:\"A\\n\\\" :\",child{a:7},xs:[1,2],tags:[{key:\"x\",value:1.0}]".toList := by decide +kernel

example : displayValue exEnv Ex.schema true 9 (.map [(.i32 1, .u32 2)]) = some "[{\n  key: 1\n  value: 2\n}]".toList ∧
    displayValue exEnv Ex.schema false 9 (.map [(.i32 1, .u32 2)]) = some "[{key:1,value:2}]".toList ∧
    displayUnknown true 9 (3, .len [0x10, 0x42]) = some "3 {\n  2: 66\n}".toList ∧
    displayUnknown false 9 (3, .len [0x10, 0x42]) = some "3{2:66}".toList := by decide +kernel

/-- C103: with names in printable ASCII, whatever the strings, bytes and unknown fields of
the message hold, compact text is one line of printable ASCII, and pretty text has line
breaks besides.
Missing: expanded `Any`s (`C103_url_false`). -/
theorem C103_printable_partial {env : TEnv} {S : Schema} (hn : PrintableNames env S) {o : FOpts}
    (ha : o.expandAny = false ∨ ∀ md ∈ S.msgs, md.name ≠ anyName) {k : Nat} {m : DynMsg} {s : List Char}
    (h : toText env S o k m = some s) :
    (∀ x ∈ s, Printable x ∨ (o.pretty = true ∧ x = '\n')) := by
  have hrel := C103_layout env S o k m
  cases hp : o.pretty with
  | true =>
    have e : { o with pretty := true } = o := by cases o; cases hp; rfl
    rw [e] at hrel
    cases hc : toText env S { o with pretty := false } k m with
    | none => rw [hrel.1.2 hc] at h; cases h
    | some c =>
      intro x hx
      rcases (layout_printable (fun w => word_printable hn ha) (hrel.2 s c h hc)).1 x hx with h | h
      · exact .inl h
      · exact .inr ⟨rfl, h⟩
  | false =>
    have e : { o with pretty := false } = o := by cases o; cases hp; rfl
    rw [e] at hrel
    cases hc : toText env S { o with pretty := true } k m with
    | none => rw [hrel.1.1 hc] at h; cases h
    | some p =>
      exact fun x hx => .inl ((layout_printable (fun w => word_printable hn ha) (hrel.2 p s hc h)).2 x hx)

theorem exNames : PrintableNames exEnv Ex.schema where
  msg := by decide +kernel
  field := by decide +kernel
  ext := by decide +kernel
  enum := by
    intro ed hed v n h
    have hv : ∀ ed ∈ Ex.schema.enums, ∀ p ∈ ed.values, ∀ c ∈ p.1, Printable c := by decide +kernel
    simp only [exEnv] at h
    cases hf : ed.values.find? (fun p => p.2 == v) with
    | none => rw [hf] at h; cases h
    | some p => rw [hf] at h; cases h; exact hv ed hed p (List.mem_of_find?_eq_some hf)
  f32 := fun _ => (by decide +kernel : ∀ c ∈ "1.0".toList, Printable c)
  f64 := fun _ => (by decide +kernel : ∀ c ∈ "1.0".toList, Printable c)

example : (toText exEnv Ex.schema { FOpts.default with pretty := true } 9 layoutMsg).isSome = true ∧
    (FOpts.default.expandAny = false ∨ ∀ md ∈ Ex.schema.msgs, md.name ≠ anyName) :=
  ⟨by decide +kernel, .inr (by decide +kernel)⟩

/-- C103: an unknown field, whatever it holds, is shown as printable ASCII, on one line by
`{}`. -/
theorem C103_unknown {alt : Bool} {k : Nat} {u : UField} {s : List Char} (h : displayUnknown alt k u = some s) :
    ∀ x ∈ s, Printable x ∨ (alt = true ∧ x = '\n') := by
  have hn : PrintableNames exEnv ⟨[], []⟩ := ⟨nofun, nofun, nofun, nofun, exNames.f32, exNames.f64⟩
  have hw : ∀ w, Word exEnv ⟨[], []⟩ true w → ∀ c ∈ w, Printable c := fun w => word_printable hn (.inr nofun)
  rcases (C103_display exEnv ⟨[], []⟩ k).2.2 u with ⟨e1, e2⟩ | ⟨p, c, e1, e2, hl⟩
  · cases alt
    · rw [e2] at h; cases h
    · rw [e1] at h; cases h
  · have hl := layout_printable hw hl
    cases alt with
    | true =>
      rw [e1] at h; cases h
      exact fun x hx => (hl.1 x hx).imp id fun h => ⟨rfl, h⟩
    | false =>
      rw [e2] at h; cases h
      exact fun x hx => .inl (hl.2 x hx)

/-- The schema of `Any`, `t.N` and a message with two `Any`s and a number. -/
def outerSchema : Schema where
  msgs := anySchema.msgs ++ (oneSchema .int32).msgs ++ [
    { name := "t.O".toList, mapEntry := false, extensions := [], fields := [
      { number := 1, name := ['a'], jsonName := ['a'], kind := .message 0, card := .optional, group := false,
        presence := true, packed := false, default := none, oneof := none },
      { number := 2, name := ['b'], jsonName := ['b'], kind := .message 0, card := .optional, group := false,
        presence := true, packed := false, default := none, oneof := none },
      { number := 3, name := ['n'], jsonName := ['n'], kind := .int32, card := .optional, group := false,
        presence := false, packed := false, default := none, oneof := none }] }]
  enums := []

/-- A message with one `Any` of the type URL `u`. -/
def outerWith (u : String) : DynMsg :=
  ⟨2, [(1, .val (.msg 0 [(1, .val (.str (utf8Encode u.toList)))]))]⟩

/-- C103 and C34 do not hold for expanded `Any`s.  The type URL is data of the message and
is written without escapes, so a text may have line breaks, and fields of the outer
message that are in no message: here the text reads back with `n` and `b` set. -/
theorem C103_url_false :
    outerSchema.wf = true ∧ textWf outerSchema = true ∧
    confMsg outerSchema (outerWith "a\nb/t.N") = true ∧
    toText toyEnv outerSchema FOpts.default 9 (outerWith "a\nb/t.N") = some "a{[a\nb/t.N]{}}".toList ∧
    confMsg outerSchema (outerWith "a/t.N]{}},n:7,b{[a/t.N") = true ∧
    toText toyEnv outerSchema FOpts.default 9 (outerWith "a/t.N]{}},n:7,b{[a/t.N") =
      some "a{[a/t.N]{}},n:7,b{[a/t.N]{}}".toList ∧
    parseText toyEnv outerSchema 9 2 "a{[a/t.N]{}},n:7,b{[a/t.N]{}}".toList =
      .ok ⟨2, [(1, .val (.msg 0 [(1, .val (.str (utf8Encode "a/t.N".toList))), (2, .val (.bytes []))])),
        (2, .val (.msg 0 [(1, .val (.str (utf8Encode "a/t.N".toList))), (2, .val (.bytes []))])),
        (3, .val (.i32 7))]⟩ := by
  refine ⟨by decide +kernel, by decide +kernel, by decide +kernel, by decide +kernel, by decide +kernel, by decide +kernel,
    by decide +kernel⟩

end Verif.Props
