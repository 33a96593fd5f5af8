import Verif.Text.Once
import Verif.Dyn.DecEq
import Verif.Text.OneField
import Verif.Props.Text
/-!
Properties of the text parser: C37 (nothing is set twice) and C52 (parsing is total and
yields well-typed messages).

`textSafe S` says that the extensions of each message have distinct numbers and that
`google.protobuf.Any`, if present, has singular fields 1 and 2.  `ParsesFloats` says that
`str::parse::<f64>` accepts its documented grammar.
-/
set_option autoImplicit false
namespace Verif.Props
open Verif.Wire Verif.Dyn Verif.Pool Verif.Text

/-! ### C52 -/

/-- **C52.** Merging any text into a conforming message returns a conforming message of the
same type or an error of the parser, never a panic. -/
theorem C52_total {env : TEnv} (hp : ParsesFloats env.parse64) {S : Schema} (hS : S.wf = true)
    (hA : textSafe S = true) (k : Nat) {m : DynMsg} (hm : confMsg S m = true) (text : List Char) :
    (∃ m', mergeText env S k m text = .ok m' ∧ confMsg S m' = true ∧ m'.desc = m.desc) ∨
    (∃ e, mergeText env S k m text = .error e ∧ e ≠ .panic ∧ e ≠ .fuel) := by
  have := mergeText_sound hS hA hp false (k := k) hm text nofun
  cases h : mergeText env S k m text with
  | ok m' => rw [h] at this; exact .inl ⟨m', rfl, this⟩
  | error e => rw [h] at this; exact .inr ⟨e, rfl, this.1, this.2.1⟩

/-- **C52**, for `parse_text_format`. -/
theorem C52_parse {env : TEnv} (hp : ParsesFloats env.parse64) {S : Schema} (hS : S.wf = true)
    (hA : textSafe S = true) (k : Nat) {d : Nat} {md : MsgDesc} (hd : S.msg? d = some md)
    (text : List Char) :
    (∃ m, parseText env S k d text = .ok m ∧ confMsg S m = true ∧ m.desc = d) ∨
    (∃ e, parseText env S k d text = .error e ∧ e ≠ .panic ∧ e ≠ .fuel) :=
  C52_total hp hS hA k (confMsg_iff.2 ⟨md, Conf.empty hd⟩) text

/-- **C52**, the stack: the recursion is no deeper than the number of `{` and `<` in the text,
and so never overflows a stack that holds that many calls. -/
theorem C52_depth {env : TEnv} (hp : ParsesFloats env.parse64) {S : Schema} (hS : S.wf = true)
    (hA : textSafe S = true) {k : Nat} {m : DynMsg} (hm : confMsg S m = true) {text : List Char}
    (hk : (lex env.parse64 text).countP opens < k) : mergeText env S k m text ≠ .error .stack := by
  have := mergeText_sound hS hA hp true (k := k) hm text (fun _ => hk)
  intro h
  rw [h] at this
  exact this.2.2 rfl rfl

/-- `child{` repeated. -/
def deepText : Nat → List Char
  | 0 => []
  | n + 1 => "child".toList ++ ('{' :: deepText n)

/-- Its tokens. -/
def deepToks : Nat → List LTok
  | 0 => []
  | n + 1 => .tok (.ident "child".toList) :: .tok .lbrace :: deepToks n

theorem lex_deep (n : Nat) : lex exEnv.parse64 (deepText n) = deepToks n := by
  induction n with
  | zero => rfl
  | succ n ih =>
    rw [deepText, lex_ident (by decide) (Halts.cons (by decide)), lex_punct (t := .lbrace) rfl (by decide), ih]
    rfl

theorem parseField_deep {sub : Nat → List LTok → PR FieldSet} {ts : List LTok}
    (h : sub 0 (.tok .lbrace :: ts) = .error .stack) :
    parseField exEnv Ex.schema sub exM 0 [] (.tok (.ident "child".toList) :: .tok .lbrace :: ts) =
      .error .stack := by
  have hf : findField Ex.schema exM "child".toList = some (some Ex.fChild) := by rfl
  have h1 : isList Ex.schema Ex.fChild = false := by decide
  have h2 : isMap Ex.schema Ex.fChild = false := by decide
  have h3 : parseVal exEnv Ex.schema sub Ex.fChild.kind (.tok .lbrace :: ts) = .error .stack := by
    show mapP _ (sub 0 _) = _
    rw [h]
    rfl
  simp only [parseField, parseFieldName, parseColon, parseNamed, hf, parseFieldValue, h1, h2, h3,
    Bool.false_eq_true, if_false]

theorem parseMsg_deep (k n : Nat) (h : k ≤ n) :
    parseMsg exEnv Ex.schema k 0 (.tok .lbrace :: deepToks n) = .error .stack := by
  induction k generalizing n with
  | zero => rfl
  | succ k ih =>
    obtain ⟨n, rfl⟩ : ∃ n', n = n' + 1 := ⟨n - 1, by omega⟩
    have := parseField_deep (ih n (by omega))
    have hm : Ex.schema.msg? 0 = some exM := rfl
    simp only [parseMsg, hm, deepToks, List.length_cons, bodyLoop, startsField, if_true, this]

/-- **C52 fails in this**: the parser has no recursion limit.  However deep the stack, the text
`child{child{child{…` overflows it. -/
theorem C52_false (k : Nat) : parseText exEnv Ex.schema k 0 (deepText (k + 1)) = .error .stack := by
  have := parseField_deep (parseMsg_deep k k (Nat.le_refl _))
  have hm : Ex.schema.msg? 0 = some exM := rfl
  unfold parseText mergeText
  rw [lex_deep]
  simp only [mergeToks, DynMsg.empty, hm, deepToks, List.length_cons, topLoop, this]

example : ParsesFloats exEnv.parse64 ∧ Ex.schema.wf = true ∧ textSafe Ex.schema = true ∧
    confMsg Ex.schema Ex.small = true :=
  ⟨fun _ _ => rfl, by decide +kernel, by decide +kernel, by decide +kernel⟩
example : (lex exEnv.parse64 (deepText 7)).countP opens = 7 := by rw [lex_deep]; rfl

/-! ### C37 -/

/-- **C37, what holds.** When a text is read successfully, no two of its fields name the same
singular field with presence or two members of one oneof (`a` before `b` in the text: `a` names
`f`, `b` names `g`). The top-level message is not `google.protobuf.Any` (`C37_false_any`), and
fields without presence may be repeated after a default value (`C37_false`). -/
theorem C37_once_partial {env : TEnv} (hp : ParsesFloats env.parse64) {S : Schema} (hS : S.wf = true)
    (hA : textSafe S = true) {k : Nat} {m m' : DynMsg} (hm : confMsg S m = true) {text : List Char}
    (h : mergeText env S k m text = .ok m') :
    ∃ md ns, S.msg? m.desc = some md ∧
      Run env S (parseMsg env S k) md m.desc m.fields (lex env.parse64 text) ns m'.fields [] ∧
      (md.name ≠ anyName → ns.Pairwise (fun a b => ∀ f g, Denotes S md a f → Denotes S md b g →
        f.card ≠ .repeated → g.card ≠ .repeated → f.presence = true → g ≠ f ∧ ¬ Mates g f)) := by
  obtain ⟨md, ns, h1, h2, _, h4, h5, h6⟩ := mergeText_run hS hA hp hm h
  exact ⟨md, ns, h1, h4, fun ha => h4.once hS hA ha h5 h2 h6⟩

/-- **C37, what holds**, in nested messages. -/
theorem C37_nested_partial {env : TEnv} (hp : ParsesFloats env.parse64) {S : Schema} (hS : S.wf = true)
    (hA : textSafe S = true) {k i : Nat} {md : MsgDesc} (hmd : S.msg? i = some md) (ha : md.name ≠ anyName)
    {text : List Char} {ts r : List LTok} (hts : ts <:+ lex env.parse64 text) {fs : FieldSet}
    (h : parseMsg env S (k + 1) i ts = .ok (fs, r)) :
    ∃ ns ts' t, ts' <:+ ts ∧ Run env S (parseMsg env S k) md i [] ts' ns fs (.tok t :: r) ∧
      ns.Pairwise (fun a b => ∀ f g, Denotes S md a f → Denotes S md b g →
        f.card ≠ .repeated → g.card ≠ .repeated → f.presence = true → g ≠ f ∧ ¬ Mates g f) := by
  have hsub : SubOk S env.parse64 false 0 (parseMsg env S k) := fun i md ts hi ht =>
    parseMsg_sound hS hA k i md ts hi ⟨ht.1, nofun⟩
  have hst : StepConf env S (parseMsg env S k) md i (ToksOk env.parse64 false 0) := by
    intro fs ts fs1 ts1 hC hT he
    refine ⟨(parseField_sound hS hA (parseMsg_good env S k) hsub hC hT).ok he, ?_⟩
    exact hT.suffix ((parseField_good (env := env) (S := S) (parseMsg_good env S k) md i fs ts).ok he).1
  have hT : ToksOk env.parse64 false 0 ts := ⟨fun t ht => lex_ok hp text t (hts.subset ht), nofun⟩
  unfold parseMsg at h
  rw [hmd] at h
  simp only at h
  split at h
  · obtain ⟨ns, hns⟩ := bodyLoop_run h
    exact ⟨ns, _, _, List.suffix_cons _ _, hns, hns.once hS hA ha hst (Conf.empty hmd) hT.tail⟩
  · obtain ⟨ns, hns⟩ := bodyLoop_run h
    exact ⟨ns, _, _, List.suffix_cons _ _, hns, hns.once hS hA ha hst (Conf.empty hmd) hT.tail⟩
  · unfold unexpected at h
    split at h <;> cases h

/-- **C37, what holds**: reading text never changes a singular field that is set. -/
theorem C37_kept_partial {env : TEnv} (hp : ParsesFloats env.parse64) {S : Schema} (hS : S.wf = true)
    (hA : textSafe S = true) {k : Nat} {m m' : DynMsg} (hm : confMsg S m = true) {text : List Char}
    (h : mergeText env S k m text = .ok m') (ha : ∀ md, S.msg? m.desc = some md → md.name ≠ anyName)
    {f : FieldDesc} (hf : Known S m.desc f) (hc : f.card ≠ .repeated) (hh : m.hasField S f = some true) :
    m'.hasField S f = some true ∧ m'.getField S f = m.getField S f := by
  obtain ⟨md, ns, h1, h2, _, h4, h5, h6⟩ := mergeText_run hS hA hp hm h
  have := (h4.keep hS hA (ha md h1) h5 h2 h6 hf hc hh).1
  refine ⟨(has_congr this).trans hh, ?_⟩
  unfold DynMsg.getField FieldSet.get FieldSet.getValue
  rw [this]

/-- **C37, what holds**: a text that begins by naming a field that is already set, or another
member of a oneof that is set, is rejected, whatever follows. -/
theorem C37_rejected_partial {env : TEnv} (hp : ParsesFloats env.parse64) {S : Schema} (hS : S.wf = true)
    (hA : textSafe S = true) {k : Nat} {m : DynMsg} (hm : confMsg S m = true) {md : MsgDesc}
    (hmd : S.msg? m.desc = some md) (ha : md.name ≠ anyName) (hn : (md.fields.map (·.name)).Nodup)
    {f g : FieldDesc} (hf : f ∈ md.fields) (hgr : f.group = false) (hid : IsIdent f.name)
    (hc : f.card ≠ .repeated) (hg : Known S m.desc g) (hgc : g.card ≠ .repeated)
    (hset : m.hasField S g = some true) (hfg : f = g ∨ Mates f g) (text : List Char) :
    ∃ e, mergeText env S k m (f.name ++ (':' :: text)) = .error e ∧ e ≠ .panic ∧ e ≠ .fuel := by
  rcases C52_total hp hS hA k hm (f.name ++ (':' :: text)) with ⟨m', h, _⟩ | h
  · exfalso
    obtain ⟨md', ns, h1, h2, _, h4, h5, h6⟩ := mergeText_run hS hA hp hm h
    rw [hmd] at h1
    cases h1
    have hk := (h4.keep hS hA ha h5 h2 h6 hg hgc hset).2
    rw [lex_named hid] at h4
    revert h4
    generalize m'.fields = x
    intro h4
    cases h4 with
    | cons hname _ _ =>
      simp only [parseFieldName] at hname
      cases hname
      have := hk _ List.mem_cons_self f (findField_name hn hf hgr) hc
      rcases hfg with e | e
      · exact this.1 e
      · exact this.2 e
  · exact h

/-- **C37 fails** for fields without presence: a zero may be followed by another value. -/
theorem C37_false : parseText exEnv Ex.schema 5 0 "a:0 a:5".toList = .ok ⟨0, [(1, .val (.i32 5))]⟩ ∧
    Ex.fA.presence = false := ⟨by decide +kernel, rfl⟩

/-- **C37 fails** for an expanded `Any`: the second one silently replaces the first. -/
theorem C37_false_any :
    parseText exEnv anySchema 5 0
      "[a/google.protobuf.Any]{} value:\"x\" [b/google.protobuf.Any]{}".toList =
      .ok ⟨0, [(1, .val (.str (utf8Encode "b/google.protobuf.Any".toList))), (2, .val (.bytes []))]⟩ := by
  decide +kernel

example : mergeText exEnv Ex.schema 5 ⟨0, [(6, .val (.str [65]))]⟩ "o2:{}".toList = .error .oneofSet ∧
    mergeText exEnv Ex.schema 5 ⟨0, [(6, .val (.str [65]))]⟩ "o1:\"x\"".toList = .error .alreadySet ∧
    mergeText exEnv Ex.schema 5 ⟨0, [(6, .val (.str [65]))]⟩ "a:1 child{a:2}".toList =
      .ok ⟨0, [(1, .val (.i32 1)), (3, .val (.msg 0 [(1, .val (.i32 2))])), (6, .val (.str [65]))]⟩ := by
  decide +kernel
example : Mates Ex.fO1 Ex.fO2 ∧ Known Ex.schema 0 Ex.fO1 ∧ Known Ex.schema 0 Ex.fO2 ∧ exM.name ≠ anyName ∧
    (DynMsg.mk 0 [(6, .val (.str [65]))]).hasField Ex.schema Ex.fO1 = some true :=
  ⟨⟨0, rfl, rfl⟩, .inl rfl, .inl rfl, by decide, by decide⟩

end Verif.Props
