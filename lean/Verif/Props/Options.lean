import Verif.Opt.Bytes
import Verif.Opt.Set
import Verif.Props.Text
import Verif.Props.Binary
/-!
Properties of option messages: C29.

`Options<T>` keeps the bytes of an option message beside the prost message; uninterpreted
options are then set on a dynamic message of the option type and encoded again.
-/
set_option autoImplicit false
namespace Verif.Props
open Verif.Wire Verif.Dyn Verif.Pool Verif.Text Verif.Opt

variable {T : Type}

/-! ### The bytes kept -/

/-- **C29, the bytes.** Whatever the prost message type, the bytes kept are the fields given, in
the order given, known or not, each with its payload unchanged; only a key may be rewritten, to
the one `encode_key` writes for the same number and wire type. -/
theorem C29_bytes_partial {val : FieldFn T} {v0 v : T} {b e : Bytes}
    (h : optDecode val v0 b = .ok (e, v)) : Rekey b e := (optDecode_ok h).1

/-- **C29, the bytes exactly.** When the keys are written the usual way, the bytes kept are
exactly the bytes given. -/
theorem C29_exact_partial {val : FieldFn T} {v0 v : T} {b e : Bytes}
    (h : optDecode val v0 b = .ok (e, v)) (hb : ShortKeys b) : e = b :=
  rekey_short hb (optDecode_ok h).1

/-- **C29, written and read again.** What `encode` writes for an option message is read back as
the same bytes and the same prost message, and has the announced length. -/
theorem C29_again {val : FieldFn T} {v0 v : T} {b e : Bytes} (h : optDecode val v0 b = .ok (e, v)) :
    optDecode val v0 (optEncode (e, v)) = .ok (e, v) ∧ (optEncode (e, v)).length = optLen (e, v) ∧
      ShortKeys e :=
  ⟨(optDecode_ok h).2, rfl, (optDecode_ok h).1.short⟩

/-- A prost message that keeps nothing. -/
def dropAll : FieldFn Unit := fun _ _ _ b => .ok ((), b)

/-- **C29 fails in this**: a key written with more bytes than needed is not kept. -/
theorem C29_exact_false : optDecode dropAll () [0x88, 0x00, 0x05] = .ok ([0x08, 0x05], ()) := by rfl

example : optDecode dropAll () [0x0a, 0x01, 0x61, 0x08, 0x80, 0x00, 0x93, 0x27, 0x08, 0x01, 0x94, 0x27] =
    .ok ([0x0a, 0x01, 0x61, 0x08, 0x80, 0x00, 0x93, 0x27, 0x08, 0x01, 0x94, 0x27], ()) := by rfl
example : ShortKeys [0x0a, 0x01, 0x61, 0x08, 0x80, 0x00] :=
  ShortKeys.cons (c := [0x01, 0x61]) (n := 1) (w := .lengthDelimited) (by decide) (by decide) rfl
    (ShortKeys.cons (c := [0x80, 0x00]) (n := 1) (w := .varint) (b := []) (by decide) (by decide) rfl .nil)

/-! ### Setting interpreted options -/

variable {env : OEnv} {S : Schema}

/-- **C29, nothing is disturbed.** Setting any sequence of interpreted options on a conforming
message gives a conforming message of the same type that keeps, at every level, the unknown
fields and every field outside oneofs that was present: lists only get longer at the end, maps
only get keys, messages only get fields.  Oneof members (`C29_oneof_false`), the values under
existing map keys (`C29_map_false`) and singular values that count as absent may change. -/
theorem C29_keeps_partial (hS : S.wf = true) (hA : textSafe S = true)
    (hp : ParsesFloats env.text.parse64) (hX : ExtOk env S) (hX' : ExtSafe env) {us : List Uninterp}
    {m m' : DynMsg} (hm : confMsg S m = true) (h : setOptions env S us m = .ok m') :
    confMsg S m' = true ∧ m'.desc = m.desc ∧ Keeps S m.toValue m'.toValue := by
  obtain ⟨md, hC⟩ := confMsg_iff.1 hm
  have := setOptions_spec hS hA hp hX hX' us hC
  rw [h] at this
  exact ⟨confMsg_iff.2 ⟨md, this.1⟩, this.2⟩

/-- **C29, no panic.** Setting options never panics. -/
theorem C29_total (hS : S.wf = true) (hA : textSafe S = true)
    (hp : ParsesFloats env.text.parse64) (hX : ExtOk env S) (hX' : ExtSafe env) {us : List Uninterp}
    {m : DynMsg} (hm : confMsg S m = true) {e : OErr} (h : setOptions env S us m = .error e) :
    e ≠ .panic ∧ e ≠ .message .panic ∧ e ≠ .message .fuel := by
  obtain ⟨md, hC⟩ := confMsg_iff.1 hm
  have := setOptions_spec hS hA hp hX hX' us hC
  rw [h] at this
  refine ⟨?_, ?_, ?_⟩ <;> (rintro rfl; cases this)

/-- **C29, one option.** Exactly what setting one option does to the message the name starts
in: the field named by the first part changes, the other members of its oneof are cleared, every
other field stays.  If the name ends there, the field's value (or its default) becomes what
`setValue` makes of it; otherwise it holds a message, and the rest of the name is set in it. -/
theorem C29_one (hS : S.wf = true) (hX : ExtOk env S) {u : Uninterp} {p : Part} {ps : List Part}
    {m m' : DynMsg} {md : MsgDesc} (hm : confMsg S m = true) (hmd : S.msg? m.desc = some md)
    {f : FieldDesc} {sib : List Nat} (hl : lookPart env md m.desc p = .ok (f, sib))
    (h : setOption env S u (p :: ps) m = .ok m') :
    (∀ n, n ≠ f.number → n ∉ sib → SMap.get? m'.fields n = SMap.get? m.fields n) ∧
    (∀ n ∈ sib, SMap.get? m'.fields n = none) ∧
    ∃ v v', m.getField S f = some v ∧ SMap.get? m'.fields f.number = some (.val v') ∧
      (ps = [] → setValue env S f.kind u v = .ok v') ∧
      (ps ≠ [] → ∃ sub sub', v = sub.toValue ∧ v' = sub'.toValue ∧
        setOption env S u ps sub = .ok sub') := by
  obtain ⟨md', hC⟩ := confMsg_iff.1 hm
  have : md' = md := by have := hC.desc; rw [hmd] at this; exact (Option.some.inj this).symm
  subst this
  obtain ⟨fs, v, t⟩ := lookPart_touch hS hX hC hl
  have fin : ∀ v', (∀ n, n ≠ f.number → n ∉ sib →
        SMap.get? (FieldSet.write f v' fs) n = SMap.get? m.fields n) ∧
      (∀ n ∈ sib, SMap.get? (FieldSet.write f v' fs) n = none) ∧
      SMap.get? (FieldSet.write f v' fs) f.number = some (.val v') := by
    intro v'
    refine ⟨fun n h1 h2 => ?_, fun n hn => ?_, ?_⟩
    · rw [t.get, if_neg h1, if_neg h2]
    · rw [t.get, if_neg (t.sibs n hn).1, if_pos hn]
    · rw [t.get, if_pos rfl]
  simp only [setOption, hmd, hl, t.gmut] at h
  split at h
  · rename_i hps
    split at h
    · cases h
    · cases h
    · split at h
      · cases h
      · rename_i v' hv'
        cases h
        obtain ⟨h1, h2, h3⟩ := fin v'
        exact ⟨h1, h2, v, v', t.cur, h3, fun _ => hv', fun hn => absurd hps hn⟩
  · rename_i hps
    split at h
    · cases h
    · rename_i d sub heq
      simp only [Option.some.injEq, Prod.mk.injEq] at heq
      obtain ⟨rfl, rfl⟩ := heq
      split at h
      · cases h
      · rename_i sub' hsub
        cases h
        obtain ⟨h1, h2, h3⟩ := fin sub'.toValue
        exact ⟨h1, h2, _, _, t.cur, h3, fun hn => absurd hn hps, fun _ => ⟨⟨d, sub⟩, sub', rfl, rfl, hsub⟩⟩
    · cases h

/-- **C29, repeated options.** A value set on a list goes to its end. -/
theorem C29_list {k : Kind} {u : Uninterp} {vs : List Value} {v' : Value}
    (h : setValue env S k u (.list vs) = .ok v') : ∃ v, v' = .list (vs ++ [v]) := by
  simp only [setValue] at h
  split at h
  · cases h
  · split at h
    · cases h; exact ⟨_, rfl⟩
    · cases h

/-- **C29, duplicates.** A singular option that is present is not set again. -/
theorem C29_duplicate {u : Uninterp} {p : Part} {m : DynMsg} {md : MsgDesc}
    (hmd : S.msg? m.desc = some md) {f : FieldDesc} {sib : List Nat}
    (hl : lookPart env md m.desc p = .ok (f, sib)) (hc : f.card ≠ .repeated)
    (hh : m.hasField S f = some true) : setOption env S u [p] m = .error .duplicate := by
  have hh' : FieldSet.has S m.fields f = some true := hh
  simp only [setOption, hmd, hl, if_true, if_pos hc, hh']

/-- **C29, integers.** A signed integer option takes exactly the number given, and is accepted
exactly when the number fits. -/
theorem C29_signed {w : Nat} (hw : 0 < w) {u : Uninterp} {x : BitVec w} :
    optSigned w u = some x ↔
      (∃ n, u.pos = some n ∧ x.toInt = (n.toNat : Int)) ∨
      (u.pos = none ∧ ∃ n, u.neg = some n ∧ x.toInt = n.toInt) := by
  obtain ⟨w, rfl⟩ : ∃ k, w = k + 1 := ⟨w - 1, by omega⟩
  have h2 : (2 : Int) ^ (w + 1) = 2 * 2 ^ w := by rw [Int.pow_succ]; omega
  have hlt : x.toInt < 2 ^ w := by
    have := BitVec.two_mul_toInt_lt (x := x)
    omega
  have hge : -(2 ^ w : Int) ≤ x.toInt := by
    have := BitVec.le_two_mul_toInt (x := x)
    omega
  have hin : ∀ i : Int, -(2 ^ w : Int) ≤ i → i < 2 ^ w → (BitVec.ofInt (w + 1) i).toInt = i := by
    intro i h1 h3
    rw [BitVec.toInt_ofInt]
    apply Int.bmod_eq_of_le
    · push_cast; omega
    · push_cast; omega
  have huniq : ∀ i : Int, x.toInt = i → BitVec.ofInt (w + 1) i = x := by
    rintro i rfl; exact BitVec.ofInt_toInt
  have hcast : ∀ n : Nat, (n : Int) < 2 ^ w ↔ n < 2 ^ w := by
    intro n
    rw [show ((2 : Int) ^ w) = ((2 ^ w : Nat) : Int) by push_cast; rfl]
    omega
  unfold optSigned
  simp only [Nat.add_sub_cancel]
  cases hpos : u.pos with
  | some n =>
    simp only [Option.some.injEq, exists_eq_left', reduceCtorEq, false_and, or_false]
    rw [← BitVec.ofInt_natCast]
    constructor
    · intro h
      split at h
      · rename_i hn
        cases h
        exact hin _ (by omega) ((hcast _).2 hn)
      · cases h
    · intro h
      rw [if_pos ((hcast _).1 (h ▸ hlt)), huniq _ h]
  | none =>
    simp only [reduceCtorEq, false_and, exists_false, true_and, false_or]
    cases hneg : u.neg with
    | none => simp
    | some n =>
      simp only [Option.some.injEq, exists_eq_left']
      constructor
      · intro h
        split at h
        · rename_i hn
          cases h
          exact hin _ hn.1 hn.2
        · cases h
      · intro h
        rw [if_pos (h ▸ ⟨hge, hlt⟩), huniq _ h]

/-- **C29, integers.** And so does an unsigned one. -/
theorem C29_unsigned {w : Nat} {u : Uninterp} {x : BitVec w} :
    optUnsigned w u = some x ↔
      (∃ n, u.pos = some n ∧ x.toNat = n.toNat) ∨
      (u.pos = none ∧ ∃ n, u.neg = some n ∧ (x.toNat : Int) = n.toInt) := by
  have hlt : x.toNat < 2 ^ w := x.isLt
  have hin : ∀ i : Nat, i < 2 ^ w → (BitVec.ofNat w i).toNat = i := by
    intro i h
    rw [BitVec.toNat_ofNat, Nat.mod_eq_of_lt h]
  have huniq : ∀ i : Nat, x.toNat = i → BitVec.ofNat w i = x := by
    rintro i rfl; apply BitVec.eq_of_toNat_eq; simp
  have hcast : ∀ n : Nat, (n : Int) < 2 ^ w ↔ n < 2 ^ w := by
    intro n
    rw [show ((2 : Int) ^ w) = ((2 ^ w : Nat) : Int) by push_cast; rfl]
    omega
  unfold optUnsigned
  cases hpos : u.pos with
  | some n =>
    simp only [Option.some.injEq, exists_eq_left', reduceCtorEq, false_and, or_false]
    constructor
    · intro h
      split at h
      · rename_i hn
        cases h
        exact hin _ hn
      · cases h
    · intro h
      rw [if_pos (h ▸ hlt), huniq _ h]
  | none =>
    simp only [reduceCtorEq, false_and, exists_false, true_and, false_or]
    cases hneg : u.neg with
    | none => simp
    | some n =>
      simp only [Option.some.injEq, exists_eq_left']
      constructor
      · intro h
        split at h
        · rename_i hn
          cases h
          obtain ⟨k, hk⟩ := Int.eq_ofNat_of_zero_le hn.1
          rw [hk] at hn ⊢
          rw [BitVec.ofInt_natCast, hin _ ((hcast _).1 hn.2)]
        · cases h
      · intro h
        rw [← h, if_pos ⟨by omega, (hcast _).2 hlt⟩, BitVec.ofInt_natCast, huniq _ rfl]

/-! ### What the pool stores -/

/-- **C29, the options of a descriptor.** When the options of a descriptor are resolved, the
stored bytes are those of a message that keeps everything present in the bytes given (field 999,
the uninterpreted options themselves, is then cleared); reading them gives its content. -/
theorem C29_resolved_partial (hS : S.wf = true) (hA : textSafe S = true)
    (hp : ParsesFloats env.text.parse64) (hX : ExtOk env S) (hX' : ExtSafe env) {d : Nat}
    {md : MsgDesc} (hd : S.msg? d = some md) {enc b : Bytes} {us : List Uninterp}
    (h : resolveOptions env S d enc us = .ok b) :
    ∃ m m', decode S d enc = .ok m ∧ setOptions env S us m = .ok m' ∧
      Keeps S m.toValue m'.toValue ∧
      (depthMsg (DynMsg.clearByNumber md m' 999) ≤ 100 → b.length < 2 ^ 64 →
        ∃ m'', decode S d b = .ok m'' ∧ SameMsg S (DynMsg.clearByNumber md m' 999) m'') := by
  unfold resolveOptions at h
  rw [hd] at h
  simp only at h
  split at h
  · cases h
  · rename_i m hm
    split at h
    · cases h
    · rename_i m' hm'
      split at h
      · rename_i b' hb
        cases h
        obtain ⟨hc, hdm⟩ := (merge_ok hS (confMsg_iff.2 ⟨md, Conf.empty hd⟩) enc).2 m hm
        obtain ⟨hc', hd', hk⟩ := C29_keeps_partial hS hA hp hX hX' hc hm'
        refine ⟨m, m', hm, hm', hk, fun hdep hl => ?_⟩
        obtain ⟨md', hC⟩ := confMsg_iff.1 hc'
        have hdesc : m'.desc = d := hd'.trans hdm
        have : md' = md := by
          have := hC.desc
          rw [hdesc, hd] at this
          exact (Option.some.inj this).symm
        subst this
        obtain ⟨hC2, hd2⟩ := conf_clearByNumber hC 999
        obtain ⟨b2, hb2, hr⟩ := C01_roundtrip hS (confMsg_iff.2 ⟨_, hC2⟩) hdep
        have hbb : b2 = b := by
          have hb' : encMsg S (DynMsg.clearByNumber md' m' 999) = some b := hb
          rw [hb2] at hb'
          exact Option.some.inj hb'
        subst hbb
        obtain ⟨m'', h1, -, h3⟩ := hr hl
        refine ⟨m'', ?_, h3⟩
        rw [hd2, hdesc] at h1
        exact h1
      · cases h

/-- **C29, no panic.** Resolving options never panics; a failure is a decoding error or an
error about one of the options. -/
theorem C29_resolve_total (hS : S.wf = true) (hA : textSafe S = true)
    (hp : ParsesFloats env.text.parse64) (hX : ExtOk env S) (hX' : ExtSafe env) {d : Nat}
    {md : MsgDesc} (hd : S.msg? d = some md) (enc : Bytes) (us : List Uninterp) :
    (∃ b, resolveOptions env S d enc us = .ok b) ∨
    (∃ e, resolveOptions env S d enc us = .decode e ∧ e ≠ .panic ∧ e ≠ .unsupported ∧ e ≠ .fuel) ∨
    (∃ e, resolveOptions env S d enc us = .option e ∧ e ≠ .panic ∧ e ≠ .message .panic ∧
      e ≠ .message .fuel) := by
  unfold resolveOptions
  rw [hd]
  simp only
  rcases C06_decode hS hd enc with ⟨m, hm, hc, hdm⟩ | ⟨e, he, h1⟩
  · rw [hm]
    simp only
    cases hs : setOptions env S us m with
    | error e => exact .inr (.inr ⟨e, rfl, C29_total hS hA hp hX hX' hc hs⟩)
    | ok m' =>
      obtain ⟨hc', hd', -⟩ := C29_keeps_partial hS hA hp hX hX' hc hs
      obtain ⟨md', hC⟩ := confMsg_iff.1 hc'
      have : md' = md := by
        have := hC.desc
        rw [hd', hdm, hd] at this
        exact (Option.some.inj this).symm
      subst this
      obtain ⟨hC2, -⟩ := conf_clearByNumber hC 999
      obtain ⟨b, hb⟩ := (encMsg_total hS _ (confMsg_accepted hS (confMsg_iff.2 ⟨_, hC2⟩))).1
      refine .inl ⟨b, ?_⟩
      have : encMsg S (DynMsg.clearByNumber md' m' uninterpretedNumber) = some b := hb
      simp only [this]
  · rw [he]
    exact .inr (.inl ⟨e, rfl, h1⟩)

/-! ### Examples and what fails -/

/-- An option message: a string, a list, a message with a oneof, a map, the uninterpreted
options, and an extension. -/
def optSchema : Schema where
  msgs := [
    { name := "t.Opts".toList,
      fields := [{ Ex.fld 1 "pkg" .string with presence := true },
        { Ex.fld 2 "xs" .int32 with card := .repeated },
        { Ex.fld 3 "sub" (.message 1) with presence := true },
        { Ex.fld 4 "tags" (.message 2) with card := .repeated },
        { Ex.fld 999 "uninterpreted_option" (.message 3) with card := .repeated }],
      mapEntry := false, extensions := [{ Ex.fld 1000 "t.ext" .int64 with presence := true }] },
    { name := "t.Sub".toList,
      fields := [{ Ex.fld 1 "a" .int32 with presence := true, oneof := some 0 },
        { Ex.fld 2 "b" .bool with presence := true, oneof := some 0 },
        { Ex.fld 3 "c" .uint32 with presence := true }],
      mapEntry := false, extensions := [] },
    { name := "t.Opts.TagsEntry".toList, fields := [Ex.fld 1 "key" .int32, Ex.fld 2 "value" .int32],
      mapEntry := true, extensions := [] },
    { name := "t.Uninterpreted".toList, fields := [], mapEntry := false, extensions := [] }]
  enums := []

/-- Name look-up and casts for the examples. -/
def optEnv : OEnv where
  ofU64 n := n
  ofI64 n := n
  text := exEnv
  stack := 10
  findExt n := if n = "ext".toList then .ok (0, { Ex.fld 1000 "t.ext" .int64 with presence := true })
    else .error .nameNotFound

/-- An option name of plain parts. -/
def plain (ns : List String) : List Part := ns.map (fun n => ⟨n.toList, false⟩)

theorem optEnv_ok : ExtOk optEnv optSchema ∧ ExtSafe optEnv := by
  constructor
  · intro name i f h
    simp only [optEnv] at h
    split at h
    · cases h; exact ⟨_, rfl, rfl⟩
    · cases h
  · intro name e h
    simp only [optEnv] at h
    split at h
    · cases h
    · cases h; rfl

/-- Four options: `pkg`, `xs`, `sub.c` and the extension. -/
def fourOptions : List Uninterp := [
  { parts := plain ["pkg"], str := some [104, 105] },
  { parts := plain ["xs"], pos := some 7 },
  { parts := plain ["sub", "c"], pos := some 9 },
  { parts := [⟨"ext".toList, true⟩], neg := some (-1) }]

example : optSchema.wf = true ∧ textSafe optSchema = true ∧ ParsesFloats optEnv.text.parse64 :=
  ⟨by decide +kernel, by decide +kernel, fun _ _ => rfl⟩
-- the list keeps its first element, the unknown field 500 survives, the new options are added
example : resolveOptions optEnv optSchema 0 [0x10, 0x05, 0xa0, 0x1f, 0x01] fourOptions =
    .ok [0x0a, 0x02, 0x68, 0x69, 0x10, 0x05, 0x10, 0x07, 0x1a, 0x02, 0x18, 0x09, 0xa0, 0x1f, 0x01,
      0xc0, 0x3e, 0xff, 0xff, 0xff, 0xff, 0xff, 0xff, 0xff, 0xff, 0xff, 0x01] := by decide +kernel
-- a second `pkg` is a duplicate
example : resolveOptions optEnv optSchema 0 [0x0a, 0x01, 0x61] fourOptions = .option .duplicate := by
  decide +kernel

/-- **C29 fails in this**: even without any uninterpreted option the bytes are decoded and encoded
again, so that an option message given in another order is not kept byte for byte. -/
theorem C29_order_false : ShortKeys [0x10, 0x05, 0x0a, 0x01, 0x61] ∧
    resolveOptions optEnv optSchema 0 [0x10, 0x05, 0x0a, 0x01, 0x61] [] =
      .ok [0x0a, 0x01, 0x61, 0x10, 0x05] := by
  refine ⟨?_, by decide +kernel⟩
  exact ShortKeys.cons (c := [0x05]) (n := 2) (w := .varint) (by decide) (by decide) rfl
    (ShortKeys.cons (c := [0x01, 0x61]) (n := 1) (w := .lengthDelimited) (b := []) (by decide) (by decide) rfl .nil)

/-- **C29 fails in this**: an option that is a oneof member silently removes another member that
was set before (`sub.a = 1` is gone). -/
theorem C29_oneof_false : resolveOptions optEnv optSchema 0 [0x1a, 0x02, 0x08, 0x01]
    [{ parts := plain ["sub", "b"], ident := some "true".toList }] =
      .ok [0x1a, 0x02, 0x10, 0x01] := by decide +kernel

/-- **C29 fails in this**: an option for a map key that is already there silently replaces its
value (`tags[1]` was 5). -/
theorem C29_map_false : resolveOptions optEnv optSchema 0 [0x22, 0x04, 0x08, 0x01, 0x10, 0x05]
    [{ parts := plain ["tags"], agg := some "key:1 value:6".toList }] =
      .ok [0x22, 0x04, 0x08, 0x01, 0x10, 0x06] := by decide +kernel

/-- A prost message whose field 1 is a string, as `FileOptions` has it. -/
def strictOne : FieldFn Unit := fun _ n w b =>
  if n = 1 ∧ w ≠ .lengthDelimited then .error .wrongWireType else .ok ((), b)

/-- An option message whose field 1 is an integer. -/
def intSchema : Schema where
  msgs := [{ name := "t.Opts".toList, fields := [{ Ex.fld 1 "pkg" .int32 with presence := true }],
             mapEntry := false, extensions := [] }]
  enums := []

/-- **C29, a panic**: the resolved bytes are read back into the prost option type and the result is
unwrapped. If the pool's own `descriptor.proto` gives a field another type than prost-types does,
setting that option panics (here field 1 is an `int32`). -/
theorem C29_store_false : intSchema.wf = true ∧
    resolveOptions optEnv intSchema 0 [] [{ parts := plain ["pkg"], pos := some 5 }] = .ok [0x08, 0x05] ∧
    storeOptions strictOne () [0x08, 0x05] = none :=
  ⟨by decide +kernel, by decide +kernel, rfl⟩

end Verif.Props
