import Verif.Opt.Read
import Verif.Props.Options
import Verif.Props.PoolGrows
/-!
C75: `options()` gives the options as they were resolved when the file was added.
-/
set_option autoImplicit false
namespace Verif.Props
open Verif.Wire Verif.Dyn Verif.Pool Verif.Text Verif.Opt

variable {T : Type} {env : OEnv} {S P G : Schema}

/-- **C75.** The options of a descriptor, resolved and stored when its file was added, are read by
`options()` as the message that was resolved: the one given, with everything in it kept, and with the
uninterpreted options set on it. The message must not be nested deeper than the decoder allows. -/
theorem C75_read_partial (hS : S.wf = true) (hA : textSafe S = true)
    (hp : ParsesFloats env.text.parse64) (hX : ExtOk env S) (hX' : ExtSafe env) {name : Name} {d : Nat}
    (hT : optionType P G name = some (S, d)) {md : MsgDesc} (hd : S.msg? d = some md)
    {enc b e : Bytes} {us : List Uninterp} (h : resolveOptions env S d enc us = .ok b)
    {val : FieldFn T} {v0 v : T} (hst : storeOptions val v0 b = some (e, v)) (hl : b.length < 2 ^ 64) :
    ∃ m m', decode S d enc = .ok m ∧ setOptions env S us m = .ok m' ∧ Keeps S m.toValue m'.toValue ∧
      (depthMsg (DynMsg.clearByNumber md m' 999) ≤ 100 →
        ∃ m'', decodeOptions P G name (some e) = some m'' ∧
          SameMsg S (DynMsg.clearByNumber md m' 999) m'') := by
  obtain ⟨m, m', h1, h2, h3, h4⟩ := C29_resolved_partial hS hA hp hX hX' hd h
  refine ⟨m, m', h1, h2, h3, fun hdep => ?_⟩
  obtain ⟨m'', h5, h6⟩ := h4 hdep hl
  have he : e = b := by
    obtain ⟨hc, hdm⟩ := (merge_ok hS (confMsg_iff.2 ⟨md, Conf.empty hd⟩) enc).2 m h1
    obtain ⟨hc', hd', -⟩ := C29_keeps_partial hS hA hp hX hX' hc h2
    obtain ⟨md', hC⟩ := confMsg_iff.1 hc'
    have hdesc : m'.desc = d := hd'.trans hdm
    have : md' = md := by
      have := hC.desc
      rw [hdesc, hd] at this
      exact (Option.some.inj this).symm
    subst this
    obtain ⟨hC2, -⟩ := conf_clearByNumber hC 999
    have hb : encMsg S (DynMsg.clearByNumber md' m' 999) = some b := by
      unfold resolveOptions at h
      rw [hd] at h
      simp only [h1, h2] at h
      split at h
      · next b' hb => cases h; exact hb
      · cases h
    exact store_enc hS (confMsg_iff.2 ⟨_, hC2⟩) hb hl hst
  subst he
  refine ⟨m'', ?_, h6⟩
  unfold decodeOptions
  simp only [hT, h5]

/-- **C75, no options.** A descriptor without options has an empty option message. -/
theorem C75_none {name : Name} {d : Nat} (hT : optionType P G name = some (S, d)) :
    decodeOptions P G name none = some (DynMsg.empty d) := by
  unfold decodeOptions
  simp only [hT]
  rfl

section
variable {penv : Env} (hsr : SearchOk penv.search) {acc : List FileP} {p q : Pool} {fs : List FileP}
include hsr

/-- **C75, later.** Further additions do not change what `options()` gives, when the pool knows the
option type and no new extension extends it or a type inside it. -/
theorem C75_later_partial (h : Accepts penv acc p) (hb : buildFiles penv p fs = .ok ⟨q, []⟩) {S' : Schema}
    (hS : p.view = .ok S) (hS' : q.view = .ok S') (hwf : S.wf = true) {R : Nat → Prop}
    (hR : ∀ d, R d → ∃ md, S.msg? d = some md ∧ ∀ f, f ∈ md.fields ∨ f ∈ md.extensions →
      ∀ j, f.kind = .message j → R j)
    (hnew : ∀ (e : Nat) x, p.extensions.length ≤ e → q.extensions[e]? = some x → ¬ R x.extendee)
    {name : Name} {d : Nat} (hn : p.messageByName name = some d) (hd : R d) (o : Option Bytes) :
    decodeOptions S' G name o = decodeOptions S G name o := by
  have hq : q.messageByName name = some d := by
    obtain ⟨m, hm, hmn⟩ := (C18_message hsr h.hist name d).1 hn
    obtain ⟨-, -, -, -, h5, -⟩ := C20_extends hsr h.hist hb
    obtain ⟨m', l, hm', hfor, -⟩ := h5 d m hm
    have hid : m'.id = m.id := (congrArg MsgD.id hfor : m'.forget.id = m.forget.id)
    exact (C18_message hsr (h.accept _ _ _ _ hb).hist name d).2 ⟨m', hm', by rw [hid]; exact hmn⟩
  have e1 : optionType S G name = some (S, d) := by
    unfold optionType
    rw [C68_name hsr h.hist hS, hn]
  have e2 : optionType S' G name = some (S', d) := by
    unfold optionType
    rw [C68_name hsr (h.accept _ _ _ _ hb).hist hS', hq]
  unfold decodeOptions
  simp only [e1, e2]
  rw [(C76_grow_partial hsr h hb hS hS' hwf hR hnew).1 d _ hd]

end

/-! ### Examples and what fails -/

example : optionType optSchema optSchema "t.Opts".toList = some (optSchema, 0) := by rfl

/-- The resolved options of `fourOptions`, stored and read back: `xs` is there with both elements. -/
example : (match decodeOptions optSchema optSchema "t.Opts".toList
      (some [0x0a, 0x02, 0x68, 0x69, 0x10, 0x05, 0x10, 0x07, 0x1a, 0x02, 0x18, 0x09, 0xa0, 0x1f, 0x01,
        0xc0, 0x3e, 0xff, 0xff, 0xff, 0xff, 0xff, 0xff, 0xff, 0xff, 0xff, 0x01]) with
    | some m =>
      match m.getField optSchema { Ex.fld 2 "xs" .int32 with card := .repeated } with
      | some (.list [.i32 a, .i32 b]) => a == 5 && b == 7
      | _ => false
    | none => false) = true := by decide +kernel

/-- An option type with an extension whose type contains itself. -/
def deepSchema : Schema where
  msgs := [
    { name := "t.Opts".toList, fields := [], mapEntry := false,
      extensions := [{ Ex.fld 1000 "t.ext" (.message 1) with presence := true }] },
    { name := "t.Rec".toList,
      fields := [{ Ex.fld 1 "a" (.message 1) with presence := true },
        { Ex.fld 2 "v" .int32 with presence := true }], mapEntry := false, extensions := [] }]
  enums := []

/-- Name look-up for `deepSchema`. -/
def deepEnv : OEnv := { optEnv with
  findExt := fun n => if n = "ext".toList then .ok (0, { Ex.fld 1000 "t.ext" (.message 1) with presence := true })
    else .error .nameNotFound }

/-- `option (ext).a.a.….a.v = 5;` with a hundred `a`s. -/
def deepOption : Uninterp :=
  { parts := ⟨"ext".toList, true⟩ :: (List.replicate 100 ⟨"a".toList, false⟩ ++ plain ["v"]), pos := some 5 }

/-- Resolved, stored, and not read back. -/
def deepFails : Bool :=
  match resolveOptions deepEnv deepSchema 0 [] [deepOption] with
  | .ok b =>
    match storeOptions dropAll () b with
    | some (e, _) => (decodeOptions deepSchema deepSchema "t.Opts".toList (some e)).isNone
    | none => false
  | _ => false

theorem deepFails_ex : deepFails = true := by decide +kernel

/-- **C75 fails in this**: a single option whose name goes through more than a hundred messages is
accepted when the file is added, and `options()` then panics, as the stored bytes are nested deeper
than the decoder allows. -/
theorem C75_false : ∃ b e v, deepSchema.wf = true ∧ textSafe deepSchema = true ∧
    resolveOptions deepEnv deepSchema 0 [] [deepOption] = .ok b ∧ storeOptions dropAll () b = some (e, v) ∧
    decodeOptions deepSchema deepSchema "t.Opts".toList (some e) = none := by
  have h := deepFails_ex
  unfold deepFails at h
  split at h
  · next b hb =>
    split at h
    · next e v hs =>
      refine ⟨b, e, v, by decide +kernel, by decide +kernel, hb, hs, ?_⟩
      simpa using h
    · cases h
  · cases h

/-- `package google.protobuf; message FieldOptions { extensions 1000 to max; }` -/
def fileOpts : FileP where
  name := nm "google/protobuf/descriptor.proto"
  package := nm "google.protobuf"
  messages := [{ name := nm "FieldOptions", extRanges := [(1000, 536870912)] }]

/-- `import "google/protobuf/descriptor.proto"; package d;
extend google.protobuf.FieldOptions { int32 late = 1001; }` -/
def fileOptLate : FileP where
  name := nm "d.proto"
  package := nm "d"
  deps := [nm "google/protobuf/descriptor.proto"]
  exts := [{ name := nm "late", number := 1001, ty := .int32, extendee := some (nm ".google.protobuf.FieldOptions") }]

/-- Option bytes with 1001 as delimited bytes are readable before the addition and not after it. -/
def lateOptions (p q : Pool) : Bool :=
  match p.view, q.view with
  | .ok S, .ok S' => S.wf && S'.wf &&
    (decodeOptions S S (nm "google.protobuf.FieldOptions") (some [202, 62, 0])).isSome &&
    (decodeOptions S' S (nm "google.protobuf.FieldOptions") (some [202, 62, 0])).isNone
  | _, _ => false

theorem lateOptions_ex : ∃ acc p q, Accepts env0 acc p ∧ buildFiles env0 p [fileOptLate] = .ok ⟨q, []⟩ ∧
    lateOptions p q = true := accept2_ex (b := [fileOpts]) lateOptions (by decide +kernel)

/-- **C75, later, fails without the condition on extensions**: option bytes that were fine when
their file was added make `options()` panic after another file has extended the option type. -/
theorem C75_late_false : ∃ acc p q S S', Accepts env0 acc p ∧ buildFiles env0 p [fileOptLate] = .ok ⟨q, []⟩ ∧
    p.view = .ok S ∧ q.view = .ok S' ∧ S.wf = true ∧ S'.wf = true ∧
    (∃ m, decodeOptions S S (nm "google.protobuf.FieldOptions") (some [202, 62, 0]) = some m) ∧
    decodeOptions S' S (nm "google.protobuf.FieldOptions") (some [202, 62, 0]) = none := by
  obtain ⟨acc, p, q, h1, h2, h3⟩ := lateOptions_ex
  unfold lateOptions at h3
  split at h3
  · next S S' hS hS' =>
    simp only [Bool.and_eq_true, Option.isSome_iff_exists, Option.isNone_iff_eq_none] at h3
    exact ⟨acc, p, q, S, S', h1, h2, hS, hS', h3.1.1.1, h3.1.1.2, h3.1.2, h3.2⟩
  · cases h3

end Verif.Props
