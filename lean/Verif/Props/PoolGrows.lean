import Verif.Dyn.Agree
import Verif.Props.PoolView
/-!
C76: adding files to a pool does not change what messages of the old types mean.
-/
set_option autoImplicit false
namespace Verif.Props
open Verif.Wire Verif.Dyn Verif.Pool

theorem scalarOk_within {k : Kind} {v : Value} (h : scalarOk k v = true) (R : Nat → Prop) : Within R v := by
  cases v <;> simp only [Within] <;> cases k <;> simp [scalarOk, Value.isValid] at h

section
variable {env : Env} (hsr : SearchOk env.search) {acc : List FileP} {p q : Pool} {fs : List FileP}
include hsr

theorem isMapEntry_grow (h : Hist env acc p) (hb : buildFiles env p fs = .ok ⟨q, []⟩) {k : Nat} {m : MsgD}
    (hk : p.messages[k]? = some m) {b : Bool} (he : p.isMapEntry k = .ok b) : q.isMapEntry k = .ok b := by
  obtain ⟨h1, -, -, -, h5, -⟩ := C20_extends hsr h hb
  obtain ⟨m', l, hm', hfor, -⟩ := h5 k m hk
  have hid : m'.id = m.id := (congrArg MsgD.id hfor : m'.forget.id = m.forget.id)
  unfold Pool.isMapEntry at he ⊢
  simp only [getR, hk, hm', bind, Except.bind, hid] at he ⊢
  cases hf : p.files[m.id.file]? with
  | none => rw [hf] at he; cases he
  | some fd =>
    rw [hf] at he
    rw [prefix_get h1 hf]
    exact he

/-- What the two views have in common. -/
theorem views_agree (h : Accepts env acc p) (hb : buildFiles env p fs = .ok ⟨q, []⟩) {S S' : Schema}
    (hS : p.view = .ok S) (hS' : q.view = .ok S') (hwf : S.wf = true) {R : Nat → Prop}
    (hR : ∀ d, R d → ∃ md, S.msg? d = some md ∧ ∀ f, f ∈ md.fields ∨ f ∈ md.extensions →
      ∀ j, f.kind = .message j → R j)
    (hnew : ∀ (e : Nat) x, p.extensions.length ≤ e → q.extensions[e]? = some x → ¬ R x.extendee) :
    ViewAgree S S' R := by
  obtain ⟨-, henums, -, hexts, hmsgs, -⟩ := C20_extends hsr h.hist hb
  obtain ⟨-, hEn, -⟩ := view_ok hS
  obtain ⟨-, hEn', hV'⟩ := view_ok hS'
  constructor
  · intro d hd
    obtain ⟨md, hmd, -⟩ := hR d hd
    obtain ⟨m, hm, hv⟩ := view_msg hS hmd
    obtain ⟨m', l, hm', hfor, hext, -, hl⟩ := hmsgs d m hm
    have hl0 : l = [] := by
      cases l with
      | nil => rfl
      | cons e r =>
        obtain ⟨h1, x, hx, he⟩ := (hl e).1 List.mem_cons_self
        exact absurd (he ▸ hd) (hnew e x h1 hx)
    rw [hl0, List.append_nil] at hext
    obtain ⟨md', hmd', hv'⟩ := hV' d m' hm'
    rw [hmd', hmd]
    congr 1
    have e1 : md'.name = md.name := by rw [hv'.name, hv.name]; exact (congrArg (fun z => z.id.fullName) hfor : m'.forget.id.fullName = m.forget.id.fullName)
    have e2 : md'.fields = md.fields := by
      rw [hv'.fields, hv.fields]; exact (congrArg (fun z => z.fields.map FieldD.view) hfor :
        m'.forget.fields.map FieldD.view = m.forget.fields.map FieldD.view)
    have e3 : md'.mapEntry = md.mapEntry := by
      have := isMapEntry_grow hsr h.hist hb hm hv.entry
      rw [hv'.entry] at this
      exact Except.ok.inj this
    have e4 : md'.extensions = md.extensions := by
      obtain ⟨xs, h1, h2, h3⟩ := hv.exts
      obtain ⟨ys, g1, g2, g3⟩ := hv'.exts
      rw [g1, h1]
      congr 1
      apply List.ext_getElem?
      intro i
      cases hi : m.extensions[i]? with
      | none =>
        have : m.extensions.length ≤ i := by simpa using hi
        rw [List.getElem?_eq_none (by rw [g2, hext]; exact this), List.getElem?_eq_none (by rw [h2]; exact this)]
      | some e =>
        obtain ⟨x, hx, hxe⟩ := h3 i e hi
        obtain ⟨y, hy, hye⟩ := g3 i e (by rw [hext]; exact hi)
        rw [prefix_get hexts hxe] at hye
        cases hye
        rw [hx, hy]
    obtain ⟨n1, f1, me1, x1⟩ := md
    obtain ⟨n2, f2, me2, x2⟩ := md'
    simp only at e1 e2 e3 e4
    subst e1; subst e2; subst e3; subst e4
    rfl
  · intro d md hd hmd f hf
    have hw := Schema.wf_msg hwf hmd
    have hfw : FieldWf S f := by
      rcases hf with hf | hf
      · exact hw.fields f hf
      · exact hw.exts f hf
    refine ⟨?_, ?_, fun v hv => scalarOk_within (hfw.dflt v hv) R⟩
    · obtain ⟨md', hmd', h2⟩ := hR d hd
      rw [hmd] at hmd'
      cases hmd'
      exact h2 f hf
    · intro e he
      have hk := hfw.kind
      rw [he] at hk
      rw [hEn, hEn', List.getElem?_map, List.getElem?_map]
      have : e < p.enums.length := by
        simp only [kindOk] at hk
        have : S.enums[e]?.isSome = true := by
          cases hse : S.enums[e]? with
          | none => simp_all [Schema.enumDefault]
          | some _ => rfl
        rw [hEn] at this
        simpa using this
      rw [prefix_getElem? henums this]

/-- **C76.** Adding files to a pool leaves the messages of the types `R` alone, where `R` contains the
types of its fields and none of the new extensions extends one of its types: the same bytes decode to
the same message or fail alike, and messages of these types have the same encoding and length. -/
theorem C76_grow_partial (h : Accepts env acc p) (hb : buildFiles env p fs = .ok ⟨q, []⟩) {S S' : Schema}
    (hS : p.view = .ok S) (hS' : q.view = .ok S') (hwf : S.wf = true) {R : Nat → Prop}
    (hR : ∀ d, R d → ∃ md, S.msg? d = some md ∧ ∀ f, f ∈ md.fields ∨ f ∈ md.extensions →
      ∀ j, f.kind = .message j → R j)
    (hnew : ∀ (e : Nat) x, p.extensions.length ≤ e → q.extensions[e]? = some x → ¬ R x.extendee) :
    (∀ d b, R d → decode S' d b = decode S d b) ∧
    (∀ m, R m.desc → confMsg S m = true → encMsg S' m = encMsg S m ∧ lenMsg S' m = lenMsg S m) := by
  have hA := views_agree hsr h hb hS hS' hwf hR hnew
  exact ⟨fun d b hd => (hA.decode hd b).1, fun m hd hm =>
    have hw := hA.within hm hd
    ⟨hA.encMsg hw, hA.lenMsg hw⟩⟩

/-- **C76** for files without extensions of old types: nothing changes for any of the old types. -/
theorem C76_all (h : Accepts env acc p) (hb : buildFiles env p fs = .ok ⟨q, []⟩) {S S' : Schema}
    (hS : p.view = .ok S) (hS' : q.view = .ok S') (hwf : S.wf = true)
    (hnew : ∀ (e : Nat) x, p.extensions.length ≤ e → q.extensions[e]? = some x → p.messages.length ≤ x.extendee) :
    (∀ d b, d < p.messages.length → decode S' d b = decode S d b) ∧
    (∀ m, confMsg S m = true → encMsg S' m = encMsg S m ∧ lenMsg S' m = lenMsg S m) := by
  obtain ⟨hl, -, hV⟩ := view_ok hS
  have key := C76_grow_partial hsr h hb hS hS' hwf (R := fun d => d < p.messages.length) (fun d hd => by
      obtain ⟨md, hmd, hv⟩ := hV d _ (List.getElem?_eq_getElem hd)
      refine ⟨md, hmd, fun f hf j hj => ?_⟩
      have hw := Schema.wf_msg hwf hmd
      have hfw : FieldWf S f := by
        rcases hf with hf | hf
        · exact hw.fields f hf
        · exact hw.exts f hf
      have hk := hfw.kind
      rw [hj] at hk
      simp only [kindOk] at hk
      have hk' : S.msgs[j]?.isSome = true := hk
      rw [← hl]
      simpa using hk')
    (fun e x he hx => Nat.not_lt.2 (hnew e x he hx))
  refine ⟨key.1, fun m hm => key.2 m ?_ hm⟩
  obtain ⟨md, hC⟩ := confMsg_iff.1 hm
  obtain ⟨_, h1, _⟩ := view_msg hS hC.desc
  exact getElem?_lt h1

end

/-- Like `accept_ex`, with one more addition. -/
theorem accept2_ex {b b' : List FileP} (c : Pool → Pool → Bool)
    (h : (match buildFiles env0 Pool.empty b with
      | .ok ⟨p, []⟩ =>
        match buildFiles env0 p b' with
        | .ok ⟨q, []⟩ => c p q
        | _ => false
      | _ => false) = true) :
    ∃ acc p q, Accepts env0 acc p ∧ buildFiles env0 p b' = .ok ⟨q, []⟩ ∧ c p q = true := by
  split at h
  · next p hp =>
    split at h
    · next q hq => exact ⟨_, p, q, .accept _ _ _ _ .empty hp, hq, h⟩
    · cases h
  · cases h

/-- The addition brought messages and no extensions. -/
def grewPool (p q : Pool) : Bool :=
  q.extensions.length == p.extensions.length && decide (p.messages.length < q.messages.length) &&
    match p.view, q.view with
    | .ok S, .ok _ => S.wf
    | _, _ => false

theorem grewPool_ex : ∃ acc p q, Accepts env0 acc p ∧ buildFiles env0 p [fileMap] = .ok ⟨q, []⟩ ∧
    grewPool p q = true := accept2_ex (b := [fileA]) grewPool (by decide +kernel)

/-- The hypotheses of `C76_all` hold when a file with maps and lists of the old types is added. -/
example : ∃ acc p q S S', Accepts env0 acc p ∧ buildFiles env0 p [fileMap] = .ok ⟨q, []⟩ ∧ p.view = .ok S ∧
    q.view = .ok S' ∧ S.wf = true ∧ p.messages.length < q.messages.length ∧
    ∀ (e : Nat) x, p.extensions.length ≤ e → q.extensions[e]? = some x → p.messages.length ≤ x.extendee := by
  obtain ⟨acc, p, q, h1, h2, h3⟩ := grewPool_ex
  simp only [grewPool, Bool.and_eq_true, beq_iff_eq, decide_eq_true_eq] at h3
  cases hS : p.view with
  | error e => rw [hS] at h3; cases h3.2
  | ok S =>
    cases hS' : q.view with
    | error e => rw [hS, hS'] at h3; cases h3.2
    | ok S' =>
      rw [hS, hS'] at h3
      refine ⟨acc, p, q, S, S', h1, h2, hS, hS', h3.2, h3.1.2, fun e x he hx => ?_⟩
      have := getElem?_lt hx
      omega

/-- `import "a.proto"; package d; extend a.b.M { int32 late = 101; }` -/
def fileLate : FileP where
  name := nm "d.proto"
  package := nm "d"
  deps := [nm "a.proto"]
  exts := [{ name := nm "late", number := 101, ty := .int32, extendee := some (nm ".a.b.M") }]

/-- Field 101 as delimited bytes is unknown before the addition and of the wrong type after it. -/
def latePool (p q : Pool) : Bool :=
  match p.view, q.view with
  | .ok S, .ok S' => S.wf && S'.wf &&
    (match decode S 0 [170, 6, 0] with
      | .ok _ => true
      | .error _ => false) &&
    (match decode S' 0 [170, 6, 0] with
      | .ok _ => false
      | .error _ => true)
  | _, _ => false

theorem latePool_ex : ∃ acc p q, Accepts env0 acc p ∧ buildFiles env0 p [fileLate] = .ok ⟨q, []⟩ ∧
    latePool p q = true := accept2_ex (b := [fileA]) latePool (by decide +kernel)

/-- **C76**, negated without the condition on extensions: a file that extends an old type can make
bytes that decoded before the addition fail after it. -/
theorem C76_false : ¬ ∀ (acc fs : List FileP) (p q : Pool) (S S' : Schema), Accepts env0 acc p →
    buildFiles env0 p fs = .ok ⟨q, []⟩ → p.view = .ok S → q.view = .ok S' → S.wf = true → S'.wf = true →
    ∀ d b, d < p.messages.length → (decode S d b).isOk = true → (decode S' d b).isOk = true := by
  intro h
  obtain ⟨acc, p, q, h1, h2, h3⟩ := latePool_ex
  unfold latePool at h3
  split at h3
  · next S S' hS hS' =>
    simp only [Bool.and_eq_true] at h3
    obtain ⟨⟨⟨a1, a2⟩, a3⟩, a4⟩ := h3
    have a5 : (decode S 0 [170, 6, 0]).isOk = true := by
      split at a3
      · next m hm => rw [hm]; rfl
      · cases a3
    have a6 : (decode S' 0 [170, 6, 0]).isOk = false := by
      split at a4
      · cases a4
      · next e he => rw [he]; rfl
    have hlt : 0 < p.messages.length := by
      obtain ⟨hl, -⟩ := view_ok hS
      cases hm : p.messages.length with
      | zero =>
        rw [hm] at hl
        have : S.msgs = [] := List.length_eq_zero_iff.1 hl
        have e : (decode S 0 [170, 6, 0]).isOk = false := by
          obtain ⟨ms, es⟩ := S
          simp only at this
          subst this
          rfl
        rw [a5] at e
        cases e
      | succ n => omega
    have := h acc [fileLate] p q S S' h1 h2 hS hS' a1 a2 0 _ hlt a5
    rw [a6] at this
    cases this
  · cases h3

end Verif.Props
