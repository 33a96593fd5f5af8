import Verif.Dyn.Occur
import Verif.Dyn.Deep
import Verif.Dyn.DepthBound
import Verif.Dyn.Accept
import Verif.Dyn.Total
import Verif.Props.Example
/-!
Properties of the binary codec: C01-C10, C17, C49, C50.

`confMsg S m` says that `m` holds values of exactly the declared types, `accepted S m`
that every value in it passed the check of the setters, `Known S d f` that `f` is a
field or an extension of message type `d`.
-/
set_option autoImplicit false
namespace Verif.Props
open Verif.Wire Verif.Dyn

/-- Every field and extension except `f` and the other members of its oneof reads the
same in both messages, and so do the unknown fields. -/
def Untouched (S : Schema) (f : FieldDesc) (m m' : DynMsg) : Prop :=
  m'.desc = m.desc ∧ iterUnknown m'.fields = iterUnknown m.fields ∧
  ∀ g, Known S m.desc g → g.number ≠ f.number → (f.oneof = none ∨ g.oneof ≠ f.oneof) →
    m'.hasField S g = m.hasField S g ∧ m'.getField S g = m.getField S g

/-- Every field and extension reads the same in both messages. -/
def SameKnown (S : Schema) (m m' : DynMsg) : Prop :=
  m'.desc = m.desc ∧ ∀ g, Known S m.desc g →
    m'.hasField S g = m.hasField S g ∧ m'.getField S g = m.getField S g

/-! ### Auxiliary -/

theorem has_get_congr {S : Schema} {fs gs : FieldSet} {g : FieldDesc}
    (h : SMap.get? gs g.number = SMap.get? fs g.number) :
    FieldSet.has S gs g = FieldSet.has S fs g ∧ FieldSet.get S gs g = FieldSet.get S fs g := by
  unfold FieldSet.has FieldSet.get FieldSet.getValue
  rw [h]; exact ⟨rfl, rfl⟩

theorem known_mem {S : Schema} (hS : S.wf = true) {d : Nat} {md : MsgDesc} (hm : S.msg? d = some md)
    {f : FieldDesc} (hk : Known S d f) : FieldWf S f ∧
      (f ∈ md.fields ∨ f.oneof = none ∧ md.getField f.number = none) := by
  have hw := Schema.wf_msg hS hm
  rcases hk.cases hm with h | h
  · exact ⟨hw.fields f (getField_mem h).1, .inl (getField_mem h).1⟩
  · have hmem := (getExtension_mem h).1
    exact ⟨hw.exts f hmem, .inr ⟨(hw.extNew f hmem).2, (hw.extNew f hmem).1⟩⟩

theorem placed_untouched {S : Schema} (hS : S.wf = true) {md : MsgDesc} {m m' : DynMsg} {f : FieldDesc}
    {v : Value} (hm : S.msg? m.desc = some md) (h : Placed S md m f v m') : Untouched S f m m' := by
  refine ⟨h.desc, h.unknown, ?_⟩
  intro g hg hne ho
  refine has_get_congr (h.other _ hne ?_)
  intro hs
  obtain ⟨o, hfo, x, hx, hxo, _, hxn⟩ := mem_siblings.1 hs
  have hw := Schema.wf_msg hS hm
  have hget := getField_of_mem hw.nodup hx
  rw [hxn] at hget
  have : g = x := by
    rcases hg.cases hm with h1 | h1
    · rw [hget] at h1; exact (Option.some.inj h1).symm
    · have := (hw.extNew g (getExtension_mem h1).1).1
      rw [hget] at this; cases this
  subst this
  rcases ho with ho | ho
  · rw [ho] at hfo; cases hfo
  · exact ho (by rw [hxo, hfo])

/-- What a known field of a conforming message reads as. -/
theorem get_conf {S : Schema} (hS : S.wf = true) {m : DynMsg} {md : MsgDesc} (hC : Conf S m md)
    {f : FieldDesc} (hk : Known S m.desc f) :
    ∃ v, FieldSet.get S m.fields f = some v ∧ confVal S f v = true := by
  obtain ⟨hf, hv⟩ := known_conf hS hC hk
  unfold FieldSet.get
  cases hg : FieldSet.getValue m.fields f.number with
  | some v =>
    exact ⟨v, rfl, (hv v (SMap.get?_of_mem hC.sorted ((getValue_iff hC.sorted).1 hg))).1⟩
  | none => exact fieldDefault_conf hS hf

theorem get_list {S : Schema} (hS : S.wf = true) {m : DynMsg} {md : MsgDesc} (hC : Conf S m md)
    {f : FieldDesc} (hk : Known S m.desc f) (hl : isList S f = true) :
    ∃ ws, FieldSet.get S m.fields f = some (.list ws) := by
  obtain ⟨v, h, hc⟩ := get_conf hS hC hk
  obtain ⟨hcard, hmap⟩ := isList_iff.1 hl
  cases v with
  | list ws => exact ⟨ws, h⟩
  | map kvs => simp [confVal, hmap] at hc
  | _ => simp [confVal, hcard] at hc

theorem get_map {S : Schema} (hS : S.wf = true) {m : DynMsg} {md : MsgDesc} (hC : Conf S m md)
    {f : FieldDesc} (hk : Known S m.desc f) (hl : isMap S f = true) :
    ∃ ws, FieldSet.get S m.fields f = some (.map ws) := by
  obtain ⟨v, h, hc⟩ := get_conf hS hC hk
  have hcard := (isMap_iff.1 hl).1
  cases v with
  | map ws => exact ⟨ws, h⟩
  | list kvs => simp [confVal, isList, hl] at hc
  | _ => simp [confVal, hcard] at hc

/-! ### C01 -/

/-- **C01.** Encoding a conforming message within the recursion limit succeeds, and
decoding the bytes gives a conforming message with the same content. -/
theorem C01_roundtrip {S : Schema} (hS : S.wf = true) {m : DynMsg} (hm : confMsg S m = true)
    (hd : depthMsg m ≤ 100) : ∃ b, encMsg S m = some b ∧
      (b.length < 2 ^ 64 → ∃ m', decode S m.desc b = .ok m' ∧ confMsg S m' = true ∧ SameMsg S m m') := by
  obtain ⟨b, hb⟩ := (encMsg_total hS m (confMsg_accepted hS hm)).1
  refine ⟨b, hb, fun hl => ?_⟩
  obtain ⟨h1, h2⟩ := decode_encMsg hS hm hd hb hl
  exact ⟨_, h1, h2, sameMsg_canon hS hm⟩

/-- What "same content" gives an API user at the top level. -/
theorem C01_observable {S : Schema} {m m' : DynMsg} (h : SameMsg S m m') :
    m'.desc = m.desc ∧ iterUnknown m'.fields = iterUnknown m.fields ∧
    ∀ f, Known S m.desc f → m'.hasField S f = m.hasField S f ∧
      ∀ v w, m.hasField S f = some true → m.getField S f = some v → m'.getField S f = some w →
        SameV S v w := by
  obtain ⟨d, fs⟩ := m
  obtain ⟨d', gs⟩ := m'
  unfold SameMsg DynMsg.toValue at h
  cases h with
  | refl => exact ⟨rfl, rfl, fun f _ => ⟨rfl, fun v w _ h1 h2 => by rw [h1] at h2; cases h2; exact .refl _⟩⟩
  | msg hh hv hu => exact ⟨rfl, hu.symm, fun f hk => ⟨(hh f hk).symm, fun v w => hv f v w hk⟩⟩

example : ∃ b m', encMsg Ex.schema Ex.big = some b ∧ decode Ex.schema 0 b = .ok m' ∧
    SameMsg Ex.schema Ex.big m' := by
  obtain ⟨b, hb, h⟩ := C01_roundtrip (S := Ex.schema) (by decide) (m := Ex.big) (by decide) (by decide)
  have hl : b.length < 2 ^ 64 := by
    have h' : ((encMsg Ex.schema Ex.big).map (fun b => decide (b.length < 2 ^ 64))) = some true := by
      decide +kernel
    rw [hb] at h'
    simpa using h'
  obtain ⟨m', h1, _, h2⟩ := h hl
  exact ⟨b, m', hb, h1, h2⟩

/-! ### C02 -/

/-- **C02.** `encoded_len` is the number of bytes written (for any message whose
encoding is shorter than 2^64 bytes). -/
theorem C02_encoded_len {S : Schema} (hS : S.wf = true) {m : DynMsg} (hm : accepted S m = true)
    {b : Bytes} (hb : encMsg S m = some b) (hl : b.length < 2 ^ 64) : lenMsg S m = some b.length := by
  unfold encMsg at hb
  split at hb
  · cases hb
  · rename_i x y h
    cases hb
    exact lenSlots_eq hS _ _ x y hm h hl

example : accepted Ex.schema Ex.big = true ∧
    (encMsg Ex.schema Ex.big).map List.length = lenMsg Ex.schema Ex.big ∧
    (lenMsg Ex.schema Ex.big).isSome = true := by decide +kernel

/-! ### C03 -/

/-- **C03.** Merging any list of unknown fields keeps all of them: reported in number
order, in wire order within a number, after those already there; every known field is
unaffected; and re-encoding writes exactly the reported unknown fields. -/
theorem C03_unknown_kept {S : Schema} (hS : S.wf = true) {m : DynMsg} (hm : confMsg S m = true)
    {md : MsgDesc} (hmd : S.msg? m.desc = some md) {us : USet} (hw : Wire.USet.Wf us)
    (hd : USet.depth us ≤ 100)
    (hunk : ∀ p ∈ us, md.getField p.1 = none ∧ md.getExtension p.1 = none) :
    ∃ m', merge S m (encUSet us) = .ok m' ∧ confMsg S m' = true ∧ SameKnown S m m' ∧
      (∀ n, (iterUnknown m'.fields).filter (·.1 == n) =
        (iterUnknown m.fields).filter (·.1 == n) ++ us.filter (·.1 == n)) ∧
      (iterUnknown m'.fields).Pairwise (fun p q => p.1 ≤ q.1) ∧
      ∃ items, iter S md false m'.fields = some items ∧ Item.unknowns items = iterUnknown m'.fields ∧
        encMsg S m' = encItems S items := by
  obtain ⟨md0, hC⟩ := confMsg_iff.1 hm
  have : md0 = md := by have := hC.desc; rw [hmd] at this; exact (Option.some.inj this).symm
  subst this
  obtain ⟨m', hs, hC', hd', hu, ho, hin⟩ := unknowns_steps hS 100 us m hC hw hd hunk
  have hmerge : merge S m (encUSet us) = .ok m' := by
    unfold merge; rw [show recursionLimit = 100 from rfl, mergeAll_of_fsteps hs]
  refine ⟨m', hmerge, confMsg_iff.2 ⟨_, hC'⟩, ⟨hd', ?_⟩, ?_,
    (iterUnknown_sorted _ 0 hC'.sorted hC'.unknown_numbers).1, ?_⟩
  · intro g hg
    refine has_get_congr (ho _ ?_)
    intro hmem
    obtain ⟨p, hp, hpn⟩ := List.mem_map.1 hmem
    have := hunk p hp
    rw [hpn] at this
    rcases hg.cases hmd with h | h
    · rw [this.1] at h; cases h
    · rw [this.2] at h; cases h
  · intro n
    rw [iterUnknown_filter _ 0 hC'.sorted hC'.unknown_numbers,
      iterUnknown_filter _ 0 hC.sorted hC.unknown_numbers]
    exact hu n
  · have hit := encMsg_eq_iter (m := m') (hd' ▸ hmd) ⟨(Schema.wf_msg hS hmd).nodup,
      fun f hf => ((Schema.wf_msg hS hmd).fields f hf).num.1⟩ hC'.sorted
    obtain ⟨b, hb⟩ := (encMsg_total hS m' (confMsg_accepted hS (confMsg_iff.2 ⟨_, hC'⟩))).1
    rw [hb] at hit
    obtain ⟨items, h1, h2⟩ := Option.bind_eq_some_iff.1 hit.symm
    exact ⟨items, h1, iter_unknowns h1, by rw [hb, h2]⟩

/-- A message holding only unknown fields is written as exactly those fields. -/
theorem encSlots_unknown {S : Schema} {d : Nat} : ∀ fs : FieldSet,
    (∀ p ∈ fs, ∃ u, p.2 = Slot.unknown u) → encSlots S d fs = some ([], encUSet (iterUnknown fs))
  | [], _ => by simp [encSlots, iterUnknown, encUSet]
  | (n, s) :: r, h => by
    obtain ⟨u, hu⟩ := h (n, s) List.mem_cons_self
    simp only at hu
    subst hu
    simp only [encSlots, encSlots_unknown r (fun p hp => h p (List.mem_cons_of_mem _ hp)), iterUnknown,
      encUSet_append]

/-- **C03**, from scratch: decoding a list of unknown fields and encoding again writes
the same fields, stably sorted by number. -/
theorem C03_reencode {S : Schema} (hS : S.wf = true) {d : Nat} {md : MsgDesc} (hmd : S.msg? d = some md)
    {us : USet} (hw : Wire.USet.Wf us) (hd : USet.depth us ≤ 100)
    (hunk : ∀ p ∈ us, md.getField p.1 = none ∧ md.getExtension p.1 = none) :
    ∃ m' vs, decode S d (encUSet us) = .ok m' ∧ iterUnknown m'.fields = vs ∧
      encMsg S m' = some (encUSet vs) ∧ vs.Pairwise (fun p q => p.1 ≤ q.1) ∧
      ∀ n, vs.filter (·.1 == n) = us.filter (·.1 == n) := by
  have hC : Conf S (DynMsg.empty d) md := Conf.empty hmd
  obtain ⟨m', hs, hC', hd', hu, ho, hin⟩ := unknowns_steps hS 100 us _ hC hw hd hunk
  refine ⟨m', _, ?_, rfl, ?_, (iterUnknown_sorted _ 0 hC'.sorted hC'.unknown_numbers).1, ?_⟩
  · unfold decode merge; rw [show recursionLimit = 100 from rfl, mergeAll_of_fsteps hs]
  · have : ∀ p ∈ m'.fields, ∃ u, p.2 = Slot.unknown u := by
      intro p hp
      have hg := SMap.get?_of_mem hC'.sorted hp
      by_cases hk : p.1 ∈ us.map (·.1)
      · obtain ⟨u, hu⟩ := hin p.1 hk
        rw [hg] at hu
        exact ⟨u, Option.some.inj hu⟩
      · rw [ho p.1 hk] at hg
        simp [DynMsg.empty, SMap.get?] at hg
    unfold encMsg
    rw [encSlots_unknown _ this]
    rfl
  · intro n
    rw [iterUnknown_filter _ 0 hC'.sorted hC'.unknown_numbers, hu n]
    simp [unknownAt, DynMsg.empty, SMap.get?]

/-- Unknown fields out of number order, with a nested group. -/
def exUnknown : USet :=
  [(60, .len [1, 2]), (50, .varint 7), (60, .group [(3, .thirtyTwo 1), (3, .group [])]), (50, .sixtyFour 2)]

example : Wire.USet.Wf exUnknown ∧ USet.depth exUnknown ≤ 100 ∧
    (∃ md, Ex.schema.msg? 0 = some md ∧
      ∀ p ∈ exUnknown, md.getField p.1 = none ∧ md.getExtension p.1 = none) := by
  refine ⟨?_, by decide, _, rfl, ?_⟩
  · simp [exUnknown, Wire.USet.Wf, Wire.UVal.Wf, ValidNumber]
  · intro p hp
    simp only [exUnknown, List.mem_cons, List.not_mem_nil, or_false] at hp
    rcases hp with rfl | rfl | rfl | rfl <;> exact ⟨rfl, rfl⟩

/-! ### C04 -/

/-- **C04.** Any interleaving of packed and unpacked chunks of a repeated packable field
(declared packed or not) appends the elements in wire order. -/
theorem C04_packed_mix {S : Schema} (hS : S.wf = true) {m : DynMsg} (hm : confMsg S m = true)
    {f : FieldDesc} (hk : Known S m.desc f) (hl : isList S f = true) (hp : f.kind.packable = true)
    {cs : List Chunk} (hcs : cs ≠ []) (hv : ∀ c ∈ cs, ∀ v ∈ c.elems, scalarOk f.kind v = true)
    {b : Bytes} (hb : chunksBytes f.number f.kind cs = some b) (hlen : b.length < 2 ^ 64) :
    ∃ ws m', m.getField S f = some (.list ws) ∧ merge S m b = .ok m' ∧
      m'.getField S f = some (.list (ws ++ cs.flatMap Chunk.elems)) ∧ Untouched S f m m' := by
  obtain ⟨md, hC⟩ := confMsg_iff.1 hm
  obtain ⟨hf, _⟩ := known_mem hS hC.desc hk
  obtain ⟨ws, hws⟩ := get_list hS hC hk hl
  have hne : b ≠ [] := by
    cases cs with
    | nil => exact absurd rfl hcs
    | cons c r => exact chunksBytes_ne_nil hb
  obtain ⟨m', h1, h2⟩ := run_known hS hC hk hws hne (chunks_steps hf hl hp cs ws hv hb hlen)
  refine ⟨ws, m', hws, h1, ?_, placed_untouched hS hC.desc h2⟩
  unfold DynMsg.getField FieldSet.get
  rw [h2.get]

example : (chunksBytes 4 .int32 [.one (.i32 1), .packed [.i32 2, .i32 (-3)], .packed [], .one (.i32 4)]) =
    some [32, 1, 34, 11, 2, 253, 255, 255, 255, 255, 255, 255, 255, 255, 1, 34, 0, 32, 4] := by
  decide +kernel
example : Known Ex.schema Ex.big.desc Ex.fXs ∧ isList Ex.schema Ex.fXs = true ∧
    Ex.fXs.kind.packable = true := ⟨.inl rfl, by decide, by decide⟩

/-! ### C05 -/

/-- **C05.** Merging the concatenation of two inputs is merging one after the other. -/
theorem C05_merge_append {S : Schema} {m m1 : DynMsg} {b1 : Bytes} (h : merge S m b1 = .ok m1)
    (b2 : Bytes) : merge S m (b1 ++ b2) = merge S m1 b2 := by
  unfold merge at h ⊢
  split at h
  · cases h
  · rename_i x r hr
    cases h
    have := mergeAll_rest hr
    subst this
    rw [mergeAll_append (good_msgMerge S recursionLimit) hr b2]

/-- **C05** for `decode`. -/
theorem C05_decode_append {S : Schema} {d : Nat} {m1 : DynMsg} {b1 : Bytes}
    (h : decode S d b1 = .ok m1) (b2 : Bytes) : decode S d (b1 ++ b2) = merge S m1 b2 :=
  C05_merge_append h b2

example : ∃ m, decode Ex.schema 0 [8, 5, 34, 2, 1, 2] = .ok m ∧ m.hasField Ex.schema Ex.fXs = some true := by
  have : (match decode Ex.schema 0 [8, 5, 34, 2, 1, 2] with
    | .ok m => m.hasField Ex.schema Ex.fXs
    | .error _ => none) = some true := by decide +kernel
  split at this
  · rename_i m hm; exact ⟨m, hm, this⟩
  · cases this

/-! ### C06 -/

/-- **C06.** Merging arbitrary bytes into a conforming message gives a conforming message
of the same type or an ordinary decode error; no panic, no missing case and no
exhausted loop counter. -/
theorem C06_decode_total {S : Schema} (hS : S.wf = true) {m : DynMsg} (hm : confMsg S m = true)
    (b : Bytes) :
    (∃ m', merge S m b = .ok m' ∧ confMsg S m' = true ∧ m'.desc = m.desc) ∨
    (∃ e, merge S m b = .error e ∧ e ≠ .panic ∧ e ≠ .unsupported ∧ e ≠ .fuel) := by
  obtain ⟨h1, h2⟩ := merge_ok hS hm b
  cases h : merge S m b with
  | ok m' => exact .inl ⟨m', rfl, h2 m' h⟩
  | error e =>
    refine .inr ⟨e, rfl, ?_, ?_, ?_⟩
    · rintro rfl; have := h1 _ h; cases this
    · rintro rfl; have := h1 _ h; cases this
    · rintro rfl; exact merge_ne_fuel S m b h

/-- **C06** for `decode`. -/
theorem C06_decode {S : Schema} (hS : S.wf = true) {d : Nat} {md : MsgDesc} (hd : S.msg? d = some md)
    (b : Bytes) :
    (∃ m', decode S d b = .ok m' ∧ confMsg S m' = true ∧ m'.desc = d) ∨
    (∃ e, decode S d b = .error e ∧ e ≠ .panic ∧ e ≠ .unsupported ∧ e ≠ .fuel) :=
  C06_decode_total hS (confMsg_iff.2 ⟨md, Conf.empty hd⟩) b

example : Ex.schema.wf = true ∧ confMsg Ex.schema Ex.big = true := by decide

/-! ### C07 -/

/-- **C07.** A message whose values all passed the setters' check, at every level, is
encoded and measured without a panic. -/
theorem C07_encode_total {S : Schema} (hS : S.wf = true) (m : DynMsg) (h : accepted S m = true) :
    (∃ b, encMsg S m = some b) ∧ ∃ l, lenMsg S m = some l := encMsg_total hS m h

/-- A message that is accepted although it is not conforming: a nested message of the wrong
type and a bare element in a repeated field. -/
def exOdd : DynMsg := ⟨0, [(3, .val (.msg 2 [(1, .val (.i64 4))])), (8, .val (.str [97]))]⟩

example : accepted Ex.schema exOdd = true ∧ confMsg Ex.schema exOdd = false := by decide
example : accepted Ex.schema Ex.big = true := by decide

/-! ### C08 -/

/-- **C08.** Decoding the encoding of a conforming message succeeds exactly when it nests
at most 100 levels of messages and groups, known or unknown; beyond that the result is
the recursion-limit error. -/
theorem C08_limit {S : Schema} (hS : S.wf = true) {m : DynMsg} (hm : confMsg S m = true) {b : Bytes}
    (hb : encMsg S m = some b) (hl : b.length < 2 ^ 64) :
    (depthMsg m ≤ 100 → ∃ m', decode S m.desc b = .ok m') ∧
    (100 < depthMsg m → decode S m.desc b = .error .recursionLimit) := by
  obtain ⟨md, hC⟩ := confMsg_iff.1 hm
  have he : confMsg S (DynMsg.empty m.desc) = true := confMsg_iff.2 ⟨md, Conf.empty hC.desc⟩
  exact ⟨fun h => ⟨_, (decode_encMsg hS hm h hb hl).1⟩,
    fun h => merge_encMsg_deep hS he hm rfl h hb hl⟩

/-- **C08**, for arbitrary bytes: nothing that is decoded is nested deeper than 101 levels
(see `C08_extra_level` for why 101 and not 100). -/
theorem C08_bound {S : Schema} (hS : S.wf = true) {d : Nat} {b : Bytes} {m : DynMsg}
    (h : decode S d b = .ok m) : depthMsg m ≤ 101 := by
  have := merge_depth hS h
  simpa [DynMsg.empty, depthMsg, depthSlots, recursionLimit] using this

/-- Message type with a map to itself and a child of its own type. -/
def recSchema : Schema where
  msgs := [
    { name := "t.R".toList,
      fields := [{ Ex.fld 1 "m" (.message 1) with card := .repeated },
                 { Ex.fld 2 "child" (.message 0) with presence := true }],
      mapEntry := false, extensions := [] },
    { name := "t.R.MEntry".toList,
      fields := [Ex.fld 1 "key" .int32, { Ex.fld 2 "value" (.message 0) with presence := true }],
      mapEntry := true, extensions := [] }]
  enums := []

/-- `inner` wrapped in `n` levels of `child`. -/
def wrap (inner : Bytes) : Nat → Bytes
  | 0 => inner
  | n + 1 => 18 :: (encodeVarint (wrap inner n).length ++ wrap inner n)

example : recSchema.wf = true := by decide
/-- 100 levels are accepted, 101 are not. -/
example : (match decode recSchema 0 (wrap [] 100) with
    | .ok m => depthMsg m == 100
    | .error _ => false) = true ∧
    (match decode recSchema 0 (wrap [] 101) with
    | .ok _ => false
    | .error e => e == .recursionLimit) = true := by decide +kernel

/-- The bound is tight: a map entry without a value, in a message at the deepest allowed
level, creates one more level. -/
theorem C08_extra_level : ∃ m, decode recSchema 0 (wrap [10, 0] 100) = .ok m ∧ depthMsg m = 101 := by
  have : (match decode recSchema 0 (wrap [10, 0] 100) with
    | .ok m => depthMsg m == 101
    | .error _ => false) = true := by decide +kernel
  split at this
  · rename_i m hm; exact ⟨m, hm, by simpa using this⟩
  · cases this

/-! ### C50 -/

/-- **C50 is false** as stated (every decoded message can be encoded and decoded again): the
message of `C08_extra_level` is conforming and encodes, but its encoding is rejected. -/
theorem C50_false : ∃ (b b' : Bytes) (m : DynMsg), recSchema.wf = true ∧
    decode recSchema 0 b = .ok m ∧ encMsg recSchema m = some b' ∧
    decode recSchema 0 b' = .error .recursionLimit := by
  have : (match decode recSchema 0 (wrap [10, 0] 100) with
    | .ok m =>
      match encMsg recSchema m with
      | some b' =>
        match decode recSchema 0 b' with
        | .error e => e == .recursionLimit
        | .ok _ => false
      | none => false
    | .error _ => false) = true := by decide +kernel
  split at this
  · rename_i m hm
    split at this
    · rename_i b' hb'
      split at this
      · rename_i e he
        exact ⟨_, b', m, by decide, hm, hb', by rw [he]; simpa using this⟩
      · cases this
    · cases this
  · cases this

/-- **C50**, as far as it holds: any decoded message that nests at most 100 levels is encoded
again, and decoding that gives the same content. -/
theorem C50_redecode_partial {S : Schema} (hS : S.wf = true) {d : Nat} {md : MsgDesc}
    (hd : S.msg? d = some md) {b : Bytes} {m : DynMsg} (h : decode S d b = .ok m)
    (hdep : depthMsg m ≤ 100) : ∃ b', encMsg S m = some b' ∧
      (b'.length < 2 ^ 64 → ∃ m', decode S d b' = .ok m' ∧ SameMsg S m m') := by
  obtain ⟨hc, hdd⟩ := (merge_ok hS (confMsg_iff.2 ⟨md, Conf.empty hd⟩) b).2 m h
  obtain ⟨b', h1, h2⟩ := C01_roundtrip hS hc hdep
  refine ⟨b', h1, fun hl => ?_⟩
  obtain ⟨m', h3, _, h4⟩ := h2 hl
  refine ⟨m', ?_, h4⟩
  rw [← h3, hdd]

/-! ### C09 -/

/-- **C09.** Every value of a scalar or enum kind is recovered from its wire form, whatever
follows it. -/
theorem C09_scalar_roundtrip {k : Kind} {v : Value} (h : scalarOk k v = true) :
    ∃ p, scalarEnc k v = some p ∧
      (p.length < 2 ^ 64 → ∀ t, scalarDec k k.wireType (p ++ t) = .ok (v, t)) := by
  have hk : k.isMessage = false := by
    cases k <;> simp [scalarOk, Kind.isMessage] at h ⊢
  have hv : v.isValid k = true := by
    cases k <;> cases v <;> simp [scalarOk, Value.isValid] at h ⊢
  have := scalarEnc_isSome hk v
  rw [hv] at this
  obtain ⟨p, hp⟩ := Option.isSome_iff_exists.1 this
  exact ⟨p, hp, fun hl t => scalarDec_enc hp (fun b hb => by subst hb; exact scalarOk_utf8 h) hl t⟩

/-- Only strings and bytes can be long. -/
theorem C09_short {k : Kind} {v : Value} {p : Bytes} (h : scalarEnc k v = some p)
    (hs : ∀ b, v ≠ .str b) (hb : ∀ b, v ≠ .bytes b) : p.length ≤ 10 := by
  have aux : ∀ k n, (encodeVarintAux k n).length ≤ k := by
    intro k
    induction k with
    | zero => intro n; simp [encodeVarintAux]
    | succ k ih =>
      intro n
      simp only [encodeVarintAux]
      split
      · simp
      · simpa using ih _
  have hvl : ∀ n, (encodeVarint n).length ≤ 10 := fun n => aux 10 n
  cases k <;> cases v <;> simp [scalarEnc] at h <;> subst h <;>
    first
    | exact hvl _
    | (simp only [putLE_length]; omega)
    | (exact absurd rfl (hs _))
    | (exact absurd rfl (hb _))

example : scalarOk .sint32 (.i32 (-2147483648)) = true ∧
    scalarEnc .sint32 (.i32 (-2147483648)) = some [255, 255, 255, 255, 15] ∧
    scalarEnc .int32 (.i32 (-1)) = some [255, 255, 255, 255, 255, 255, 255, 255, 255, 1] := by
  decide +kernel

/-! ### C10 -/

/-- **C10**, singular scalars: the last of any number of occurrences wins. -/
theorem C10_scalar_last {S : Schema} (hS : S.wf = true) {m : DynMsg} (hm : confMsg S m = true)
    {f : FieldDesc} (hk : Known S m.desc f) (hc : f.card ≠ .repeated) (hs : f.kind.isMessage = false)
    {vs : List Value} {v : Value} (hv : ∀ w ∈ vs ++ [v], scalarOk f.kind w = true)
    {b : Bytes} (hb : scalarOccs f (vs ++ [v]) = some b) (hl : b.length < 2 ^ 64) :
    ∃ m', merge S m b = .ok m' ∧ m'.getField S f = some v ∧ Untouched S f m m' := by
  obtain ⟨md, hC⟩ := confMsg_iff.1 hm
  obtain ⟨cur, hcur, hcc⟩ := get_conf hS hC hk
  have hso : scalarOk f.kind cur = true := scalarOk_of_confVal hs hc hcc
  have hne : b ≠ [] := by
    rintro rfl
    cases vs with
    | nil =>
      simp only [List.nil_append, scalarOccs] at hb
      split at hb
      · simp [encodeKey_ne_nil] at hb
      · cases hb
    | cons w r =>
      simp only [List.cons_append, scalarOccs] at hb
      split at hb
      · simp [encodeKey_ne_nil] at hb
      · cases hb
  have hst := scalarOccs_steps (S := S) (d := recursionLimit) hs (vs ++ [v]) cur hso hv hb hl
  have hlast : (cur :: (vs ++ [v])).getLast (by simp) = v := by
    have : ∀ (l : List Value) (h : l ++ [v] ≠ []), (l ++ [v]).getLast h = v := by
      intro l h; rw [List.getLast_append_of_ne_nil h (by simp)]; rfl
    exact this (cur :: vs) (by simp)
  rw [hlast] at hst
  obtain ⟨m', h1, h2⟩ := run_known hS hC hk hcur hne hst
  refine ⟨m', h1, ?_, placed_untouched hS hC.desc h2⟩
  unfold DynMsg.getField FieldSet.get; rw [h2.get]

/-- **C10**, repeated scalars: elements accumulate in order (packed chunks: `C04_packed_mix`). -/
theorem C10_list_append {S : Schema} (hS : S.wf = true) {m : DynMsg} (hm : confMsg S m = true)
    {f : FieldDesc} (hk : Known S m.desc f) (hL : isList S f = true) (hs : f.kind.isMessage = false)
    {vs : List Value} (hne : vs ≠ []) (hv : ∀ w ∈ vs, scalarOk f.kind w = true)
    {b : Bytes} (hb : scalarOccs f vs = some b) (hl : b.length < 2 ^ 64) :
    ∃ ws m', m.getField S f = some (.list ws) ∧ merge S m b = .ok m' ∧
      m'.getField S f = some (.list (ws ++ vs)) ∧ Untouched S f m m' := by
  obtain ⟨md, hC⟩ := confMsg_iff.1 hm
  obtain ⟨hf, _⟩ := known_mem hS hC.desc hk
  obtain ⟨ws, hws⟩ := get_list hS hC hk hL
  have hne : b ≠ [] := by
    rintro rfl
    cases vs with
    | nil => exact absurd rfl hne
    | cons w r =>
      simp only [scalarOccs] at hb
      split at hb
      · simp [encodeKey_ne_nil] at hb
      · cases hb
  obtain ⟨m', h1, h2⟩ := run_known hS hC hk hws hne (listOccs_steps hf hL hs vs ws hv hb hl)
  refine ⟨ws, m', hws, h1, ?_, placed_untouched hS hC.desc h2⟩
  unfold DynMsg.getField FieldSet.get; rw [h2.get]

/-- **C10**, repeated messages: each occurrence appends the decoded payload. -/
theorem C10_message_list {S : Schema} (hS : S.wf = true) {m : DynMsg} (hm : confMsg S m = true)
    {f : FieldDesc} (hk : Known S m.desc f) (hL : isList S f = true) (hg : f.group = false) {i : Nat}
    (hi : f.kind = .message i) {p : Bytes} {x : DynMsg}
    (hp : mergeAt S 99 (DynMsg.empty i) p = .ok x) (hl : p.length < 2 ^ 64) :
    ∃ ws m', m.getField S f = some (.list ws) ∧ merge S m (msgOcc f.number p) = .ok m' ∧
      m'.getField S f = some (.list (ws ++ [x.toValue])) ∧ Untouched S f m m' := by
  obtain ⟨md, hC⟩ := confMsg_iff.1 hm
  obtain ⟨ws, hws⟩ := get_list hS hC hk hL
  obtain ⟨m', h1, h2⟩ := run_known hS hC hk hws (by simp [msgOcc, encodeKey_ne_nil])
    (msgListOcc_step hi hL hg hp hl ws)
  refine ⟨ws, m', hws, h1, ?_, placed_untouched hS hC.desc h2⟩
  unfold DynMsg.getField FieldSet.get; rw [h2.get]

/-- **C10**, singular messages: the occurrences are merged. An occurrence with payload `p`
merges `p` into the current message (an empty one if there is none). -/
theorem C10_message_merge {S : Schema} (hS : S.wf = true) {m : DynMsg} (hm : confMsg S m = true)
    {f : FieldDesc} (hk : Known S m.desc f) (hc : f.card ≠ .repeated) (hg : f.group = false) {i : Nat}
    (hi : f.kind = .message i) :
    ∃ cur : DynMsg, cur.desc = i ∧ m.getField S f = some cur.toValue ∧
      ∀ (p : Bytes) (x : DynMsg), mergeAt S 99 cur p = .ok x → p.length < 2 ^ 64 →
        ∃ m', merge S m (msgOcc f.number p) = .ok m' ∧ m'.getField S f = some x.toValue ∧
          Untouched S f m m' := by
  obtain ⟨md, hC⟩ := confMsg_iff.1 hm
  obtain ⟨cur, hcur, hcc⟩ := get_conf hS hC hk
  obtain ⟨fs, rfl⟩ : ∃ fs, cur = .msg i fs := by
    cases cur with
    | msg d fs =>
      have := (confMsg_of_confVal hcc).2.1
      rw [hi] at this; cases this; exact ⟨fs, rfl⟩
    | list ws => simp [confVal, isList_of_ne hc] at hcc
    | map ws => simp [confVal, isMap_of_ne hc] at hcc
    | _ => simp [confVal, hi, scalarOk] at hcc
  refine ⟨⟨i, fs⟩, rfl, hcur, ?_⟩
  intro p x hp hl
  obtain ⟨m', h1, h2⟩ := run_known hS hC hk hcur (by simp [msgOcc, encodeKey_ne_nil])
    (msgOcc_step (cur := ⟨i, fs⟩) hi hg hp hl)
  refine ⟨m', h1, ?_, placed_untouched hS hC.desc h2⟩
  unfold DynMsg.getField FieldSet.get; rw [h2.get]

/-- **C10**, singular messages: two occurrences give the same field value as one occurrence
with the concatenated payload. -/
theorem C10_message_concat {S : Schema} (hS : S.wf = true) {m : DynMsg} (hm : confMsg S m = true)
    {f : FieldDesc} (hk : Known S m.desc f) (hc : f.card ≠ .repeated) (hg : f.group = false) {i : Nat}
    (hi : f.kind = .message i) {p q : Bytes} {cur x y : DynMsg}
    (hcur : m.getField S f = some cur.toValue)
    (hx : mergeAt S 99 cur p = .ok x) (hy : mergeAt S 99 x q = .ok y)
    (hl : (p ++ q).length < 2 ^ 64) :
    ∃ m1 m2, merge S m (msgOcc f.number p ++ msgOcc f.number q) = .ok m1 ∧
      merge S m (msgOcc f.number (p ++ q)) = .ok m2 ∧
      m1.getField S f = some y.toValue ∧ m2.getField S f = some y.toValue := by
  rw [List.length_append] at hl
  obtain ⟨c0, _, hg0, h0⟩ := C10_message_merge hS hm hk hc hg hi
  have : c0 = cur := by
    rw [hcur] at hg0
    cases cur; cases c0; simp only [DynMsg.toValue, Option.some.injEq, Value.msg.injEq] at hg0
    rw [hg0.1, hg0.2]
  subst this
  obtain ⟨m', a1, a2, a3⟩ := h0 p x hx (by omega)
  have hm' := ((merge_ok hS hm _).2 m' a1).1
  have hk' : Known S m'.desc f := by rw [a3.1]; exact hk
  obtain ⟨c1, _, hg1, h1⟩ := C10_message_merge hS hm' hk' hc hg hi
  have : c1 = x := by
    rw [a2] at hg1
    cases x; cases c1; simp only [DynMsg.toValue, Option.some.injEq, Value.msg.injEq] at hg1
    rw [hg1.1, hg1.2]
  subst this
  obtain ⟨m1, b1, b2, _⟩ := h1 q y hy (by omega)
  have hpq : mergeAt S 99 c0 (p ++ q) = .ok y := by
    unfold mergeAt at hx hy ⊢
    split at hx
    · cases hx
    · rename_i z r hr
      cases hx
      have := mergeAll_rest hr
      subst this
      rw [mergeAll_append (good_msgMerge S 99) hr q]
      exact hy
  obtain ⟨m2, e1, e2, _⟩ := h0 (p ++ q) y hpq (by simp; omega)
  exact ⟨m1, m2, by rw [C05_merge_append a1, b1], e1, b2, e2⟩

/-- **C10**, maps: any number of entries, in any order; the last value of each key wins
and other keys keep theirs. -/
theorem C10_map_last {S : Schema} (hS : S.wf = true) {m : DynMsg} (hm : confMsg S m = true)
    {f : FieldDesc} (hk : Known S m.desc f) (hM : isMap S f = true) {i : Nat} (hi : f.kind = .message i)
    {kd vd : FieldDesc} (hkv : S.mapKV i = some (kd, vd)) {kvs : List (MapKey × Value)} (hne : kvs ≠ [])
    (hc : confMap S kd vd kvs = true) (hd : depthMap kvs ≤ 100) {b : Bytes}
    (hb : encMapEntries S f.number kd vd kvs = some b) (hl : b.length < 2 ^ 64) :
    ∃ old new m', m.getField S f = some (.map old) ∧ merge S m b = .ok m' ∧
      m'.getField S f = some (.map new) ∧ Untouched S f m m' ∧
      ∀ k, match lastOf kvs k with
        | some v => ∃ w, KMap.get? new k = some w ∧ (v.beq w = false → SameV S v w)
        | none => KMap.get? new k = KMap.get? old k := by
  obtain ⟨md, hC⟩ := confMsg_iff.1 hm
  obtain ⟨hf, _⟩ := known_mem hS hC.desc hk
  obtain ⟨old, hold⟩ := get_map hS hC hk hM
  have hE : EntryOk S i kd vd := by
    obtain ⟨a, c, h⟩ := Schema.wf_entry hS (by
      obtain ⟨j, hj, hj'⟩ := (isMap_iff.1 hM).2; rw [hi] at hj; cases hj; exact hj')
    have := h.kv
    rw [hkv] at this
    cases this
    exact h
  obtain ⟨h1, h2⟩ := encMap_merge hS kvs f i kd vd b 100 hf hi hM hE hc hb hl hd
  obtain ⟨m', h3, h4⟩ := run_known hS hC hk hold (h2 hne) (h1 old)
  refine ⟨old, _, m', hold, h3, ?_, placed_untouched hS hC.desc h4, get?_mergeMap hS hE.val.1 kvs old hc⟩
  unfold DynMsg.getField FieldSet.get; rw [h4.get]

example : Known Ex.schema 0 Ex.fA ∧ Ex.fA.card ≠ .repeated ∧ Ex.fA.kind.isMessage = false ∧
    scalarOccs Ex.fA [.i32 1, .i32 2, .i32 0] = some [8, 1, 8, 2, 8, 0] :=
  ⟨.inl rfl, by decide, rfl, by decide +kernel⟩
example : isList Ex.schema Ex.fYs = true ∧ scalarOccs Ex.fYs [.str [], .str [97]] = some [66, 0, 66, 1, 97] :=
  ⟨by decide, by decide +kernel⟩
example : ∃ x, mergeAt Ex.schema 99 (DynMsg.empty 0) [8, 5] = .ok x ∧ Ex.fChild.group = false ∧
    Ex.fChild.kind = .message 0 := by
  have : (match mergeAt Ex.schema 99 (DynMsg.empty 0) [8, 5] with
    | .ok _ => true
    | .error _ => false) = true := by decide +kernel
  split at this
  · rename_i x hx; exact ⟨x, hx, rfl, rfl⟩
  · cases this
example : ∃ kd vd, Ex.schema.mapKV 1 = some (kd, vd) ∧ isMap Ex.schema Ex.fTags = true ∧
    confMap Ex.schema kd vd [(.str [97], .f64 1), (.str [98], .f64 2), (.str [97], .f64 3)] = true ∧
    (encMapEntries Ex.schema 5 kd vd [(.str [97], .f64 1), (.str [98], .f64 2), (.str [97], .f64 3)]).isSome
      = true := ⟨_, _, rfl, by decide, by decide, by decide +kernel⟩

/-! ### C17 -/

/-- **C17.** Map keys and values convert back and forth; exactly the six key types convert;
validity agrees. -/
theorem C17_map_key :
    (∀ k : MapKey, k.toValue.toMapKey = some k) ∧
    (∀ (v : Value) (k : MapKey), v.toMapKey = some k → k.toValue = v) ∧
    (∀ v : Value, v.toMapKey.isSome = true ↔
      (∃ b, v = .bool b) ∨ (∃ x, v = .i32 x) ∨ (∃ x, v = .i64 x) ∨ (∃ x, v = .u32 x) ∨
      (∃ x, v = .u64 x) ∨ (∃ s, v = .str s)) ∧
    (∀ (k : MapKey) (kd : Kind), k.isValid kd = k.toValue.isValid kd) := by
  refine ⟨toMapKey_toValue, fun v k h => toValue_toMapKey h, ?_, mapKey_isValid⟩
  intro v
  cases v <;> simp [Value.toMapKey]

example : (MapKey.str [97]).toValue.toMapKey = some (.str [97]) := rfl

/-! ### C49 -/

/-- The wire types a field may arrive with: its own, length-delimited for a repeated
packable field, start-group for a group, length-delimited for a map. -/
def wireAllowed (S : Schema) (f : FieldDesc) (w : WireType) : Bool :=
  if isMap S f then w == .lengthDelimited
  else if f.group then w == .startGroup
  else w == f.kind.wireType || (isList S f && f.kind.packable && w == .lengthDelimited)

/-- **C49**, as far as it holds: a field that is not a map is rejected when it arrives with
another wire type. Missing: map fields, see `C49_false`. -/
theorem C49_wire_type_partial {S : Schema} (hS : S.wf = true) {m : DynMsg} (hm : confMsg S m = true)
    {f : FieldDesc} (hk : Known S m.desc f) (hM : isMap S f = false) {w : WireType}
    (hw : wireAllowed S f w = false) (rest : Bytes) :
    merge S m (encodeKey f.number w ++ rest) = .error .wrongWireType := by
  obtain ⟨md, hC⟩ := confMsg_iff.1 hm
  obtain ⟨hf, _⟩ := known_mem hS hC.desc hk
  simp only [wireAllowed, hM, Bool.false_eq_true, if_false] at hw
  have sing : ∀ v w, scalarOk f.kind v = true ∨ (∃ i fs, v = Value.msg i fs ∧ f.kind = .message i) →
      (if f.group then w == .startGroup else w == f.kind.wireType) = false →
      ∀ rest, singularMerge (nestedAt S recursionLimit) f v w rest = .error .wrongWireType := by
    intro v w hv hw rest
    rcases hv with hv | ⟨i, fs, rfl, hi⟩
    · have hg : f.group = false := by
        cases hgg : f.group with
        | false => rfl
        | true =>
          have := hf.group hgg
          cases hkk : f.kind <;> rw [hkk] at this hv <;> simp [Kind.isMessage, scalarOk] at this hv
      rw [hg] at hw
      simp only [Bool.false_eq_true, if_false, beq_eq_false_iff_ne, ne_eq] at hw
      have hvv : v.isValid f.kind = true := by
        cases hkk : f.kind <;> cases v <;> simp [hkk, scalarOk, Value.isValid] at hv ⊢
      have : singularMerge (nestedAt S recursionLimit) f v w rest = scalarDec f.kind w rest := by
        cases v with
        | msg i fs => cases hkk : f.kind <;> simp [hkk, scalarOk, Value.isValid] at hv
        | _ => simp only [singularMerge, hvv, if_true]
      rw [this]
      cases hkk : f.kind <;> rw [hkk] at hw <;> simp only [Kind.wireType] at hw <;>
        first
        | (simp only [scalarDec, ne_eq, hw, not_false_eq_true, if_true]; done)
        | (rw [hkk] at hv; simp [scalarOk] at hv)
    · simp only [singularMerge, hi]
      cases hgg : f.group with
      | true =>
        rw [hgg] at hw
        simp only [if_true, beq_eq_false_iff_ne, ne_eq] at hw
        simp only [if_true, groupMerge, ne_eq, hw, not_false_eq_true, mapV]
      | false =>
        rw [hgg, hi] at hw
        simp only [Bool.false_eq_true, if_false, Kind.wireType, beq_eq_false_iff_ne, ne_eq] at hw
        simp only [Bool.false_eq_true, if_false, messageMerge, ne_eq, hw, not_false_eq_true, if_true, mapV]
  have val : ∀ v, confVal S f v = true →
      ∀ rest, valueMerge S recursionLimit (nestedAt S recursionLimit) f v w rest =
        .error .wrongWireType := by
    intro v hv rest
    by_cases hl : isList S f = true
    · obtain ⟨hcard, _⟩ := isList_iff.1 hl
      obtain ⟨vs, rfl⟩ : ∃ vs, v = .list vs := by
        cases v with
        | list vs => exact ⟨vs, rfl⟩
        | map kvs => simp [confVal, hM] at hv
        | _ => simp [confVal, hcard] at hv
      obtain ⟨v0, h0, hv0⟩ := kindDefault_conf hf
      simp only [valueMerge, hl, if_true, listMerge, h0]
      have hnp : ¬ (w = .lengthDelimited ∧ f.kind.packable = true) := by
        rintro ⟨rfl, hp⟩
        have hg : f.group = false := by
          cases hgg : f.group with
          | false => rfl
          | true =>
            have := hf.group hgg
            cases hkk : f.kind <;> rw [hkk] at this hp <;> simp [Kind.isMessage, Kind.packable] at this hp
        simp [hg, hl, hp] at hw
      rw [if_neg hnp, sing v0 w ?_ ?_]
      · rfl
      · by_cases hmsg : f.kind.isMessage = true
        · cases hkk : f.kind with
          | message i =>
            rw [hkk] at h0
            simp only [kindDefault, Option.some.injEq] at h0
            exact .inr ⟨i, [], h0.symm, rfl⟩
          | _ => rw [hkk] at hmsg; simp [Kind.isMessage] at hmsg
        · exact .inl (scalarOk_of_confVal (f := f.elem) (by simpa [FieldDesc.elem] using hmsg) elem_card hv0)
      · cases hgg : f.group with
        | true => simpa [hgg] using hw
        | false =>
          rw [hgg] at hw
          simp only [Bool.false_eq_true, if_false, Bool.or_eq_false_iff] at hw ⊢
          exact hw.1
    · have hcard : f.card ≠ .repeated := by
        intro h; exact hl (isList_iff.2 ⟨h, hM⟩)
      have hw' : (if f.group then w == .startGroup else w == f.kind.wireType) = false := by
        cases hgg : f.group with
        | true => simpa [hgg] using hw
        | false => simpa [hgg, hl] using hw
      cases v with
      | list vs => simp [confVal, hl] at hv
      | map kvs => simp [confVal, hM] at hv
      | msg i fs => exact sing _ w (.inr ⟨i, fs, rfl, (confMsg_of_confVal hv).2.1⟩) hw' rest
      | _ =>
        simp only [valueMerge]
        refine sing _ w (.inl ?_) hw' rest
        simp only [confVal, Bool.and_eq_true] at hv
        exact hv.2
  have step : ∀ rest, msgMerge S recursionLimit m f.number w rest = .error .wrongWireType := by
    intro rest
    rcases hk.cases hC.desc with h | h
    · obtain ⟨v, hv, _, h1, _⟩ := field_place hS hC h recursionLimit
      rw [h1, val v hv]; rfl
    · obtain ⟨v, hv, _, h1, _⟩ := ext_place hS hC h recursionLimit
      rw [h1, val v hv]; rfl
  unfold merge mergeAll
  have hne : 0 < (encodeKey f.number w ++ rest).length := by
    have : encodeKey f.number w ≠ [] := encodeKey_ne_nil _ _
    rw [List.length_append]
    have := List.length_pos_iff.2 this
    omega
  simp only [loopTo, keyThen]
  rw [decode_encode_key hf.num.1 hf.num.2, if_neg (by omega)]
  simp only [step]

example : wireAllowed Ex.schema Ex.fA .lengthDelimited = false ∧ isMap Ex.schema Ex.fA = false ∧
    wireAllowed Ex.schema Ex.fG .lengthDelimited = false ∧ wireAllowed Ex.schema Ex.fXs .lengthDelimited = true := by
  decide

/-- **C49 is false** for map fields: the entry is read whatever the wire type of the key
says; here a varint key (40 = field 5, varint) is followed by a complete map entry. -/
theorem C49_false : wireAllowed Ex.schema Ex.fTags .varint = false ∧
    ∃ m, decode Ex.schema 0 (encodeKey 5 .varint ++ [3, 10, 1, 97]) = .ok m ∧
      m.hasField Ex.schema Ex.fTags = some true := by
  refine ⟨by decide, ?_⟩
  have : (match decode Ex.schema 0 (encodeKey 5 .varint ++ [3, 10, 1, 97]) with
    | .ok m => m.hasField Ex.schema Ex.fTags
    | .error _ => none) = some true := by decide +kernel
  split at this
  · rename_i m hm; exact ⟨m, hm, this⟩
  · cases this

end Verif.Props
