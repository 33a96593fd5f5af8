import Verif.Props.Binary
import Verif.Dyn.AsUnknown
/-!
C78 and C79: the order of fields, and messages that pass through a program that does not know
their fields.
-/
set_option autoImplicit false
namespace Verif.Props
open Verif.Wire Verif.Dyn

/-! ### C79 -/

/-- No two different members of one oneof of message `d` are among these fields. -/
def OneMember (S : Schema) (d : Nat) (x : USet) : Prop :=
  ∀ p ∈ x, ∀ q ∈ x, ∀ f g o, S.field? d p.1 = some f → S.field? d q.1 = some g →
    f.oneof = some o → g.oneof = some o → p.1 = q.1

theorem apart_of_one {S : Schema} (hS : S.wf = true) {d : Nat} {x : USet} (h : OneMember S d x) :
    ∀ p ∈ x, ∀ q ∈ x, p.1 ≠ q.1 → Apart S d p.1 q.1 := by
  have key : ∀ p ∈ x, ∀ q ∈ x, p.1 ≠ q.1 → p.1 ∉ pushed S d q.1 := by
    intro p hp q hq hne hmem
    unfold pushed at hmem
    cases hmd : S.msg? d with
    | none => rw [hmd] at hmem; cases hmem
    | some md =>
      rw [hmd] at hmem
      simp only at hmem
      cases hf : md.getField q.1 with
      | none => rw [hf] at hmem; cases hmem
      | some f =>
        rw [hf] at hmem
        obtain ⟨o, ho, g, hg, hgo, -, hgn⟩ := mem_siblings.1 hmem
        have hg' := getField_of_mem (Schema.wf_msg hS hmd).nodup hg
        rw [hgn] at hg'
        exact hne (h p hp q hq g f o (by rw [field?_eq hmd]; exact hg') (by rw [field?_eq hmd]; exact hf) hgo ho)
  exact fun p hp q hq hne => ⟨hne, key p hp q hq hne, key q hq p hp (Ne.symm hne)⟩

/-- **C79.** Two byte strings that hold the same fields, number by number in the same order, decode
to the same message: how fields with different numbers are interleaved does not matter. Left out are
two members of one oneof and map fields that are not written as delimited bytes. -/
theorem C79_order_partial {S : Schema} (hS : S.wf = true) {d : Nat} {md : MsgDesc} (hmd : S.msg? d = some md)
    {b c : Bytes} {x y : USet} (hb : Parsed 100 b x) (hc : Parsed 100 c y)
    (hxy : ∀ n, y.filter (·.1 == n) = x.filter (·.1 == n))
    (hone : OneMember S d x) (hmap : DelimitedAll S d x) (m : DynMsg) :
    decode S d c = .ok m ↔ decode S d b = .ok m := by
  have he : confMsg S (DynMsg.empty d) = true := confMsg_iff.2 ⟨md, Conf.empty hmd⟩
  have hsub : ∀ p, p ∈ y ↔ p ∈ x := by
    intro p
    have : p ∈ y.filter (·.1 == p.1) ↔ p ∈ x.filter (·.1 == p.1) := by rw [hxy p.1]
    simpa using this
  have hmap' : DelimitedAll S d y := (delimitedAll_iff _).2 (fun p hp =>
    (delimitedAll_iff _).1 hmap p ((hsub p).1 hp))
  have hone' : OneMember S d y := fun p hp q hq => hone p ((hsub p).1 hp) q ((hsub q).1 hq)
  unfold decode
  rw [merge_iff_run hS he hb hmap, merge_iff_run hS he hc hmap']
  constructor
  · exact run_shuffled hS (shuffled_of_filter y x (fun n => (hxy n).symm) (apart_of_one hS hone')) he rfl
      hc.wf
  · exact run_shuffled hS (shuffled_of_filter x y hxy (apart_of_one hS hone)) he rfl hb.wf

/-- **C79**, negated without the condition on oneofs: the last member of a oneof wins, so swapping
two of them changes the message. -/
theorem C79_false : ¬ ∀ (S : Schema) (d : Nat) (b c : Bytes) (x y : USet) (m : DynMsg), S.wf = true →
    Parsed 100 b x → Parsed 100 c y → (∀ n, y.filter (·.1 == n) = x.filter (·.1 == n)) →
    DelimitedAll S d x → (decode S d c = .ok m ↔ decode S d b = .ok m) := by
  intro h
  have hb := parsed_enc (d := 100) [(6, .len [120]), (7, .len [])] (by
    intro p hp
    simp only [List.mem_cons, List.not_mem_nil, or_false] at hp
    rcases hp with rfl | rfl <;> exact ⟨by decide, by simp [UVal.Wf], by simp [UVal.depth]⟩)
  have hc := parsed_enc (d := 100) [(7, .len []), (6, .len [120])] (by
    intro p hp
    simp only [List.mem_cons, List.not_mem_nil, or_false] at hp
    rcases hp with rfl | rfl <;> exact ⟨by decide, by simp [UVal.Wf], by simp [UVal.depth]⟩)
  have e1 : (match decode Ex.schema 0 (encUSet [(7, .len []), (6, .len [120])]) with
    | .ok m => m.hasField Ex.schema Ex.fO1
    | .error _ => none) = some true := by decide +kernel
  have e2 : (match decode Ex.schema 0 (encUSet [(6, .len [120]), (7, .len [])]) with
    | .ok m => m.hasField Ex.schema Ex.fO1
    | .error _ => none) = some false := by decide +kernel
  split at e1
  · next m hm =>
    have := (h Ex.schema 0 _ _ _ _ m (by decide) hb hc (by
      intro n
      by_cases h1 : n = 6
      · subst h1; rfl
      · by_cases h2 : n = 7
        · subst h2; rfl
        · have e1 : ((6 : Nat) == n) = false := by simpa using Ne.symm h1
          have e2 : ((7 : Nat) == n) = false := by simpa using Ne.symm h2
          simp [e1, e2])
      (by simp [DelimitedAll, Delimited])).1 hm
    rw [this] at e2
    simp only [e1] at e2
    cases e2
  · cases e1

/-- Fields 1, 4 and 8 of the example type, interleaved. -/
example : ∃ b m, Parsed 100 b [(8, .len [97]), (1, .varint 5), (4, .len [1, 2]), (8, .len [98]), (4, .varint 3)] ∧
    decode Ex.schema 0 b = .ok m ∧ m.hasField Ex.schema Ex.fXs = some true ∧
    OneMember Ex.schema 0 [(8, .len [97]), (1, .varint 5), (4, .len [1, 2]), (8, .len [98]), (4, .varint 3)] := by
  have hb := parsed_enc (d := 100) [(8, .len [97]), (1, .varint 5), (4, .len [1, 2]), (8, .len [98]), (4, .varint 3)] (by
    intro p hp
    simp only [List.mem_cons, List.not_mem_nil, or_false] at hp
    rcases hp with rfl | rfl | rfl | rfl | rfl <;> exact ⟨by decide, by simp [UVal.Wf], by simp [UVal.depth]⟩)
  have : (match decode Ex.schema 0 (encUSet [(8, .len [97]), (1, .varint 5), (4, .len [1, 2]), (8, .len [98]), (4, .varint 3)]) with
    | .ok m => m.hasField Ex.schema Ex.fXs
    | .error _ => none) = some true := by decide +kernel
  split at this
  · next m hm =>
    refine ⟨_, m, hb, hm, this, ?_⟩
    intro p hp q hq f g o hf hg ho hgo
    simp only [List.mem_cons, List.not_mem_nil, or_false] at hp
    have : f.oneof = none := by
      rcases hp with rfl | rfl | rfl | rfl | rfl <;> (cases hf; rfl)
    rw [this] at ho
    cases ho
  · cases this

/-! ### C78 -/

theorem decode_unknown {S : Schema} {d : Nat} {md : MsgDesc} (hmd : S.msg? d = some md)
    (hno : ∀ n, md.getField n = none ∧ md.getExtension n = none) : ∀ (k : Nat) {m m' : DynMsg} {b r : Bytes},
    m.desc = d → loopTo 0 (keyThen (msgMerge S 100)) k m b = .ok (m', r) → ∃ x, Parsed 100 b x
  | 0, _, _, _, _, _, h => by simp [loopTo] at h
  | k + 1, m, m', b, r, hm, h => by
    simp only [loopTo] at h
    split at h
    · next hb =>
      have : b = [] := List.length_eq_zero_iff.1 (by omega)
      subst this
      exact ⟨[], .nil⟩
    · split at h
      · cases h
      · next m1 b2 hs =>
        unfold keyThen at hs
        split at hs
        · cases hs
        · next n w b1 hk =>
          rw [msgMerge_eq] at hs
          unfold mergeField at hs
          simp only [hm, hmd, (hno n).1, (hno n).2] at hs
          split at hs
          · cases hs
          · next u b3 hu =>
            split at hs
            · cases hs
            · cases hs
              obtain ⟨x, hx⟩ := decode_unknown hmd hno k rfl h
              exact ⟨_, .cons hk hu hx⟩

/-- Passing bytes through a program whose type knows none of their fields. -/
theorem forward {S0 : Schema} (hS0 : S0.wf = true) {d0 : Nat} {md0 : MsgDesc} (hmd0 : S0.msg? d0 = some md0)
    {b : Bytes} {x : USet} (hb : Parsed 100 b x)
    (hno : ∀ p ∈ x, md0.getField p.1 = none ∧ md0.getExtension p.1 = none) :
    ∃ m0 y, decode S0 d0 b = .ok m0 ∧ encMsg S0 m0 = some (encUSet y) ∧ iterUnknown m0.fields = y ∧
      Parsed 100 (encUSet y) y ∧ ∀ n, y.filter (·.1 == n) = x.filter (·.1 == n) := by
  have hw := hb.wf
  have he : confMsg S0 (DynMsg.empty d0) = true := confMsg_iff.2 ⟨md0, Conf.empty hmd0⟩
  have hmap : DelimitedAll S0 d0 x := (delimitedAll_iff _).2 (fun p hp => delimited_strange (fun f hf e => by
    rcases hf with hf | hf
    · rw [field?_eq hmd0, e, (hno p hp).1] at hf; cases hf
    · rw [ext?_eq hmd0, e, (hno p hp).2] at hf; cases hf) _)
  obtain ⟨m0, y, h1, h2, h3, -, h5⟩ := C03_reencode hS0 hmd0 (us := x)
    ((Wire.USet.wf_iff _).2 (fun p hp => ⟨(hw p hp).1, (hw p hp).2.1⟩))
    ((Dyn.USet.depth_le _).2 (fun p hp => (hw p hp).2.2)) hno
  refine ⟨m0, y, ?_, h3, h2, parsed_enc y (fun p hp => ?_), h5⟩
  · exact merge_lock hS0 he (parsed_enc x hw) hb hmap h1
  · have : p ∈ y.filter (·.1 == p.1) := List.mem_filter.2 ⟨hp, by simp⟩
    rw [h5] at this
    exact hw p (List.mem_filter.1 this).1

/-- **C78.** Bytes that pass through a program whose message type has no fields at all (decode,
encode again) decode afterwards exactly as they did before, under any type, or fail as before. Left
out are inputs with two members of one oneof and maps that are not written as delimited bytes. -/
theorem C78_forward_partial {S0 : Schema} (hS0 : S0.wf = true) {d0 : Nat} {md0 : MsgDesc}
    (hmd0 : S0.msg? d0 = some md0) (hf0 : md0.fields = []) (he0 : md0.extensions = []) {b : Bytes}
    {m0 : DynMsg} (h0 : decode S0 d0 b = .ok m0) {S : Schema} (hS : S.wf = true) {d : Nat} {md : MsgDesc}
    (hmd : S.msg? d = some md) (hone : OneMember S d (iterUnknown m0.fields))
    (hmap : DelimitedAll S d (iterUnknown m0.fields)) :
    ∃ b', encMsg S0 m0 = some b' ∧ ∀ m, decode S d b' = .ok m ↔ decode S d b = .ok m := by
  have hno : ∀ n, md0.getField n = none ∧ md0.getExtension n = none := by
    intro n
    unfold MsgDesc.getField MsgDesc.getExtension
    rw [hf0, he0]
    exact ⟨rfl, rfl⟩
  obtain ⟨x, hx⟩ : ∃ x, Parsed 100 b x := by
    have h := h0
    unfold decode merge mergeAll at h
    split at h
    · cases h
    · next m1 r hl =>
      exact decode_unknown hmd0 hno _ rfl hl
  obtain ⟨m1, y, h1, h2, h3, h4, h5⟩ := forward hS0 hmd0 hx (fun p _ => hno p.1)
  rw [h0] at h1
  cases h1
  rw [h3] at hone hmap
  exact ⟨_, h2, fun m => (C79_order_partial hS hmd h4 hx (fun n => (h5 n).symm) hone hmap m).symm⟩

/-- **C78** for messages: a message that is encoded and passes through a program whose type has none
of its fields arrives with the same content. -/
theorem C78_roundtrip {S : Schema} (hS : S.wf = true) {m : DynMsg} (hm : confMsg S m = true)
    (hd : depthMsg m ≤ 100) {b : Bytes} (hb : encMsg S m = some b) (hl : b.length < 2 ^ 64)
    {S0 : Schema} (hS0 : S0.wf = true) {d0 : Nat} {md0 : MsgDesc} (hmd0 : S0.msg? d0 = some md0)
    (hno : ∀ n s, SMap.get? m.fields n = some s → md0.getField n = none ∧ md0.getExtension n = none) :
    ∃ m0 b' m', decode S0 d0 b = .ok m0 ∧ encMsg S0 m0 = some b' ∧ decode S m.desc b' = .ok m' ∧
      decode S m.desc b = .ok m' ∧ SameMsg S m m' := by
  obtain ⟨md, hC⟩ := confMsg_iff.1 hm
  obtain ⟨x, -, hx, hmap, hin⟩ := encMsg_parsed hS hm hd hb hl
  have hone : OneMember S m.desc x := by
    intro p hp q hq f g o hf hg ho ho'
    obtain ⟨s, hs⟩ := hin p hp
    obtain ⟨t, ht⟩ := hin q hq
    rw [field?_eq hC.desc] at hf hg
    obtain ⟨hfm, hfn⟩ := getField_mem hf
    obtain ⟨hgm, hgn⟩ := getField_mem hg
    by_cases hne : p.1 = q.1
    · exact hne
    · have := hC.oneof p.1 f s hs hf q.1 (mem_siblings.2 ⟨o, ho, g, hgm, ho', by
        rw [hfn, hgn]; exact fun e => hne e.symm, hgn⟩)
      rw [ht] at this
      cases this
  obtain ⟨m0, y, h1, h2, -, h4, h5⟩ := forward hS0 hmd0 hx (fun p hp => by
    obtain ⟨s, hs⟩ := hin p hp
    exact hno _ s hs)
  obtain ⟨b1, e1, e2⟩ := C01_roundtrip hS hm hd
  rw [hb] at e1
  cases e1
  obtain ⟨m', e3, -, e4⟩ := e2 hl
  exact ⟨m0, _, m', h1, h2, (C79_order_partial hS hC.desc hx h4 h5 hone hmap m').2 e3, e3, e4⟩

/-- A type without fields. -/
def Ex.bare : Schema where
  msgs := [{ name := "t.Empty".toList, fields := [], mapEntry := false, extensions := [] }]
  enums := []

example : Ex.bare.wf = true ∧ confMsg Ex.schema Ex.big = true ∧ depthMsg Ex.big ≤ 100 ∧
    (encMsg Ex.schema Ex.big).isSome = true ∧
    ∀ n, (match Ex.bare.msg? 0 with | some md => md.getField n | none => none) = none :=
  ⟨by decide, by decide, by decide, by decide +kernel, fun _ => rfl⟩

/-- **C78**, negated without the condition on oneofs: unknown fields are written back in the order of
their numbers, so of two members of one oneof the other one wins afterwards. -/
theorem C78_false : ¬ ∀ (S0 S : Schema) (d0 d : Nat) (md0 : MsgDesc) (b b' : Bytes) (m0 m : DynMsg),
    S0.wf = true → S.wf = true → S0.msg? d0 = some md0 → md0.fields = [] → md0.extensions = [] →
    decode S0 d0 b = .ok m0 → encMsg S0 m0 = some b' → decode S d b = .ok m → decode S d b' = .ok m := by
  intro h
  have e1 : (match decode Ex.bare 0 [58, 0, 50, 1, 120] with
    | .ok m => encMsg Ex.bare m
    | .error _ => none) = some [50, 1, 120, 58, 0] := by decide +kernel
  have e2 : (match decode Ex.schema 0 [58, 0, 50, 1, 120] with
    | .ok m => m.hasField Ex.schema Ex.fO1
    | .error _ => none) = some true := by decide +kernel
  have e3 : (match decode Ex.schema 0 [50, 1, 120, 58, 0] with
    | .ok m => m.hasField Ex.schema Ex.fO1
    | .error _ => none) = some false := by decide +kernel
  split at e1
  · next m0 hm0 =>
    split at e2
    · next m hm =>
      have := h Ex.bare Ex.schema 0 0 _ _ _ m0 m (by decide) (by decide) rfl rfl rfl hm0 e1 hm
      rw [this] at e3
      simp only [e2] at e3
      cases e3
    · cases e2
  · cases e1

/-- **C78**, negated without the condition on maps: an entry of a map is read as delimited bytes
whatever wire type its key says, so the forwarding program sees other fields than the receiver. -/
theorem C78_map_false : ¬ ∀ (S0 S : Schema) (d0 d : Nat) (md0 : MsgDesc) (b b' : Bytes) (m0 m : DynMsg),
    S0.wf = true → S.wf = true → S0.msg? d0 = some md0 → md0.fields = [] → md0.extensions = [] →
    decode S0 d0 b = .ok m0 → OneMember S d (iterUnknown m0.fields) → encMsg S0 m0 = some b' →
    decode S d b = .ok m → decode S d b' = .ok m := by
  intro h
  have e1 : (match decode Ex.bare 0 [40, 2, 10, 0] with
    | .ok m => encMsg Ex.bare m
    | .error _ => none) = some [10, 0, 40, 2] := by decide +kernel
  have e0 : (match decode Ex.bare 0 [40, 2, 10, 0] with
    | .ok m => (iterUnknown m.fields).map (·.1)
    | .error _ => []) = [1, 5] := by decide +kernel
  have e2 : (match decode Ex.schema 0 [40, 2, 10, 0] with
    | .ok m => m.hasField Ex.schema Ex.fTags
    | .error _ => none) = some true := by decide +kernel
  have e3 : (match decode Ex.schema 0 [10, 0, 40, 2] with
    | .ok _ => true
    | .error _ => false) = false := by decide +kernel
  split at e1
  · next m0 hm0 =>
    rw [hm0] at e0
    split at e2
    · next m hm =>
      have := h Ex.bare Ex.schema 0 0 _ _ _ m0 m (by decide) (by decide) rfl rfl rfl hm0 (by
        intro p hp q hq f g o hf hg ho _
        have : p.1 ∈ (iterUnknown m0.fields).map (·.1) := List.mem_map.2 ⟨p, hp, rfl⟩
        simp only at e0
        rw [e0] at this
        simp only [List.mem_cons, List.not_mem_nil, or_false] at this
        have hno : f.oneof = none := by
          rcases this with h | h <;> (rw [h] at hf; cases hf; rfl)
        rw [hno] at ho
        cases ho) e1 hm
      rw [this] at e3
      cases e3
    · cases e2
  · cases e1

end Verif.Props
