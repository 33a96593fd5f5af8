import Verif.Dyn.EqualSpec
import Verif.Dyn.EvolveKeep
import Verif.Props.Example
/-!
C83: what `==` on messages means.
-/
set_option autoImplicit false
namespace Verif.Props
open Verif.Wire Verif.Dyn

/-- C83: What `==` compares. Two messages are equal exactly if they have the same type and the same fields
stored, with equal values: numbers, strings and bytes are the same, floats are the same and no NaN, or both
zero, lists agree element by element, maps have the same keys with equal values, and unknown fields are the
same. -/
theorem C83_iff {a b : DynMsg} (ha : keyedSlots a.fields = true) (hb : keyedSlots b.fields = true) :
    a.beq b = true ↔ a.desc = b.desc ∧ EqFields a.fields b.fields := by
  simp only [DynMsg.beq, Bool.and_eq_true, beq_iff_eq, beqSlots_iff _ _ ha hb]

/-- C83: `==` does not depend on the order of its sides. -/
theorem C83_symm {a b : DynMsg} (ha : keyedSlots a.fields = true) (hb : keyedSlots b.fields = true) :
    a.beq b = b.beq a := by
  rw [Bool.eq_iff_iff]
  simp only [DynMsg.beq, Bool.and_eq_true, beq_iff_eq]
  exact ⟨fun h => ⟨h.1.symm, beqSlots_symm _ _ ha hb h.2⟩, fun h => ⟨h.1.symm, beqSlots_symm _ _ hb ha h.2⟩⟩

/-- C83: What equals the same message is equal. -/
theorem C83_trans {a b c : DynMsg} (h : a.beq b = true) (h' : b.beq c = true) : a.beq c = true := by
  simp only [DynMsg.beq, Bool.and_eq_true, beq_iff_eq] at h h' ⊢
  exact ⟨h.1.trans h'.1, beqSlots_trans _ _ _ h.2 h'.2⟩

/-- C83: A message equals itself exactly when there is no NaN in it. -/
theorem C83_self {a : DynMsg} (ha : keyedSlots a.fields = true) : a.beq a = nanFreeSlots a.fields := by
  simp only [DynMsg.beq, beq_self_eq_true, Bool.true_and, beqSlots_self _ ha]

example : keyedSlots Ex.big.fields = true ∧ nanFreeSlots Ex.big.fields = true ∧
    nanFreeSlots [(11, .val (.f64 0x7FF8000000000000))] = false := ⟨by decide, by decide, by decide⟩

/-- C83: Equal messages have the same type, the same fields present, equal values in them, the same unknown
fields, and the same encoded length. -/
theorem C83_content {a b : DynMsg} (ha : keyedSlots a.fields = true) (hb : keyedSlots b.fields = true)
    (h : a.beq b = true) (S : Schema) :
    a.desc = b.desc ∧ iterUnknown a.fields = iterUnknown b.fields ∧ lenMsg S a = lenMsg S b ∧
    ∀ f, FieldSet.has S a.fields f = FieldSet.has S b.fields f ∧
      ∀ v w, FieldSet.has S a.fields f = some true → FieldSet.get S a.fields f = some v →
        FieldSet.get S b.fields f = some w → v.beq w = true := by
  simp only [DynMsg.beq, Bool.and_eq_true, beq_iff_eq] at h
  have hs := eqSlots _ _ ha hb h.2
  refine ⟨h.1, hs.iterUnknown, ?_, fun f => ?_⟩
  · unfold lenMsg
    rw [h.1]
    exact beqSlots_len _ _ ha hb h.2 _
  · unfold FieldSet.has FieldSet.get
    rcases hs.getValue f.number with ⟨h1, h2⟩ | ⟨v, w, h1, h2, h3, h4, h5⟩
    · rw [h1, h2]
      exact ⟨rfl, fun v w e => by cases e⟩
    · rw [h1, h2]
      refine ⟨beq_hasVal h4 h5 h3 S f, fun v' w' _ e e' => ?_⟩
      cases e; cases e'
      exact h3

/-- C83: Equal messages are written with the same number of bytes, and what is read from these is equal. -/
theorem C83_decode {S : Schema} (hS : S.wf = true) {a b : DynMsg} (ha : confMsg S a = true) (hb : confMsg S b = true)
    (hda : depthMsg a ≤ 100) (hdb : depthMsg b ≤ 100) {x y : Bytes} (hx : encMsg S a = some x)
    (hy : encMsg S b = some y) (hlx : x.length < 2 ^ 64) (hly : y.length < 2 ^ 64) (h : a.beq b = true) :
    x.length = y.length ∧ ∃ a' b', decode S a.desc x = .ok a' ∧ decode S b.desc y = .ok b' ∧ a'.beq b' = true := by
  obtain ⟨d, fs⟩ := a
  obtain ⟨e, gs⟩ := b
  simp only [DynMsg.beq, Bool.and_eq_true, beq_iff_eq] at h
  obtain ⟨rfl, h⟩ := h
  have ca := ha
  have cb := hb
  simp only [confMsg, Bool.and_eq_true] at ca cb
  have ka := keyed_confSlots fs d ca.2
  have kb := keyed_confSlots gs d cb.2
  refine ⟨?_, _, _, (decode_encMsg hS ha hda hx hlx).1, (decode_encMsg hS hb hdb hy hly).1, ?_⟩
  · have hl := beqSlots_len (S := S) fs gs ka kb h d
    simp only [encMsg] at hx hy
    split at hx
    · cases hx
    split at hy
    · cases hy
    rename_i p q h1 _ _ _ h2
    cases hx; cases hy
    rw [lenSlots_eq hS fs d _ _ (confSlots_accepted hS fs d ca.2) h1 hlx,
      lenSlots_eq hS gs d _ _ (confSlots_accepted hS gs d cb.2) h2 hly] at hl
    exact Option.some.inj hl
  · simp only [DynMsg.beq, canonMsg, beq_self_eq_true, Bool.true_and]
    exact beqSlots_canon hS fs gs ka kb h d

/-- `Ex.big` with the entries of its map the other way round and a zero of the other sign. -/
def Ex.like : DynMsg := ⟨0, Ex.big.fields.map (fun p =>
  if p.1 = 5 then (5, .val (.map [(.str [], .f64 0x8000000000000000), (.str [107], .f64 0x3FF0000000000000)])) else p)⟩

example : Ex.schema.wf = true ∧ confMsg Ex.schema Ex.big = true ∧ confMsg Ex.schema Ex.like = true ∧
    depthMsg Ex.big ≤ 100 ∧ depthMsg Ex.like ≤ 100 ∧ Ex.big.beq Ex.like = true ∧
    (match encMsg Ex.schema Ex.big, encMsg Ex.schema Ex.like with
      | some x, some y => decide (x ≠ y ∧ x.length < 2 ^ 64 ∧ y.length < 2 ^ 64)
      | _, _ => false) = true :=
  ⟨by decide, by decide, by decide, by decide, by decide, by decide +kernel, by decide +kernel⟩

example : keyedSlots Ex.big.fields = true ∧ keyedSlots Ex.like.fields = true ∧ Ex.big.beq Ex.like = true ∧
    FieldSet.has Ex.schema Ex.like.fields Ex.fTags = some true := ⟨by decide, by decide, by decide +kernel, by decide +kernel⟩

/-- C83: A message equals what is read back from its encoding, whatever the order of map entries, if every
stored value counts as present, nothing was taken out of it and there is no NaN in it. -/
theorem C83_roundtrip_partial {S : Schema} (hS : S.wf = true) {m : DynMsg} (hm : confMsg S m = true)
    (hdep : depthMsg m ≤ 100) {b : Bytes} (hb : encMsg S m = some b) (hl : b.length < 2 ^ 64)
    (ht : tidySlots S m.desc m.fields = true) (hn : nanFreeSlots m.fields = true) :
    ∃ m', decode S m.desc b = .ok m' ∧ m'.desc = m.desc ∧
      ∀ gs, JumbledS m'.fields gs → DynMsg.beq ⟨m.desc, gs⟩ m = true := by
  obtain ⟨d, fs⟩ := m
  have hc := hm
  simp only [confMsg, Bool.and_eq_true] at hc
  refine ⟨_, (decode_encMsg hS hm hdep hb hl).1, rfl, fun gs hj => ?_⟩
  simp only [DynMsg.beq, beq_self_eq_true, Bool.true_and]
  rw [← JumbledS.beq _ gs hj]
  exact canonSlots_beq hS fs (keyed_confSlots fs d hc.2) hn d ht

/-- `Ex.big` without the default that is stored and the field that was taken out. -/
def Ex.neat : DynMsg := ⟨0, Ex.big.fields.filter (fun p => p.1 ≠ 11 ∧ p.1 ≠ 12)⟩

example : Ex.schema.wf = true ∧ confMsg Ex.schema Ex.neat = true ∧ depthMsg Ex.neat ≤ 100 ∧
    tidySlots Ex.schema 0 Ex.neat.fields = true ∧ nanFreeSlots Ex.neat.fields = true ∧
    (match encMsg Ex.schema Ex.neat with
      | some b => decide (b.length < 2 ^ 64 ∧ 60 < b.length)
      | none => false) = true :=
  ⟨by decide, by decide, by decide, by decide +kernel, by decide, by decide +kernel⟩

/-- C83: A message in which a field without presence was set to its default has the content of a new one,
the same (empty) encoding, and is not equal to it, nor to what is read back. -/
theorem C83_default_false : ∃ (S : Schema) (m m' : DynMsg) (b : Bytes), S.wf = true ∧ confMsg S m = true ∧
    encMsg S m = some b ∧ encMsg S m' = some b ∧ decode S m.desc b = .ok m' ∧ SameMsg S m m' ∧
    nanFreeSlots m.fields = true ∧ m.beq m' = false := by
  have h1 : encMsg Ex.schema ⟨0, [(1, .val (.i32 0))]⟩ = some [] := by decide +kernel
  have h2 : encMsg Ex.schema ⟨0, []⟩ = some [] := by decide +kernel
  have hc : confMsg Ex.schema ⟨0, [(1, .val (.i32 0))]⟩ = true := by decide
  have hf : Ex.schema.field? 0 1 = some Ex.fA := rfl
  have hh : hasVal Ex.schema Ex.fA (.i32 0) = some false := by decide +kernel
  have e : canonMsg Ex.schema ⟨0, [(1, .val (.i32 0))]⟩ = ⟨0, []⟩ := by
    simp only [canonMsg, canonSlots, hf, hh]
    rfl
  refine ⟨Ex.schema, ⟨0, [(1, .val (.i32 0))]⟩, ⟨0, []⟩, [], by decide, hc, h1, h2, rfl, ?_, by decide,
    by decide +kernel⟩
  have := sameMsg_canon (S := Ex.schema) (by decide) hc
  rwa [e] at this

/-- `message Z { optional double z = 1; }`. -/
def Ex.real : Schema where
  msgs := [{ name := "t.Z".toList, fields := [{ Ex.fld 1 "z" .double with presence := true }],
             mapEntry := false, extensions := [] }]
  enums := []

/-- C83: Equal messages may have different encodings: 0.0 and -0.0. -/
theorem C83_zero_false : ∃ (S : Schema) (a b : DynMsg), S.wf = true ∧ confMsg S a = true ∧ confMsg S b = true ∧
    a.beq b = true ∧ encMsg S a ≠ encMsg S b ∧ (encMsg S a).isSome = true := by
  refine ⟨Ex.real, ⟨0, [(1, .val (.f64 0))]⟩,
    ⟨0, [(1, .val (.f64 0x8000000000000000))]⟩, ?_, ?_, ?_, ?_, ?_, ?_⟩ <;> decide +kernel

end Verif.Props
