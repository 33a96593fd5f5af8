import Verif.Dyn.EvolveKeep
import Verif.Props.Example
/-!
C80: a program built against an older schema reads a message of the newer one and writes it again.
-/
set_option autoImplicit false
namespace Verif.Props
open Verif.Wire Verif.Dyn

/-- C80: A message of the new schema, written and read by a program that knows the old schema only, is
accepted; the old program sees the fields it knows as they are. What it writes, in whatever order its
maps yield their entries, has the same length, and the new program reads from it a message with the
content of the original. With the entries in the order in which they were read it is exactly the message
read from the original bytes. -/
theorem C80_kept {S0 S : Schema} {ρ : Nat → Nat → Prop} (hS0 : S0.wf = true) (hS : S.wf = true)
    (hE : Evolves S0 S ρ) {d0 : Nat} {m : DynMsg} (hd : ρ d0 m.desc) (hm : confMsg S m = true)
    (hdep : depthMsg m ≤ 100) {b : Bytes} (hb : encMsg S m = some b) (hl : b.length < 2 ^ 64) :
    ∃ m0, decode S0 d0 b = .ok m0 ∧ m0.desc = d0 ∧ confMsg S0 m0 = true ∧ SeenV S0 S ρ m0.toValue m.toValue ∧
      (∃ b0 m', encMsg S0 m0 = some b0 ∧ decode S m.desc b = .ok m' ∧ decode S m.desc b0 = .ok m') ∧
      ∀ gs, JumbledS m0.fields gs → ∃ b0 m', encMsg S0 ⟨d0, gs⟩ = some b0 ∧ b0.length = b.length ∧
        decode S m.desc b0 = .ok m' ∧ SameMsg S m m' := by
  obtain ⟨d, fs⟩ := m
  obtain ⟨fs0, b0, hdown, hc0, hdec, hcc, hseen, henc, -, hnew⟩ := held_msg hS0 hS hE hd hm hdep hb hl
  refine ⟨canonMsg S0 ⟨d0, fs0⟩, hdec, rfl, hcc, hseen, ⟨b0, _, by rw [encMsg_canon hS0 hc0, henc],
    (decode_encMsg hS hm hdep hb hl).1, hnew⟩, fun gs hj => ?_⟩
  have hcs0 : confSlots S0 d0 fs0 = true := by
    simp only [confMsg, Bool.and_eq_true] at hc0; exact hc0.2
  obtain ⟨gs0, j0, rfl⟩ := JumbledS.lift hS0 fs0 d0 gs hcs0 hj
  obtain ⟨fs', j, hdown'⟩ := DownS.lift fs d0 d fs0 gs0 hdown j0
  obtain ⟨b', hb', hlen⟩ := j.encMsg hb
  have hm' : confMsg S ⟨d, fs'⟩ = true := by rw [← j.confMsg]; exact hm
  have hdep' : depthMsg ⟨d, fs'⟩ ≤ 100 := by
    simp only [depthMsg] at hdep ⊢; rw [← JumbledS.depth fs fs' j]; exact hdep
  obtain ⟨gs0', b0', hdown'', hc0', -, -, -, henc', hlen', hnew'⟩ :=
    held_msg hS0 hS hE hd hm' hdep' hb' (by rw [hlen]; exact hl)
  obtain rfl := DownS.unique hS0 hS fs' d0 d _ _ hdown' hdown''
  exact ⟨b0', _, (encMsg_canon hS0 hc0').trans henc', hlen'.trans hlen, hnew', j.sameMsg hS hm'⟩

/-- An older version of `Ex.schema`: no fields `s`, `o2`, `ys`, `g`, no extension `t.msgs`, fewer
enum values, the types in another order and another name for `child`. -/
def Ex.older : Schema where
  msgs := [
    { name := "t.M.TagsEntry".toList, fields := [Ex.fld 1 "key" .string, Ex.fld 2 "value" .double],
      mapEntry := true, extensions := [] },
    { name := "t.M".toList,
      fields := [Ex.fA, { Ex.fld 3 "sub" (.message 1) with presence := true }, Ex.fXs,
        { Ex.fTags with kind := .message 0 }, Ex.fO1, Ex.fE, Ex.fD],
      mapEntry := false, extensions := [Ex.xExt] }]
  enums := [{ name := "t.E".toList, values := [("ZERO".toList, 0)] }]

/-- Which types of `Ex.older` and `Ex.schema` correspond. -/
def Ex.grown (i0 i : Nat) : Prop := (i0 = 1 ∧ i = 0) ∨ (i0 = 0 ∧ i = 1)

theorem Ex.evolves : Evolves Ex.older Ex.schema Ex.grown := by
  rintro i0 i (⟨rfl, rfl⟩ | ⟨rfl, rfl⟩)
  · refine ⟨_, _, rfl, rfl, rfl, fun n f0 h => ?_, fun n f0 h => ?_, fun n k f0 g0 o h1 h2 h3 h4 => ?_⟩
    · obtain ⟨hm, rfl⟩ := getField_mem h
      simp only [List.mem_cons, List.not_mem_nil, or_false] at hm
      rcases hm with rfl | rfl | rfl | rfl | rfl | rfl | rfl
      · exact ⟨Ex.fA, rfl, rfl, .same rfl, rfl, rfl, rfl, rfl, rfl⟩
      · exact ⟨Ex.fChild, rfl, rfl, .msg (.inl ⟨rfl, rfl⟩), rfl, rfl, rfl, rfl, rfl⟩
      · exact ⟨Ex.fXs, rfl, rfl, .same rfl, rfl, rfl, rfl, rfl, rfl⟩
      · exact ⟨Ex.fTags, rfl, rfl, .msg (.inr ⟨rfl, rfl⟩), rfl, rfl, rfl, rfl, rfl⟩
      · exact ⟨Ex.fO1, rfl, rfl, .same rfl, rfl, rfl, rfl, rfl, rfl⟩
      · exact ⟨Ex.fE, rfl, rfl, .enum rfl, rfl, rfl, rfl, rfl, rfl⟩
      · exact ⟨Ex.fD, rfl, rfl, .same rfl, rfl, rfl, rfl, rfl, rfl⟩
    · obtain ⟨hm, rfl⟩ := getExtension_mem h
      simp only [List.mem_cons, List.not_mem_nil, or_false] at hm
      subst hm
      exact ⟨Ex.xExt, rfl, rfl, .same rfl, rfl, rfl, rfl, rfl, rfl⟩
    · obtain ⟨hm, rfl⟩ := getField_mem h1
      obtain ⟨hm2, rfl⟩ := getField_mem h2
      simp only [List.mem_cons, List.not_mem_nil, or_false] at hm hm2
      rcases hm with rfl | rfl | rfl | rfl | rfl | rfl | rfl <;> try (cases h3; done)
      rcases hm2 with rfl | rfl | rfl | rfl | rfl | rfl | rfl <;> try (cases h4; done)
      exact ⟨Ex.fO1, Ex.fO1, 0, rfl, rfl, rfl, rfl⟩
  · refine ⟨_, _, rfl, rfl, rfl, fun n f0 h => ?_, fun n f0 h => ?_, fun n k f0 g0 o h1 h2 h3 h4 => ?_⟩
    · obtain ⟨hm, rfl⟩ := getField_mem h
      simp only [List.mem_cons, List.not_mem_nil, or_false] at hm
      rcases hm with rfl | rfl
      · exact ⟨Ex.fld 1 "key" .string, rfl, rfl, .same rfl, rfl, rfl, rfl, rfl, rfl⟩
      · exact ⟨Ex.fld 2 "value" .double, rfl, rfl, .same rfl, rfl, rfl, rfl, rfl, rfl⟩
    · cases h
    · obtain ⟨hm, rfl⟩ := getField_mem h1
      simp only [List.mem_cons, List.not_mem_nil, or_false] at hm
      rcases hm with rfl | rfl <;> cases h3

example : Ex.older.wf = true ∧ Ex.schema.wf = true ∧ Evolves Ex.older Ex.schema Ex.grown ∧
    Ex.grown 1 Ex.big.desc ∧ confMsg Ex.schema Ex.big = true ∧ depthMsg Ex.big ≤ 100 ∧
    (match encMsg Ex.schema Ex.big with
      | none => false
      | some b => decide (b.length < 2 ^ 64) &&
        (match decode Ex.older 1 b with
          | .ok m0 => decide (encMsg Ex.older m0 ≠ some b)
          | .error _ => false)) = true :=
  ⟨by decide, by decide, Ex.evolves, .inl ⟨rfl, rfl⟩, by decide, by decide, by decide +kernel⟩

/-- Fields that leave a oneof are not such a change: an old program that takes two fields for members
of one oneof drops the first. -/
def Ex.split : Schema where
  msgs := [
    { name := "t.O".toList, mapEntry := false, extensions := [],
      fields := [{ Ex.fld 1 "a" .string with presence := true }, { Ex.fld 2 "b" .string with presence := true }] }]
  enums := []

def Ex.joined : Schema where
  msgs := [
    { name := "t.O".toList, mapEntry := false, extensions := [],
      fields := [{ Ex.fld 1 "a" .string with presence := true, oneof := some 0 },
        { Ex.fld 2 "b" .string with presence := true, oneof := some 0 }] }]
  enums := []

def Ex.both : DynMsg := ⟨0, [(1, .val (.str [120])), (2, .val (.str [121]))]⟩

/-- Whether the field `a` is lost. -/
def Ex.lost : Bool :=
  match encMsg Ex.split Ex.both with
  | none => false
  | some b =>
    match decode Ex.joined 0 b with
    | .error _ => false
    | .ok m0 =>
      match encMsg Ex.joined m0 with
      | none => false
      | some b0 =>
        match decode Ex.split 0 b0 with
        | .error _ => false
        | .ok m' => decide (FieldSet.has Ex.split m'.fields { Ex.fld 1 "a" .string with presence := true } = some false)

/-- C80 needs the condition on oneofs. -/
theorem C80_oneof_false : ∃ b m0 b0 m', Ex.joined.wf = true ∧ Ex.split.wf = true ∧
    confMsg Ex.split Ex.both = true ∧ encMsg Ex.split Ex.both = some b ∧ decode Ex.joined 0 b = .ok m0 ∧
    encMsg Ex.joined m0 = some b0 ∧ decode Ex.split 0 b0 = .ok m' ∧ ¬ SameMsg Ex.split Ex.both m' := by
  have h : Ex.lost = true := by decide +kernel
  unfold Ex.lost at h
  split at h
  · cases h
  rename_i b h1
  split at h
  · cases h
  rename_i m0 h2
  split at h
  · cases h
  rename_i b0 h3
  split at h
  · cases h
  rename_i m' h4
  refine ⟨b, m0, b0, m', by decide, by decide, by decide, h1, h2, h3, h4, fun hs => ?_⟩
  obtain ⟨d', fs'⟩ := m'
  unfold SameMsg DynMsg.toValue at hs
  cases hs with
  | refl => revert h; decide
  | msg hh _ _ =>
    have := hh { Ex.fld 1 "a" .string with presence := true } (.inl rfl)
    rw [of_decide_eq_true h] at this
    revert this
    decide

end Verif.Props
