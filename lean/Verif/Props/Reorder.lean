import Verif.Dyn.EvolveKeep
import Verif.Props.Example
/-!
C82: what a message that was read writes when it is written again. Maps are hash maps, so the entries may
come in another order.
-/
set_option autoImplicit false
namespace Verif.Props
open Verif.Wire Verif.Dyn

/-- C82: A message read from its own encoding, with the entries of its maps in any order whatsoever, is
written with as many bytes, and these read as a message with the content of the original. -/
theorem C82_any {S : Schema} (hS : S.wf = true) {m : DynMsg} (hm : confMsg S m = true)
    (hdep : depthMsg m ≤ 100) {b : Bytes} (hb : encMsg S m = some b) (hl : b.length < 2 ^ 64) :
    ∃ m', decode S m.desc b = .ok m' ∧ m'.desc = m.desc ∧
      ∀ gs, JumbledS m'.fields gs → ∃ b' m'', encMsg S ⟨m.desc, gs⟩ = some b' ∧ b'.length = b.length ∧
        decode S m.desc b' = .ok m'' ∧ SameMsg S m m'' := by
  obtain ⟨d, fs⟩ := m
  refine ⟨_, (decode_encMsg hS hm hdep hb hl).1, rfl, fun gs hj => ?_⟩
  have hcs : confSlots S d fs = true := by
    simp only [confMsg, Bool.and_eq_true] at hm; exact hm.2
  obtain ⟨fs', j, rfl⟩ := JumbledS.lift hS fs d gs hcs hj
  obtain ⟨b', hb', hlen⟩ := j.encMsg hb
  have hm' : confMsg S ⟨d, fs'⟩ = true := by rw [← j.confMsg]; exact hm
  have hdep' : depthMsg ⟨d, fs'⟩ ≤ 100 := by
    simp only [depthMsg] at hdep ⊢; rw [← JumbledS.depth fs fs' j]; exact hdep
  exact ⟨b', _, (encMsg_canon hS hm').trans hb', hlen, (decode_encMsg hS hm' hdep' hb' (by rw [hlen]; exact hl)).1,
    j.sameMsg hS hm'⟩

/-- A map with two entries, and the same with the entries the other way round. -/
def Ex.pair : DynMsg := ⟨0, [(5, .val (.map [(.str [107], .f64 1), (.str [108], .f64 2)]))]⟩
def Ex.riap : List (Nat × Slot) := [(5, .val (.map [(.str [108], .f64 2), (.str [107], .f64 1)]))]

theorem Ex.riap_jumbled : JumbledS Ex.pair.fields Ex.riap :=
  .val (.map (JumbledM.refl _) (.swap _ _ _)) .nil

example : Ex.schema.wf = true ∧ confMsg Ex.schema Ex.pair = true ∧ depthMsg Ex.pair ≤ 100 ∧
    (match encMsg Ex.schema Ex.pair with
      | none => false
      | some b => decide (b.length < 2 ^ 64)) = true ∧ JumbledS Ex.pair.fields Ex.riap :=
  ⟨by decide, by decide, by decide, by decide +kernel, Ex.riap_jumbled⟩

example : confMsg Ex.schema Ex.big = true ∧ depthMsg Ex.big ≤ 100 ∧
    (match encMsg Ex.schema Ex.big with
      | none => false
      | some b => decide (b.length < 2 ^ 64)) = true :=
  ⟨by decide, by decide, by decide +kernel⟩

theorem Ex.pair_canon : (canonMsg Ex.schema Ex.pair).fields = Ex.pair.fields := by
  have h1 : Ex.schema.field? 0 5 = some Ex.fTags := rfl
  have h2 : Ex.schema.mapKV 1 = some (Ex.fld 1 "key" .string, Ex.fld 2 "value" .double) := rfl
  have h3 : hasVal Ex.schema Ex.fTags (.map [(.str [107], .f64 1), (.str [108], .f64 2)]) = some true := by decide +kernel
  have h4 : hasVal Ex.schema (Ex.fld 2 "value" .double) (.f64 1) = some true := by decide +kernel
  have h5 : hasVal Ex.schema (Ex.fld 2 "value" .double) (.f64 2) = some true := by decide +kernel
  have h6 : Ex.fTags.kind = .message 1 := rfl
  simp only [Ex.pair, canonMsg, canonSlots, h1, h2, h3, h4, h5, h6, canonVal, canonMap, if_true]

/-- Whether `Ex.riap` is what reading `Ex.pair` may hold and writes other bytes. -/
def Ex.turned : Bool :=
  match encMsg Ex.schema Ex.pair, encMsg Ex.schema ⟨0, Ex.riap⟩ with
  | some b, some b' => decide (b ≠ b')
  | _, _ => false

/-- C82: The bytes may differ when a map has two entries. -/
theorem C82_bytes_false : ∃ (S : Schema) (m : DynMsg) (b : Bytes) (m' : DynMsg) (gs : List (Nat × Slot)) (b' : Bytes),
    S.wf = true ∧ confMsg S m = true ∧ encMsg S m = some b ∧ decode S m.desc b = .ok m' ∧
    JumbledS m'.fields gs ∧ encMsg S ⟨m.desc, gs⟩ = some b' ∧ b' ≠ b := by
  have h : Ex.turned = true := by decide +kernel
  unfold Ex.turned at h
  split at h
  · rename_i b b' h1 h2
    have hd := decode_encMsg (S := Ex.schema) (m := Ex.pair) (by decide) (by decide) (by decide) h1 ?_
    · exact ⟨Ex.schema, Ex.pair, b, _, Ex.riap, b', by decide, by decide, h1, hd.1, Ex.pair_canon ▸ Ex.riap_jumbled, h2,
        fun e => of_decide_eq_true h e.symm⟩
    · have : (match encMsg Ex.schema Ex.pair with
        | none => false
        | some b => decide (b.length < 2 ^ 64)) = true := by decide +kernel
      rw [h1] at this
      exact of_decide_eq_true this
  · cases h

/-- C82: If no map has more than one entry, the bytes are the same. -/
theorem C82_stable {S : Schema} (hS : S.wf = true) {m : DynMsg} (hm : confMsg S m = true)
    (hdep : depthMsg m ≤ 100) (hs : singleSlots m.fields = true) {b : Bytes} (hb : encMsg S m = some b)
    (hl : b.length < 2 ^ 64) :
    ∃ m', decode S m.desc b = .ok m' ∧ ∀ gs, JumbledS m'.fields gs → encMsg S ⟨m.desc, gs⟩ = some b := by
  obtain ⟨d, fs⟩ := m
  refine ⟨_, (decode_encMsg hS hm hdep hb hl).1, fun gs hj => ?_⟩
  have hcs : confSlots S d fs = true := by
    simp only [confMsg, Bool.and_eq_true] at hm; exact hm.2
  obtain ⟨fs', j, rfl⟩ := JumbledS.lift hS fs d gs hcs hj
  obtain rfl := JumbledS.eq_single fs _ j hs
  exact (encMsg_canon hS hm).trans hb

/-- `Ex.big` with one entry in its map. -/
def Ex.lone : DynMsg := ⟨0, Ex.big.fields.map (fun p =>
  if p.1 = 5 then (5, .val (.map [(.str [107], .f64 0x3FF0000000000000)])) else p)⟩

example : Ex.schema.wf = true ∧ confMsg Ex.schema Ex.lone = true ∧ depthMsg Ex.lone ≤ 100 ∧
    singleSlots Ex.lone.fields = true ∧
    (match encMsg Ex.schema Ex.lone with
      | none => false
      | some b => decide (b.length < 2 ^ 64 ∧ 60 < b.length)) = true :=
  ⟨by decide, by decide, by decide, by decide, by decide +kernel⟩

end Verif.Props
