import Verif.Wire.UnknownLemmas
import Verif.Dyn.Limit
import Verif.Wire.Shorter
import Verif.Props.Binary
/-!
C102: `UnknownField` by itself, as a program uses it that reads and writes fields one at a time.
-/
set_option autoImplicit false
namespace Verif.Props
open Verif.Wire Verif.Dyn

/-- **C102, round trip.** A field with a valid number, nested at most as deep as the context allows, is read back
from its encoding, and what follows stays in the buffer. -/
theorem C102_roundtrip {n d : Nat} {v : UVal} (hn : ValidNumber n) (hv : v.Wf) (hd : v.depth ≤ d) (t : Bytes) :
    decUField d (encUVal n v ++ t) = .ok ((n, v), t) := by
  unfold decUField
  rw [encUVal_eq, List.append_assoc, decode_encode_key hn.1 hn.2]
  simp only
  rw [decUVal_payload v d n t hd hv hn]

/-- **C102, length.** `encoded_len` is the number of bytes `encode` writes. -/
theorem C102_length {n : Nat} {v : UVal} (hn : ValidNumber n) (hv : v.Wf) :
    lenUVal n v = (encUVal n v).length := lenUVal_eq v n hn.2 hv

/-- Reading `k` fields one after the other. -/
def readFields (d : Nat) : Nat → Bytes → R (USet × Bytes)
  | 0, b => .ok ([], b)
  | k + 1, b =>
    match decUField d b with
    | .error e => .error e
    | .ok (u, r) =>
      match readFields d k r with
      | .error e => .error e
      | .ok (us, r') => .ok (u :: us, r')

/-- **C102, several.** Fields written one after the other are read one after the other. -/
theorem C102_several {d : Nat} : ∀ {us : USet}, USet.Wf us → USet.depth us ≤ d → ∀ t,
    readFields d us.length (encUSet us ++ t) = .ok (us, t)
  | [], _, _, _ => rfl
  | (n, v) :: us, hw, hd, t => by
    simp only [USet.Wf] at hw
    simp only [USet.depth] at hd
    simp only [List.length_cons, readFields, encUSet, List.append_assoc]
    rw [C102_roundtrip hw.1 hw.2.1 (by omega)]
    simp only
    rw [C102_several hw.2.2 (by omega)]

/-- **C102, unambiguous.** Two fields whose encodings start the same bytes are the same field. -/
theorem C102_unambiguous {n n' : Nat} {v v' : UVal} (hn : ValidNumber n) (hv : v.Wf) (hn' : ValidNumber n')
    (hv' : v'.Wf) {t t' : Bytes} (h : encUVal n v ++ t = encUVal n' v' ++ t') : n = n' ∧ v = v' ∧ t = t' := by
  have h1 := C102_roundtrip hn hv (Nat.le_max_left v.depth v'.depth) t
  have h2 := C102_roundtrip hn' hv' (Nat.le_max_right v.depth v'.depth) t'
  rw [h, h2] at h1
  cases h1
  exact ⟨rfl, rfl, rfl⟩

theorem decUVal_lim_le {d : Nat} (n : Nat) (w : WireType) (b : Bytes) : ∀ k,
    Lim (decUVal d n w b) (decUVal (d + k) n w b)
  | 0 => Lim.refl _
  | k + 1 => (decUVal_lim_le n w b k).trans (decUVal_lim (d + k) n w b)

/-- **C102, limit.** Groups nested deeper than the context allows are refused. -/
theorem C102_limit {n d : Nat} {v : UVal} (hn : ValidNumber n) (hv : v.Wf) (hd : d < v.depth) (t : Bytes) :
    decUField d (encUVal n v ++ t) = .error .recursionLimit := by
  unfold decUField
  rw [encUVal_eq, List.append_assoc, decode_encode_key hn.1 hn.2]
  simp only
  obtain ⟨k, hk⟩ : ∃ k, v.depth = d + k := ⟨v.depth - d, by omega⟩
  have h1 := decUVal_payload v v.depth n t (Nat.le_refl _) hv hn
  rcases decUVal_lim_le (d := d) n v.wireType (uPayload n v ++ t) k with h | h
  · rw [h]
  · rw [← hk, h1] at h
    have := (decUVal_ok d n _ _ v t h.symm).2.1
    omega

/-- **C102, reading.** Whatever `decode` reads is a field with a valid number, has the number and the wire type
that the key in the buffer announces, nests no deeper than the context allows, and was read from a non-empty
piece of the buffer that gives the same field whatever follows it; its own encoding gives the same field too. -/
theorem C102_read {d n : Nat} {v : UVal} {b r : Bytes} (h : decUField d b = .ok ((n, v), r)) :
    ValidNumber n ∧ v.Wf ∧ v.depth ≤ d ∧ (∃ r', decodeKey b = .ok (n, v.wireType, r')) ∧
    ∃ c, c ≠ [] ∧ b = c ++ r ∧ (∀ t, decUField d (c ++ t) = .ok ((n, v), t)) ∧
      ∀ t, decUField d (encUVal n v ++ t) = .ok ((n, v), t) := by
  unfold decUField at h
  split at h
  · cases h
  · rename_i n' w r' hk
    split at h
    · cases h
    · rename_i v' r'' hv
      cases h
      obtain ⟨c, hc, rfl, ht, h0, h1⟩ := decodeKey_good hk
      obtain ⟨c', rfl, ht'⟩ := good_decUVal d n w _ _ _ hv
      obtain ⟨g1, g2, g3⟩ := decUVal_ok d n w _ _ _ hv
      refine ⟨⟨h0, h1⟩, g1, g2, ⟨_, by rw [g3]; exact hk⟩, c ++ c', by simp [hc], by simp, fun t => ?_,
        C102_roundtrip ⟨h0, h1⟩ g1 g2⟩
      unfold decUField
      rw [List.append_assoc, ht]
      simp only
      rw [ht']

/-- **C102, cut.** If a field is cut short anywhere, reading it fails. -/
theorem C102_cut {d : Nat} {u : UField} {c x r : Bytes} (h : decUField d (c ++ (x ++ r)) = .ok (u, r)) (hx : x ≠ []) :
    ∃ e, decUField d c = .error e := by
  cases hc : decUField d c with
  | error e => exact ⟨e, rfl⟩
  | ok w =>
    exfalso
    obtain ⟨⟨n, v⟩, r'⟩ := w
    obtain ⟨_, _, _, _, c0, _, rfl, ht, _⟩ := C102_read hc
    have := ht (r' ++ (x ++ r))
    rw [← List.append_assoc, h] at this
    have := congrArg List.length (Prod.mk.inj (Except.ok.inj this)).2
    have h0 : 0 < x.length := List.length_pos_iff.2 hx
    simp only [List.length_append] at this
    omega

/-- **C102, total.** `decode` returns a field or a decode error for all bytes; the `unreachable!` in
`decode_value` is not reached and the model's fuel does not run out. -/
theorem C102_total (d : Nat) (b : Bytes) : Safe (decUField d b) ∧ decUField d b ≠ .error .fuel := by
  unfold decUField
  constructor
  · intro e h
    split at h
    · rename_i e' hk; cases h; exact decodeKey_safe _ _ hk
    · split at h
      · rename_i e' hv; cases h; exact decUVal_safe _ _ _ _ _ hv
      · cases h
  · split
    · rename_i e' hk; intro h; cases h; exact noFuel_decodeKey _ hk
    · split
      · rename_i e' hv; intro h; cases h; exact noFuel_decUVal _ _ _ _ hv
      · intro h; cases h

/-- **C102, no growth.** What was read takes no more bytes when it is written again. -/
theorem C102_shorter {d : Nat} {b r : Bytes} {n : Nat} {v : UVal}
    (h : decUField d b = .ok ((n, v), r)) : (encUVal n v).length + r.length ≤ b.length := by
  obtain ⟨hn, hv, -⟩ := C102_read h
  rw [← C102_length hn hv]
  exact decUField_thrifty h

/-- A number and a length of three bytes each become shorter. -/
example :
    (match decUField 9 ([0x88, 0x80, 0x00] ++ [0x85, 0x80, 0x00] ++ [9]) with
      | .ok ((1, .varint w), [9]) => w == 5 && (encUVal 1 (.varint w)).length == 2
      | _ => false) = true := by decide +kernel

/-- **C102, the two ways to read.** After reading the key, `decode_value` gives what `decode` gives with the key
in front. -/
theorem C102_value {n : Nat} (hn : ValidNumber n) (d : Nat) (w : WireType) (b : Bytes) :
    decUField d (encodeKey n w ++ b) = (decUVal d n w b).map fun p => ((n, p.1), p.2) := by
  unfold decUField
  rw [decode_encode_key hn.1 hn.2]
  simp only
  cases decUVal d n w b with
  | error e => rfl
  | ok p => rfl

/-- A group with a varint, a string of bytes and another group in it. -/
def groupField : UField := (5, .group [(1, .varint 300), (2, .len [1, 2]), (3, .group [(4, .thirtyTwo 7)])])

example : ValidNumber groupField.1 ∧ groupField.2.Wf ∧ groupField.2.depth = 2 := by
  simp [groupField, ValidNumber, UVal.Wf, USet.Wf, UVal.depth, USet.depth]

example : encUVal groupField.1 groupField.2 = [43, 8, 172, 2, 18, 2, 1, 2, 27, 37, 7, 0, 0, 0, 28, 44] := by
  decide +kernel

/-- `decode` reads the example and stops at its end; one byte less, or one level less, and it fails. -/
example :
    (match decUField 2 ([43, 8, 172, 2, 18, 2, 1, 2, 27, 37, 7, 0, 0, 0, 28, 44] ++ [9]) with
      | .ok ((5, .group [(1, .varint _), (2, .len [1, 2]), (3, .group [_])]), [9]) => true
      | _ => false) = true ∧
    (match decUField 2 [43, 8, 172, 2, 18, 2, 1, 2, 27, 37, 7, 0, 0, 0, 28] with
      | .error _ => true
      | _ => false) = true ∧
    (match decUField 1 [43, 8, 172, 2, 18, 2, 1, 2, 27, 37, 7, 0, 0, 0, 28, 44] with
      | .error .recursionLimit => true
      | _ => false) = true := by decide +kernel

/-- **`decode_value` does not look at the number it is given.** With 0 it returns a field, and what that field
writes cannot be read. -/
theorem C102_number_false : ∃ (v : UVal) (b : Bytes), decUVal 100 0 .varint b = .ok (v, []) ∧ v.Wf ∧
    decUField 100 (encUVal 0 v) = .error .invalidTag :=
  ⟨.varint 1, [1], rfl, trivial, rfl⟩

end Verif.Props
