import Verif.Dyn.Canon
import Verif.Dyn.Deep
/-!
The provided methods of `prost::Message` that write into a buffer with limited room and that read and write messages
with a length in front. They call what `impl Message for DynamicMessage` defines (dynamic/message.rs:17-81).
-/
set_option autoImplicit false
namespace Verif.Dyn
open Verif.Wire

/-- `prost::EncodeError`. -/
structure EncErr where
  required : Nat
  remaining : Nat
  deriving DecidableEq, Repr

/-- `prost::Message::encode` into a buffer with room for `room` bytes, calling `encoded_len` (dynamic/message.rs:62-76)
and `encode_raw` (18-33). `none` is a panic, either of the encoder or of a buffer that is written past its end. -/
def encodeTo (S : Schema) (m : DynMsg) (room : Nat) : Option (Except EncErr Bytes) :=
  match lenMsg S m with
  | none => none
  | some len =>
    if len > room then some (.error ⟨len, room⟩)
    else
      match encMsg S m with
      | none => none
      | some b => if b.length > room then none else some (.ok b)

/-- `prost::Message::encode_length_delimited`. -/
def encodeDelimited (S : Schema) (m : DynMsg) (room : Nat) : Option (Except EncErr Bytes) :=
  match lenMsg S m with
  | none => none
  | some len =>
    if len + encodedLenVarint len > room then some (.error ⟨len + encodedLenVarint len, room⟩)
    else
      match encMsg S m with
      | none => none
      | some b => if (encodeVarint len ++ b).length > room then none else some (.ok (encodeVarint len ++ b))

/-- `prost::Message::merge_length_delimited`: `message::merge` with a fresh context, which takes one level of the
recursion limit for the message itself. The rest of the buffer is returned. -/
def mergeDelimited (S : Schema) (m : DynMsg) (buf : Bytes) : R (DynMsg × Bytes) :=
  messageMerge (some (msgMerge S (recursionLimit - 1))) .lengthDelimited m buf

/-- `merge_length_delimited` on a new message. -/
def decodeDelimited (S : Schema) (d : Nat) (buf : Bytes) : R (DynMsg × Bytes) :=
  mergeDelimited S (DynMsg.empty d) buf

/-- A program that reads one message after the other from a buffer. -/
def readAll (S : Schema) : List Nat → Bytes → R (List DynMsg × Bytes)
  | [], buf => .ok ([], buf)
  | d :: r, buf =>
    match decodeDelimited S d buf with
    | .error e => .error e
    | .ok (m, buf') =>
      match readAll S r buf' with
      | .error e => .error e
      | .ok (ms, buf'') => .ok (m :: ms, buf'')

/-- Merging the delimited encoding of `m2` into a conforming message is the abstract merge. -/
theorem mergeDelimited_enc {S : Schema} (hS : S.wf = true) {m1 m2 : DynMsg} (h1 : confMsg S m1 = true)
    (h2 : confMsg S m2 = true) (hd : m1.desc = m2.desc) (hdep : depthMsg m2 ≤ recursionLimit - 1)
    {b : Bytes} (hb : encMsg S m2 = some b) (hl : b.length < 2 ^ 64) (t : Bytes) :
    mergeDelimited S m1 (encodeVarint b.length ++ (b ++ t)) = .ok (mergeMsg S m1 m2, t) := by
  have h2' := h2
  simp only [confMsg, Bool.and_eq_true] at h2'
  unfold encMsg at hb
  split at hb
  · cases hb
  · rename_i x y hxy
    cases hb
    obtain ⟨e1, e2⟩ := encSlots_merge hS m2.fields m2.desc x y (recursionLimit - 1) h2'.2 hxy hl hdep
    have s1 := e1 m1 h1 hd
    have c1 := FSteps_conf hS s1 h1
    have s := s1.trans (e2 _ c1.1 rfl)
    unfold mergeDelimited
    rw [messageMerge_of_fsteps s hl]
    unfold mergeMsg
    rw [hd]

theorem mergeDelimited_deep {S : Schema} (hS : S.wf = true) {m1 m2 : DynMsg} (h1 : confMsg S m1 = true)
    (h2 : confMsg S m2 = true) (hd : m1.desc = m2.desc) (hdep : recursionLimit - 1 < depthMsg m2)
    {b : Bytes} (hb : encMsg S m2 = some b) (hl : b.length < 2 ^ 64) (t : Bytes) :
    mergeDelimited S m1 (encodeVarint b.length ++ (b ++ t)) = .error .recursionLimit := by
  have h2' := h2
  simp only [confMsg, Bool.and_eq_true] at h2'
  unfold encMsg at hb
  split at hb
  · cases hb
  · rename_i x y hxy
    cases hb
    have : FErr (msgMerge S (recursionLimit - 1)) .recursionLimit m1 (x ++ y) := by
      rcases encSlots_deep hS m2.fields m2.desc x y (recursionLimit - 1) h2'.2 hxy hl hdep with h | ⟨h, h'⟩
      · exact (h m1 h1 hd).append y
      · obtain ⟨st, s, c, dd⟩ := h m1 h1 hd
        exact s.trans_err (h' st c dd)
    unfold mergeDelimited
    exact this.messageMerge hl t

theorem mergeDelimited_good (S : Schema) (m : DynMsg) : Good (mergeDelimited S m) :=
  messageMerge_good (fun g hg => by cases hg; exact good_msgMerge S _) _ m

end Verif.Dyn
