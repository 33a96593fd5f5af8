import Verif.Dyn.Stream
import Verif.Dyn.Limit
import Verif.Props.Binary
/-!
C100: writing into a buffer with limited room, and messages one after the other with their length in front.
-/
set_option autoImplicit false
namespace Verif.Props
open Verif.Wire Verif.Dyn

/-- **C100, room.** `encode` writes exactly the encoding if there is room for it, and otherwise writes nothing and says
how much is needed. It does not write past the end of the buffer. -/
theorem C100_room {S : Schema} (hS : S.wf = true) {m : DynMsg} (hm : accepted S m = true) {b : Bytes}
    (hb : encMsg S m = some b) (hl : b.length < 2 ^ 64) (room : Nat) :
    encodeTo S m room = some (if b.length ≤ room then .ok b else .error ⟨b.length, room⟩) := by
  unfold encodeTo
  rw [C02_encoded_len hS hm hb hl, hb]
  simp only
  split
  · rw [if_neg (by omega)]
  · rw [if_pos (by omega)]

/-- Likewise with the length in front. -/
theorem C100_room_delimited {S : Schema} (hS : S.wf = true) {m : DynMsg} (hm : accepted S m = true) {b : Bytes}
    (hb : encMsg S m = some b) (hl : b.length < 2 ^ 64) (room : Nat) :
    encodeDelimited S m room = some (if (encodeVarint b.length ++ b).length ≤ room
      then .ok (encodeVarint b.length ++ b) else .error ⟨(encodeVarint b.length ++ b).length, room⟩) := by
  unfold encodeDelimited
  rw [C02_encoded_len hS hm hb hl, hb]
  have : b.length + encodedLenVarint b.length = (encodeVarint b.length ++ b).length := by
    rw [encodedLenVarint_eq hl, List.length_append]; omega
  simp only [this]
  split
  · rw [if_neg (by omega)]
  · rw [if_pos (by omega)]

/-- The big message fits into 200 bytes, and not into 10. -/
example : accepted Ex.schema Ex.big = true ∧
    (match encMsg Ex.schema Ex.big, encodeTo Ex.schema Ex.big 10, encodeDelimited Ex.schema Ex.big 200 with
      | some b, some (.error e), some (.ok b') => e.required == b.length && e.remaining == 10 && b'.length == b.length + 2
      | _, _, _ => false) = true := by decide +kernel

/-- **C100, stream.** Messages nested at most 99 levels deep that are written one after the other, each with its length
in front, are read back one after the other, and what follows them is left in the buffer. -/
theorem C100_stream {S : Schema} (hS : S.wf = true) : ∀ (ms : List DynMsg) (bs : List Bytes) (rooms : List Nat)
    (t : Bytes), (∀ m ∈ ms, confMsg S m = true ∧ depthMsg m ≤ 99) → bs.length = ms.length → rooms.length = ms.length →
    (∀ (i : Nat) m b room, ms[i]? = some m → bs[i]? = some b → rooms[i]? = some room →
      encodeDelimited S m room = some (.ok b) ∧ b.length < 2 ^ 64) →
    ∃ ms', readAll S (ms.map (·.desc)) (bs.flatten ++ t) = .ok (ms', t) ∧ ms'.length = ms.length ∧
      ∀ (i : Nat) m m', ms[i]? = some m → ms'[i]? = some m' → confMsg S m' = true ∧ SameMsg S m m'
  | [], bs, _, t, _, hb, _, _ => by
    cases bs with
    | nil => exact ⟨[], rfl, rfl, fun i m m' h => by cases h⟩
    | cons _ _ => cases hb
  | m :: ms, [], _, _, _, hb, _, _ => by cases hb
  | m :: ms, b :: bs, [], _, _, _, hr, _ => by cases hr
  | m :: ms, b :: bs, room :: rooms, t, hm, hb, hr, he => by
    obtain ⟨hc, hd⟩ := hm m List.mem_cons_self
    obtain ⟨h1, h2⟩ := he 0 m b room rfl rfl rfl
    obtain ⟨ms', e1, e2, e3⟩ := C100_stream hS ms bs rooms t (fun m h => hm m (List.mem_cons_of_mem _ h))
      (by simpa using hb) (by simpa using hr) (fun i m b room a1 a2 a3 => he (i + 1) m b room a1 a2 a3)
    have hacc := confMsg_accepted hS hc
    obtain ⟨p, hp⟩ := (encMsg_total hS m hacc).1
    obtain ⟨l, hlen⟩ := (encMsg_total hS m hacc).2
    have hpl : p.length < 2 ^ 64 := by
      unfold encodeDelimited at h1
      rw [hlen, hp] at h1
      simp only at h1
      split at h1
      · cases h1
      · split at h1
        · cases h1
        · cases h1
          simp only [List.length_append] at h2
          omega
    rw [C100_room_delimited hS hacc hp hpl] at h1
    split at h1
    · cases h1
      have hread : decodeDelimited S m.desc (encodeVarint p.length ++ (p ++ (bs.flatten ++ t))) =
          .ok (canonMsg S m, bs.flatten ++ t) := by
        have := mergeDelimited_enc hS (confMsg_empty hc) hc rfl hd hp hpl (bs.flatten ++ t)
        rw [mergeMsg_empty hS hc] at this
        exact this
      refine ⟨canonMsg S m :: ms', ?_, by simp [e2], ?_⟩
      · simp only [List.map_cons, readAll, List.flatten_cons, List.append_assoc, hread, e1]
      · intro i a a' ha ha'
        cases i with
        | zero =>
          cases ha; cases ha'
          exact ⟨(decode_encMsg hS hc (Nat.le_trans hd (by decide)) hp hpl).2, sameMsg_canon hS hc⟩
        | succ i => exact e3 i a a' ha ha'
    · cases h1

/-- A conforming message of the stream. -/
example : Ex.schema.wf = true ∧ confMsg Ex.schema Ex.big = true ∧ depthMsg Ex.big ≤ 99 ∧
    (match encodeDelimited Ex.schema Ex.big 200 with
      | some (.ok b) => decide (1 < b.length) && decide (b.length < 2 ^ 64) &&
        (match readAll Ex.schema [0, 0] (b ++ b ++ [1]) with
          | .ok (ms, r) => ms.length == 2 && r == [1]
          | .error _ => false)
      | _ => false) = true := by decide +kernel

/-- **C100, limit.** The message itself counts: one level less than `decode` allows. -/
theorem C100_limit {S : Schema} (hS : S.wf = true) {m : DynMsg} (hm : confMsg S m = true) {b : Bytes}
    (hb : encMsg S m = some b) (hl : b.length < 2 ^ 64) (t : Bytes) :
    (depthMsg m ≤ 99 → ∃ m', decodeDelimited S m.desc (encodeVarint b.length ++ (b ++ t)) = .ok (m', t)) ∧
    (99 < depthMsg m → decodeDelimited S m.desc (encodeVarint b.length ++ (b ++ t)) = .error .recursionLimit) :=
  ⟨fun h => ⟨_, mergeDelimited_enc hS (confMsg_empty hm) hm rfl h hb hl t⟩,
    fun h => mergeDelimited_deep hS (confMsg_empty hm) hm rfl h hb hl t⟩

/-- **C100, payload.** Whatever is read with a length in front is what `merge` reads from as many bytes, and exactly
these are taken from the buffer. -/
theorem C100_payload {S : Schema} {m m' : DynMsg} {buf r : Bytes} (h : mergeDelimited S m buf = .ok (m', r)) :
    ∃ p, getLenDelim buf = .ok (p, r) ∧ merge S m p = .ok m' := by
  have hg := good_msgMerge S (recursionLimit - 1)
  unfold mergeDelimited messageMerge at h
  rw [if_neg (by simp)] at h
  simp only at h
  unfold mergeLoop at h
  split at h
  · cases h
  · next len rest hv =>
    split at h
    · cases h
    · next hle =>
      split at h
      · cases h
      · next st b1 hl =>
        split at h
        · cases h
        · next he =>
          cases h
          simp only [ne_eq, Decidable.not_not] at he
          rw [← he] at hl
          obtain ⟨x, hx, hst⟩ := loopTo_good (keyThen_good hg) (keyThen_strict hg) _ _ _ _ _ hl
          have hxl : x.length = len := by
            have := congrArg List.length hx
            rw [List.length_append] at this
            omega
          refine ⟨x, ?_, ?_⟩
          · unfold getLenDelim
            rw [hv]
            simp only
            rw [if_neg hle, hx, ← hxl]
            simp
          · have h1 := loopTo_of_steps hst [] (x.length + 1) (by omega)
            simp only [List.append_nil, List.length_nil] at h1
            unfold merge mergeAll
            rcases loopTo_lim (keyThen_lim (msgMerge_lim S (recursionLimit - 1))) 0 (x.length + 1) m x with e | e
            · rw [e] at h1; cases h1
            · rw [show recursionLimit - 1 + 1 = recursionLimit from rfl] at e
              rw [e, h1]

/-- Conversely, what `merge` reads is read with its length in front too, unless it is too deep by one level. -/
theorem C100_frame {S : Schema} {m m' : DynMsg} {p : Bytes} (h : merge S m p = .ok m') (hl : p.length < 2 ^ 64)
    (t : Bytes) : mergeDelimited S m (encodeVarint p.length ++ (p ++ t)) = .ok (m', t) ∨
      mergeDelimited S m (encodeVarint p.length ++ (p ++ t)) = .error .recursionLimit := by
  have hg := good_msgMerge S recursionLimit
  unfold merge at h
  split at h
  · cases h
  · next st r hr =>
    cases h
    have := mergeAll_rest hr
    subst this
    unfold mergeAll at hr
    obtain ⟨x, hx, hst⟩ := loopTo_good (keyThen_good hg) (keyThen_strict hg) _ _ _ _ [] hr
    rw [List.append_nil] at hx
    subst hx
    have h1 := mergeLoop_of_steps hst hl t
    unfold mergeDelimited messageMerge
    rw [if_neg (by simp)]
    simp only
    rcases mergeLoop_lim (keyThen_lim (msgMerge_lim S (recursionLimit - 1))) m (encodeVarint p.length ++ (p ++ t))
      with e | e
    · exact .inr e
    · rw [show recursionLimit - 1 + 1 = recursionLimit from rfl, h1] at e
      exact .inl e.symm

/-- **C100, cut.** If a message with its length in front is cut short anywhere, reading it fails. -/
theorem C100_cut {S : Schema} {m m' : DynMsg} {c x r : Bytes} (h : mergeDelimited S m (c ++ (x ++ r)) = .ok (m', r))
    (hx : x ≠ []) : ∃ e, mergeDelimited S m c = .error e := by
  cases hc : mergeDelimited S m c with
  | error e => exact ⟨e, rfl⟩
  | ok v =>
    exfalso
    obtain ⟨v, r'⟩ := v
    obtain ⟨c0, rfl, ht⟩ := mergeDelimited_good S m _ _ _ hc
    have := ht (r' ++ (x ++ r))
    rw [← List.append_assoc, h] at this
    have := congrArg List.length (Prod.mk.inj (Except.ok.inj this)).2
    have h0 : 0 < x.length := List.length_pos_iff.2 hx
    simp only [List.length_append] at this
    omega

/-- **C100, whole and framed differ.** At 100 levels `decode` reads what was written, and reading with the length in
front fails. -/
theorem C100_hundred {S : Schema} (hS : S.wf = true) {m : DynMsg} (hm : confMsg S m = true) (hd : depthMsg m = 100)
    {b : Bytes} (hb : encMsg S m = some b) (hl : b.length < 2 ^ 64) :
    (∃ m', decode S m.desc b = .ok m' ∧ SameMsg S m m') ∧
    decodeDelimited S m.desc (encodeVarint b.length ++ b) = .error .recursionLimit := by
  refine ⟨⟨_, (decode_encMsg hS hm (Nat.le_of_eq hd) hb hl).1, sameMsg_canon hS hm⟩, ?_⟩
  have := (C100_limit hS hm hb hl []).2 (by omega)
  rwa [List.append_nil] at this

/-- Such a message: `child` of `child` of ... -/
def childInChild : Nat → List (Nat × Slot)
  | 0 => []
  | n + 1 => [(2, .val (.msg 0 (childInChild n)))]

example : recSchema.wf = true ∧ confMsg recSchema ⟨0, childInChild 100⟩ = true ∧ depthMsg ⟨0, childInChild 100⟩ = 100 ∧
    (match encMsg recSchema ⟨0, childInChild 100⟩ with
      | some b => decide (b.length < 2 ^ 64) &&
        (match decodeDelimited recSchema 0 (encodeVarint b.length ++ b) with
          | .error e => e == .recursionLimit
          | .ok _ => false)
      | none => false) = true := by decide +kernel

/-- Cut and whole, two messages in a row. -/
example : (match decodeDelimited Ex.schema 0 ([2, 8, 5] ++ [0]) with
      | .ok (m, r) => m.hasField Ex.schema Ex.fA == some true && r == [0]
      | .error _ => false) = true ∧
    (match decodeDelimited Ex.schema 0 [2, 8] with
      | .ok _ => false
      | .error e => e == .underflow) = true := by decide +kernel

end Verif.Props
