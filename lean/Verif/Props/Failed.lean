import Verif.Dyn.Cut
import Verif.Props.Binary
/-!
C92: the message after a call of `merge` that fails part of the way through its input.
`lost` stands for prost's `string::merge`, of which only this is used: a Rust `String`
is UTF-8 whatever happens (`LostOk`).
-/
set_option autoImplicit false
namespace Verif.Props
open Verif.Wire Verif.Dyn

variable {lost : Bytes → WireType → Bytes → Bytes}

theorem prostLost_ok : LostOk prostLost := fun _ _ _ _ => rfl

/-- **C92.** After any call of `merge` on a conforming message, successful or not, the
message has the type it had, every value in it fits its field, and it can be measured and
encoded. -/
theorem C92_usable {S : Schema} (hS : S.wf = true) (hl : LostOk lost) {m : DynMsg}
    (hm : confMsg S m = true) (b : Bytes) :
    confMsg S (mergeLeft lost S m b) = true ∧ (mergeLeft lost S m b).desc = m.desc ∧
      (∃ out, encMsg S (mergeLeft lost S m b) = some out) ∧
      (∃ n, lenMsg S (mergeLeft lost S m b) = some n) := by
  obtain ⟨h1, h2⟩ := mergeLeft_conf hS hl hm b
  obtain ⟨h3, h4⟩ := encMsg_total hS _ (confMsg_accepted hS h1)
  exact ⟨h1, h2, h3, h4⟩

/-- **C92**, any number of calls one after the other, whichever of them fail. -/
theorem C92_again {S : Schema} (hS : S.wf = true) (hl : LostOk lost) {m : DynMsg}
    (hm : confMsg S m = true) (bs : List Bytes) :
    confMsg S (bs.foldl (mergeLeft lost S) m) = true ∧ (bs.foldl (mergeLeft lost S) m).desc = m.desc := by
  induction bs generalizing m with
  | nil => exact ⟨hm, rfl⟩
  | cons b r ih =>
    obtain ⟨h1, h2⟩ := mergeLeft_conf hS hl hm b
    obtain ⟨h3, h4⟩ := ih h1
    exact ⟨h3, h4.trans h2⟩

/-- **C92.** A call that succeeds leaves the merged message. -/
theorem C92_success {S : Schema} {m m' : DynMsg} {b : Bytes} (h : merge S m b = .ok m') :
    mergeLeft lost S m b = m' := mergeLeft_ok lost h

/-- **C92.** A failing call has merged, in full, the fields before the one that fails, as if
the input had ended there. What it leaves beyond that is described by `Torn`, at every level
of nesting. -/
theorem C92_prefix {S : Schema} {m : DynMsg} {b : Bytes} {e : Err} (h : merge S m b = .error e) :
    ∃ c r m1, b = c ++ r ∧ r ≠ [] ∧ merge S m c = .ok m1 ∧ merge S m1 r = .error e ∧
      Torn S recursionLimit m1 r (mergeLeft lost S m b) := by
  obtain ⟨c, r, m1, h1, h2, h3, h4, _, _, h5⟩ := mergeLeft_error (lost := lost) h
  exact ⟨c, r, m1, h1, h2, h3, h4, h5⟩

/-- What `Torn` says of the accessors. Nothing changed if the key could not be read or belongs to
no field. Otherwise one field declared for the message (or an extension of it) was being read: the other members of its oneof are gone, all
other fields and unknown fields are as they were, and the field holds what it held (its
default if it was absent), with only the changes `TornVal` allows. -/
theorem C92_field {S : Schema} (hS : S.wf = true) {m : DynMsg} {d : Nat} (hm : confMsg S m = true)
    {r : Bytes} {m' : DynMsg} (h : Torn S d m r m') :
    (m' = m ∧ ((∃ e, decodeKey r = .error e) ∨ ∃ md n w rest, S.msg? m.desc = some md ∧
      decodeKey r = .ok (n, w, rest) ∧ md.getField n = none ∧ md.getExtension n = none)) ∨
    ∃ md n w rest f sib v v', S.msg? m.desc = some md ∧ decodeKey r = .ok (n, w, rest) ∧
      ((md.getField n = some f ∧ sib = siblings md f) ∨
        (md.getField n = none ∧ md.getExtension n = some f ∧ sib = [])) ∧
      (∀ k, k ≠ n → k ∉ sib → SMap.get? m'.fields k = SMap.get? m.fields k) ∧
      (∀ k ∈ sib, SMap.get? m'.fields k = none) ∧
      FieldSet.get S m.fields f = some v ∧ FieldSet.get S m'.fields f = some v' ∧
      TornVal S d f w v rest v' := by
  cases h with
  | key hk => exact .inl ⟨rfl, .inl ⟨_, hk⟩⟩
  | unknown hk _ hu =>
    obtain ⟨md, hC⟩ := confMsg_iff.1 hm
    exact .inl ⟨rfl, .inr ⟨md, _, _, _, hC.desc, hk, hu md hC.desc⟩⟩
  | none hmd _ hf _ hg =>
    obtain ⟨md', hC⟩ := confMsg_iff.1 hm
    have hmd' := hC.desc
    rw [hmd] at hmd'
    cases hmd'
    rcases hf with ⟨h, rfl⟩ | ⟨_, h, rfl⟩
    · obtain ⟨_, _, h1, _⟩ := getMut_field hS hC h
      rw [hg] at h1; cases h1
    · obtain ⟨_, _, h1, _⟩ := getMut_ext hS hC h
      rw [hg] at h1; cases h1
  | @field _ _ _ rest md n w f sib fs v v' e hmd hk hf he hg t =>
    right
    obtain ⟨md', hC⟩ := confMsg_iff.1 hm
    have hmd' := hC.desc
    rw [hmd] at hmd'
    cases hmd'
    have hnum : f.number = n := by
      rcases hf with ⟨h, _⟩ | ⟨_, h, _⟩
      · exact (getField_mem h).2
      · exact (getExtension_mem h).2
    have hnot : n ∉ sib := by
      rcases hf with ⟨h, rfl⟩ | ⟨_, _, rfl⟩
      · rw [← hnum]; exact not_mem_siblings
      · exact List.not_mem_nil
    -- what writing through the reference does
    have hw : FieldSet.write f v' fs = SMap.insert n (.val v') (FieldSet.clearAll sib m.fields) ∧
        FieldSet.get S m.fields f = some v := by
      rcases hf with ⟨h, rfl⟩ | ⟨_, h, rfl⟩
      · obtain ⟨fs1, v1, hg1, _, hw1, hv1⟩ := getMut_field hS hC h
        rw [hg] at hg1
        cases hg1
        refine ⟨hw1 v', ?_⟩
        have hgv : FieldSet.getValue (FieldSet.clearAll (siblings md f) m.fields) n =
            FieldSet.getValue m.fields n := by
          unfold FieldSet.getValue
          rw [get?_clearAll _ _ hC.sorted, if_neg hnot]
        rw [hgv] at hv1
        unfold FieldSet.get
        rw [hnum]
        rcases hv1 with h | ⟨h, h'⟩
        · rw [h]
        · rw [h]; exact h'
      · obtain ⟨fs1, v1, hg1, _, hw1, hv1⟩ := getMut_ext hS hC h
        rw [hg] at hg1
        cases hg1
        refine ⟨hw1 v', ?_⟩
        unfold FieldSet.get
        rw [hnum]
        rcases hv1 with h | ⟨h, h'⟩
        · rw [h]
        · rw [h]; exact h'
    refine ⟨md, n, w, rest, f, sib, v, v', hmd, hk, hf, ?_, ?_, hw.2, ?_, t⟩
    · intro k hkn hks
      show SMap.get? (FieldSet.write f v' fs) k = _
      rw [hw.1, SMap.get?_insert, if_neg hkn, get?_clearAll _ _ hC.sorted, if_neg hks]
    · intro k hks
      show SMap.get? (FieldSet.write f v' fs) k = _
      rw [hw.1, SMap.get?_insert, if_neg (by rintro rfl; exact hnot hks),
        get?_clearAll _ _ hC.sorted, if_pos hks]
    · show FieldSet.get S (FieldSet.write f v' fs) f = _
      unfold FieldSet.get FieldSet.getValue
      rw [hw.1, hnum, SMap.get?_insert, if_pos rfl]

/-- A field that is a number, a boolean, an enum value, bytes or a map keeps its value. -/
theorem C92_kept {S : Schema} {d : Nat} {f : FieldDesc} {w : WireType} {v v' : Value} {b : Bytes}
    (h : TornVal S d f w v b v') (hs : ∀ s, v ≠ .str s) (hl : ∀ vs, v ≠ .list vs)
    (hm : ∀ i gs, v ≠ .msg i gs) : v' = v := by
  cases h with
  | keep => rfl
  | str s => exact absurd rfl (hs s)
  | single vs => exact absurd rfl (hl vs)
  | list vs => exact absurd rfl (hl vs)
  | closed => exact absurd rfl (hm _ _)
  | msg => exact absurd rfl (hm _ _)
  | group => exact absurd rfl (hm _ _)

/-- A message field: untouched if the wire type is another one, the length is missing or too
large, or messages are nested too deep. Otherwise the message is merged as the input was, up to its end or
to a field in it that fails. -/
theorem C92_message {S : Schema} {d i : Nat} {f : FieldDesc} {w : WireType} {gs : FieldSet} {v' : Value}
    {b : Bytes} (hg : f.group = false) (h : TornVal S d f w (.msg i gs) b v') :
    (v' = .msg i gs ∧ (d = 0 ∨ w ≠ .lengthDelimited ∨ NoLength b)) ∨
    ∃ d' len b' c r m1 gs', d = d' + 1 ∧ w = .lengthDelimited ∧ decodeVarint b = .ok (len, b') ∧ len ≤ b'.length ∧
      b' = c ++ r ∧ mergeAll (msgMerge S d') ⟨i, gs⟩ c = .ok (m1, []) ∧ v' = .msg i gs' ∧
      ((r.length ≤ b'.length - len ∧ m1 = ⟨i, gs'⟩) ∨
        (b'.length - len < r.length ∧ Torn S d' m1 r ⟨i, gs'⟩)) := by
  cases h with
  | keep _ _ _ _ hm => exact absurd rfl (hm _ _)
  | closed h =>
    rcases h with h | ⟨h, _⟩ | ⟨_, h⟩
    · exact .inl ⟨rfl, .inl h⟩
    · rw [hg] at h; cases h
    · exact .inl ⟨rfl, .inr h⟩
  | msg _ hl hle h =>
    refine .inr ?_
    cases h with
    | ended h he => exact ⟨_, _, _, _, _, _, _, rfl, rfl, hl, hle, rfl, h, rfl, .inl ⟨he, rfl⟩⟩
    | torn h he t => exact ⟨_, _, _, _, _, _, _, rfl, rfl, hl, hle, rfl, h, rfl, .inr ⟨Nat.lt_of_not_le he, t⟩⟩
  | group h => rw [hg] at h; cases h

/-- The same for a group, whose end is a key of its own. -/
theorem C92_group {S : Schema} {d i : Nat} {f : FieldDesc} {w : WireType} {gs : FieldSet} {v' : Value}
    {b : Bytes} (hg : f.group = true) (h : TornVal S d f w (.msg i gs) b v') :
    (v' = .msg i gs ∧ (d = 0 ∨ w ≠ .startGroup)) ∨
    ∃ d' c r m1 gs', d = d' + 1 ∧ w = .startGroup ∧
      b = c ++ r ∧ mergeAll (msgMerge S d') ⟨i, gs⟩ c = .ok (m1, []) ∧ v' = .msg i gs' ∧
      (((∃ n rest, decodeKey r = .ok (n, .endGroup, rest)) ∧ m1 = ⟨i, gs'⟩) ∨
        ((∀ n rest, decodeKey r ≠ .ok (n, .endGroup, rest)) ∧ Torn S d' m1 r ⟨i, gs'⟩)) := by
  cases h with
  | keep _ _ _ _ hm => exact absurd rfl (hm _ _)
  | closed h =>
    rcases h with h | ⟨_, h⟩ | ⟨h, _⟩
    · exact .inl ⟨rfl, .inl h⟩
    · exact .inl ⟨rfl, .inr h⟩
    · rw [hg] at h; cases h
  | msg h => rw [hg] at h; cases h
  | group _ h =>
    refine .inr ?_
    cases h with
    | ended h he => exact ⟨_, _, _, _, _, rfl, rfl, rfl, h, rfl, .inl ⟨he, rfl⟩⟩
    | torn h he t =>
      exact ⟨_, _, _, _, _, rfl, rfl, rfl, h, rfl, .inr ⟨fun n rest hk => he ⟨n, rest, hk⟩, t⟩⟩

/-- A repeated field: untouched unless a packed body with its full length is there; then the elements
before the one that fails have been added at the end, in order. -/
theorem C92_repeated {S : Schema} {d : Nat} {f : FieldDesc} {w : WireType} {vs : List Value}
    {v' : Value} {b : Bytes} (hd : kindDefault S f.kind ≠ none) (h : TornVal S d f w (.list vs) b v') :
    (v' = .list vs ∧ (w ≠ .lengthDelimited ∨ f.kind.packable = false ∨ NoLength b)) ∨
    ∃ len c r ws, w = .lengthDelimited ∧ f.kind.packable = true ∧ decodeVarint b = .ok (len, c ++ r) ∧
      len ≤ (c ++ r).length ∧ Elems f.kind c ws ∧ v' = .list (vs ++ ws) ∧
      (r.length ≤ (c ++ r).length - len ∨ ∃ e, scalarDec f.kind f.kind.wireType r = .error e) := by
  cases h with
  | keep _ _ _ hl => exact absurd rfl (hl _)
  | single _ _ h =>
    rcases h with h | h | h | h
    · exact .inl ⟨rfl, .inl h⟩
    · exact .inl ⟨rfl, .inr (.inl h)⟩
    · exact .inl ⟨rfl, .inr (.inr h)⟩
    · exact absurd h hd
  | list _ ws _ c r len hp hl hle he hr => exact .inr ⟨len, c, r, ws, rfl, hp, hl, hle, he, rfl, hr⟩

/-- The input `[58, 5]`: the key of `o2` and a length with nothing behind it. -/
def torn : Bytes := [58, 5]

/-- **C92** is as far as it goes: a failing `merge` is not undone. Here it removes the string
in `o1` and makes the message field `o2` of the same oneof present. -/
theorem C92_atomic_false : ∃ (S : Schema) (m : DynMsg) (b : Bytes) (e : Err), S.wf = true ∧
    confMsg S m = true ∧ merge S m b = .error e ∧ m.hasField S Ex.fO1 = some true ∧
    ∀ lost, (mergeLeft lost S m b).hasField S Ex.fO1 = some false ∧
      (mergeLeft lost S m b).hasField S Ex.fO2 = some true := by
  refine ⟨Ex.schema, Ex.small, torn, .underflow, by decide, by decide, ?_, by decide, ?_⟩
  · rfl
  · intro lost; exact ⟨rfl, rfl⟩

/-- With prost's strings: bytes that are not UTF-8 empty the string that was there. -/
example : (Ex.big.getField Ex.schema Ex.fS = some (.str [104, 105])) ∧
    merge Ex.schema Ex.big [18, 1, 0xff] = .error .invalidUtf8 ∧
    (mergeLeft prostLost Ex.schema Ex.big [18, 1, 0xff]).getField Ex.schema Ex.fS = some (.str []) :=
  ⟨rfl, rfl, rfl⟩

/-- Two packed elements arrive, the third is cut off; the field before it is merged. -/
example : merge Ex.schema Ex.big [8, 5, 34, 3, 8, 9, 0x80] = .error .invalidVarint ∧
    (mergeLeft prostLost Ex.schema Ex.big [8, 5, 34, 3, 8, 9, 0x80]).getField Ex.schema Ex.fXs =
      some (.list [.i32 1, .i32 (-2), .i32 300, .i32 8, .i32 9]) ∧
    (mergeLeft prostLost Ex.schema Ex.big [8, 5, 34, 3, 8, 9, 0x80]).getField Ex.schema Ex.fA =
      some (.i32 5) := ⟨rfl, rfl, rfl⟩

/-- A message two levels down is cut off: the levels above keep what was read. -/
example : merge Ex.schema Ex.big [26, 6, 8, 6, 26, 2, 8, 0x80] = .error .invalidVarint ∧
    (match (mergeLeft prostLost Ex.schema Ex.big [26, 6, 8, 6, 26, 2, 8, 0x80]).getField Ex.schema Ex.fChild with
      | some (.msg i gs) => ((match FieldSet.get Ex.schema gs Ex.fA with | some (.i32 x) => x == 6 | _ => false),
          FieldSet.has Ex.schema gs Ex.fChild)
      | _ => (false, none)) = (true, some true) := ⟨rfl, by decide +kernel⟩

/-- A group that is cut off, and one that another group ends: both keep the fields before that. -/
example : (match merge Ex.schema Ex.small [75, 9, 7, 0, 0, 0, 0, 0, 0, 0] with | .error _ => true | _ => false) = true ∧
    (match merge Ex.schema Ex.small [75, 9, 7, 0, 0, 0, 0, 0, 0, 0, 0x54] with | .error _ => true | _ => false) = true ∧
    ([[75, 9, 7, 0, 0, 0, 0, 0, 0, 0], [75, 9, 7, 0, 0, 0, 0, 0, 0, 0, 0x54], [75, 9, 7, 0, 0, 0, 0, 0, 0, 0, 9, 1]].map fun b =>
      match (mergeLeft prostLost Ex.schema Ex.small b).getField Ex.schema Ex.fG with
      | some (.msg 2 [(1, .val (.i64 7))]) => true
      | _ => false) = [true, true, true] := by decide +kernel

example : Ex.schema.wf = true ∧ confMsg Ex.schema Ex.big = true ∧ confMsg Ex.schema Ex.small = true := by
  decide

end Verif.Props
