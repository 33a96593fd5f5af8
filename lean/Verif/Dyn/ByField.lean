import Verif.Dyn.Merge
import Verif.Dyn.Same
/-!
Decoding goes field by field: two byte strings that hold the same fields decode alike, whatever
the length of their varints.
-/
set_option autoImplicit false
namespace Verif.Dyn
open Verif.Wire

mutual
/-- No map field of message `i` is written with another wire type than length-delimited, at this
level and inside groups. -/
def Delimited (S : Schema) (i n : Nat) : UVal → Prop
  | .len _ => True
  | .group us => ∀ f, Known S i f → f.number = n → isMap S f = false ∧
      ∀ j, f.kind = .message j → DelimitedAll S j us
  | .varint _ | .sixtyFour _ | .thirtyTwo _ => ∀ f, Known S i f → f.number = n → isMap S f = false
def DelimitedAll (S : Schema) (i : Nat) : List (Nat × UVal) → Prop
  | [] => True
  | (n, u) :: r => Delimited S i n u ∧ DelimitedAll S i r
end

/-- The fields of a byte string: key and value, one after the other. -/
inductive Parsed (d : Nat) : Bytes → USet → Prop
  | nil : Parsed d [] []
  | cons {b b1 b2 : Bytes} {n : Nat} {w : WireType} {u : UVal} {us : USet}
      (hk : decodeKey b = .ok (n, w, b1)) (hu : decUVal d n w b1 = .ok (u, b2)) (h : Parsed d b2 us) :
      Parsed d b ((n, u) :: us)

/-- The fields of a group, up to its end key. -/
inductive Grouped (d tag : Nat) : Bytes → USet → Bytes → Prop
  | stop {b r : Bytes} (hk : decodeKey b = .ok (tag, .endGroup, r)) : Grouped d tag b [] r
  | cons {b b1 b2 r : Bytes} {n : Nat} {w : WireType} {u : UVal} {us : USet}
      (hk : decodeKey b = .ok (n, w, b1)) (hw : w ≠ .endGroup) (hu : decUVal d n w b1 = .ok (u, b2))
      (h : Grouped d tag b2 us r) : Grouped d tag b ((n, u) :: us) r

theorem grouped_of_loop {d tag : Nat} : ∀ (k : Nat) {acc us : USet} {b r : Bytes},
    groupLoop tag (pushUnknown (decUVal d)) k acc b = .ok (us, r) → ∃ x, us = acc ++ x ∧ Grouped d tag b x r
  | 0, _, _, _, _, h => by simp [groupLoop] at h
  | k + 1, acc, us, b, r, h => by
    simp only [groupLoop] at h
    split at h
    · cases h
    · next n w rest hk =>
      split at h
      · next hw =>
        split at h
        · cases h
        · next ht =>
          cases h
          subst hw
          simp only [ne_eq, Decidable.not_not] at ht
          subst ht
          exact ⟨[], by simp, .stop hk⟩
      · next hw =>
        split at h
        · cases h
        · next st b2 hs =>
          unfold pushUnknown at hs
          split at hs
          · cases hs
          · next u b3 hu =>
            cases hs
            obtain ⟨x, rfl, hx⟩ := grouped_of_loop k h
            exact ⟨(n, u) :: x, by simp, .cons hk hw hu hx⟩

theorem loop_of_parsed {d : Nat} {b : Bytes} {x : USet} (h : Parsed d b x) : ∀ (k : Nat) (acc : USet),
    b.length < k → loopTo 0 (keyThen (pushUnknown (decUVal d))) k acc b = .ok (acc ++ x, []) := by
  induction h with
  | nil => intro k acc hk; cases k with
    | zero => omega
    | succ k => simp [loopTo]
  | @cons b b1 b2 n w u us hk hu h ih =>
    intro k acc hl
    cases k with
    | zero => omega
    | succ k =>
      obtain ⟨c, hne, rfl, -⟩ := decodeKey_good hk
      have h2 := (good_decUVal d n w).le hu
      have : 0 < c.length := List.length_pos_iff.2 hne
      simp only [List.length_append] at hl
      simp only [loopTo, keyThen, hk, pushUnknown, hu]
      rw [if_neg (by rw [List.length_append]; omega), ih k (acc ++ [(n, u)]) (by omega)]
      simp

theorem parsed_of_loop {d : Nat} : ∀ (k : Nat) {acc us : USet} {b r : Bytes},
    loopTo 0 (keyThen (pushUnknown (decUVal d))) k acc b = .ok (us, r) →
      r = [] ∧ ∃ x, us = acc ++ x ∧ Parsed d b x
  | 0, _, _, _, _, h => by simp [loopTo] at h
  | k + 1, acc, us, b, r, h => by
    simp only [loopTo] at h
    split at h
    · next hb =>
      cases h
      have : b = [] := List.length_eq_zero_iff.1 (by omega)
      subst this
      exact ⟨rfl, [], by simp, .nil⟩
    · split at h
      · cases h
      · next st b2 hs =>
        unfold keyThen at hs
        split at hs
        · cases hs
        · next n w b1 hk =>
          unfold pushUnknown at hs
          split at hs
          · cases hs
          · next u b3 hu =>
            cases hs
            obtain ⟨hr, x, rfl, hx⟩ := parsed_of_loop k h
            exact ⟨hr, (n, u) :: x, by simp, .cons hk hu hx⟩

/-- A delimited loop looks at its payload only. -/
theorem mergeLoop_lock {σ : Type} {body : σ → Bytes → R (σ × Bytes)} (hg : ∀ st, Good (body st))
    (hs : ∀ st, Strict (body st)) {p b c r s r' : Bytes} {st st' : σ} (hb : getLenDelim b = .ok (p, r))
    (hc : getLenDelim c = .ok (p, s)) (h : mergeLoop body st b = .ok (st', r')) :
    r' = r ∧ mergeLoop body st c = .ok (st', s) := by
  unfold getLenDelim at hb hc
  unfold mergeLoop at h ⊢
  cases hvb : decodeVarint b with
  | error e => rw [hvb] at h; cases h
  | ok q =>
    obtain ⟨len, rest⟩ := q
    rw [hvb] at hb h
    simp only at hb h
    split at hb
    · cases hb
    · next hle =>
      simp only [Except.ok.injEq, Prod.mk.injEq] at hb
      obtain ⟨hp, hr⟩ := hb
      rw [if_neg hle] at h
      split at h
      · cases h
      · next st1 b1 hl =>
        split at h
        · cases h
        · next he =>
          cases h
          simp only [ne_eq, Decidable.not_not] at he
          rw [← he] at hl
          obtain ⟨x, hx, hst⟩ := loopTo_good hg hs _ _ _ _ _ hl
          have hxl : x.length = len := by
            have := congrArg List.length hx
            rw [List.length_append] at this
            omega
          have hxp : x = p := by rw [← hp, hx, ← hxl]; simp
          have hrr : r' = r := by rw [← hr, hx, ← hxl]; simp
          subst hxp
          refine ⟨hrr, ?_⟩
          cases hvc : decodeVarint c with
          | error e => rw [hvc] at hc; cases hc
          | ok q =>
            obtain ⟨len', rest'⟩ := q
            rw [hvc] at hc
            simp only at hc ⊢
            split at hc
            · cases hc
            · next hle' =>
              simp only [Except.ok.injEq, Prod.mk.injEq] at hc
              obtain ⟨hp', hs'⟩ := hc
              have hrest : rest' = x ++ s := by rw [← hp', ← hs', List.take_append_drop]
              have hlen' : x.length = len' := by rw [← hp', List.length_take]; omega
              subst hrest
              rw [if_neg hle', ← hlen']
              have e1 : (x ++ s).length - x.length = s.length := by simp
              rw [e1, loopTo_of_steps hst s _ (by simp; omega)]
              simp

theorem decUVal_len {d n : Nat} {b p r : Bytes} (h : decUVal d n .lengthDelimited b = .ok (.len p, r)) :
    getLenDelim b = .ok (p, r) := by
  rw [decUVal_eq] at h
  simp only [decUValWith] at h
  split at h
  · cases h
  · next h' => cases h; exact h'

theorem leVal_lt : ∀ (b : Bytes), leVal b < 256 ^ b.length
  | [] => by simp [leVal]
  | x :: r => by
    have := leVal_lt r
    have hx := x.toNat_lt
    simp only [leVal, List.length_cons, Nat.pow_succ]
    omega

theorem ofNat_inj_of_lt {k a b : Nat} (ha : a < 2 ^ k) (hb : b < 2 ^ k)
    (h : BitVec.ofNat k a = BitVec.ofNat k b) : a = b := by
  have := congrArg BitVec.toNat h
  simpa [Nat.mod_eq_of_lt ha, Nat.mod_eq_of_lt hb] using this

theorem getLE_lt {k n : Nat} {b r : Bytes} (h : getLE k b = .ok (n, r)) : n < 256 ^ k := by
  unfold getLE at h
  split at h
  · cases h
  · cases h
    have := leVal_lt (b.take k)
    rw [List.length_take, Nat.min_eq_left (by omega)] at this
    exact this

/-- A scalar depends on the value of its field only. -/
theorem scalar_lock {d n : Nat} {k : Kind} {w : WireType} {b c r s r' : Bytes} {u : UVal} {v : Value}
    (hb : decUVal d n w b = .ok (u, r)) (hc : decUVal d n w c = .ok (u, s))
    (h : scalarDec k w b = .ok (v, r')) : r' = r ∧ scalarDec k w c = .ok (v, s) := by
  have hw : w ≠ .startGroup ∧ w ≠ .endGroup := by
    constructor
    · rintro rfl; cases k <;> simp [scalarDec] at h
    · rintro rfl; cases k <;> simp [scalarDec] at h
  rw [decUVal_eq] at hb hc
  cases w with
  | startGroup => exact absurd rfl hw.1
  | endGroup => exact absurd rfl hw.2
  | varint =>
    simp only [decUValWith] at hb hc
    split at hb
    · cases hb
    · next x r1 hx =>
      split at hc
      · cases hc
      · next y s1 hy =>
        cases hb
        simp only [Except.ok.injEq, Prod.mk.injEq, UVal.varint.injEq] at hc
        obtain ⟨he, rfl⟩ := hc
        have : y = x := ofNat_inj_of_lt (decodeVarint_lt hy) (decodeVarint_lt hx) he
        subst this
        cases k <;> simp [scalarDec, hx, hy] at h ⊢ <;> first
          | exact ⟨h.2.symm, h.1⟩
          | skip
  | sixtyFourBit =>
    simp only [decUValWith] at hb hc
    split at hb
    · cases hb
    · next x r1 hx =>
      split at hc
      · cases hc
      · next y s1 hy =>
        cases hb
        simp only [Except.ok.injEq, Prod.mk.injEq, UVal.sixtyFour.injEq] at hc
        obtain ⟨he, rfl⟩ := hc
        have : y = x := ofNat_inj_of_lt (getLE_lt hy) (getLE_lt hx) he
        subst this
        cases k <;> simp [scalarDec, hx, hy] at h ⊢ <;> first
          | exact ⟨h.2.symm, h.1⟩
          | skip
  | thirtyTwoBit =>
    simp only [decUValWith] at hb hc
    split at hb
    · cases hb
    · next x r1 hx =>
      split at hc
      · cases hc
      · next y s1 hy =>
        cases hb
        simp only [Except.ok.injEq, Prod.mk.injEq, UVal.thirtyTwo.injEq] at hc
        obtain ⟨he, rfl⟩ := hc
        have : y = x := ofNat_inj_of_lt (getLE_lt hy) (getLE_lt hx) he
        subst this
        cases k <;> simp [scalarDec, hx, hy] at h ⊢ <;> first
          | exact ⟨h.2.symm, h.1⟩
          | skip
  | lengthDelimited =>
    simp only [decUValWith] at hb hc
    split at hb
    · cases hb
    · next x r1 hx =>
      split at hc
      · cases hc
      · next y s1 hy =>
        cases hb
        cases hc
        cases k <;> simp [scalarDec, hx, hy] at h ⊢ <;> first
          | exact ⟨h.2.symm, h.1⟩
          | skip
        split at h
        · next hu =>
          simp only [Except.ok.injEq, Prod.mk.injEq] at h
          exact ⟨h.2.symm, by rw [if_pos hu, h.1]⟩
        · cases h

/-- A field function that looks at the value of a field only. -/
def LockAt (S : Schema) (d : Nat) : Prop := ∀ m n w b c u r s m' r', confMsg S m = true →
  0 < n → n < 2 ^ 29 → decUVal d n w b = .ok (u, r) → decUVal d n w c = .ok (u, s) →
  Delimited S m.desc n u → msgMerge S d m n w b = .ok (m', r') → r' = r ∧ msgMerge S d m n w c = .ok (m', s)

theorem group_lock {S : Schema} (hS : S.wf = true) {d tag : Nat} (hL : LockAt S d) : ∀ (k : Nat) {m m' : DynMsg}
    {b c r s r' : Bytes} {x : USet}, confMsg S m = true → Grouped d tag b x r → Grouped d tag c x s →
    DelimitedAll S m.desc x → groupLoop tag (msgMerge S d) k m b = .ok (m', r') →
    r' = r ∧ ∀ k', c.length < k' → groupLoop tag (msgMerge S d) k' m c = .ok (m', s)
  | 0, _, _, _, _, _, _, _, _, _, _, _, _, h => by simp [groupLoop] at h
  | k + 1, m, m', b, c, r, s, r', x, hm, hb, hc, hx, h => by
    cases hb with
    | stop hkb =>
      cases hc with
      | stop hkc =>
        simp only [groupLoop, hkb, if_true, ne_eq, not_true_eq_false, if_false, Except.ok.injEq,
          Prod.mk.injEq] at h
        obtain ⟨rfl, rfl⟩ := h
        refine ⟨rfl, fun k' hk' => ?_⟩
        cases k' with
        | zero => omega
        | succ k' => simp only [groupLoop, hkc, if_true, ne_eq, not_true_eq_false, if_false]
    | @cons _ b1 b2 _ n w u us hkb hwb hub hb =>
      cases hc with
      | @cons _ c1 c2 _ _ w' _ _ hkc hwc huc hc =>
        have hww : w' = w := by
          rw [← (decUVal_ok _ _ _ _ _ _ hub).2.2, ← (decUVal_ok _ _ _ _ _ _ huc).2.2]
        subst hww
        simp only [DelimitedAll] at hx
        simp only [groupLoop, hkb, if_neg hwb] at h
        split at h
        · cases h
        · next m1 b3 hs =>
          obtain ⟨_, _, _, _, hn, hn'⟩ := decodeKey_good hkb
          obtain ⟨rfl, hs'⟩ := hL _ _ _ _ _ _ _ _ _ _ hm hn hn' hub huc hx.1 hs
          have hok := (msgMerge_ok hS d m n w' b1 hn hn' hm).2 m1 b3 hs
          obtain ⟨e1, e2⟩ := group_lock hS hL k hok.1 hb hc (by rw [hok.2]; exact hx.2) h
          refine ⟨e1, fun k' hk' => ?_⟩
          cases k' with
          | zero => omega
          | succ k' =>
            obtain ⟨y, hne, rfl, -⟩ := decodeKey_good hkc
            have h2 := (good_decUVal d n w').le huc
            have : 0 < y.length := List.length_pos_iff.2 hne
            simp only [List.length_append] at hk'
            simp only [groupLoop, hkc, if_neg hwb, hs']
            exact e2 k' (by omega)

theorem singular_lock {S : Schema} (hS : S.wf = true) {d : Nat} (hL : ∀ d', d = d' + 1 → LockAt S d')
    {f : FieldDesc} {v : Value} {w : WireType} {b c r s r' : Bytes} {u : UVal} {v' : Value}
    (hv : ∀ i fs, v = .msg i fs → confMsg S ⟨i, fs⟩ = true ∧ ∀ us, u = .group us → DelimitedAll S i us)
    (hb : decUVal d f.number w b = .ok (u, r)) (hc : decUVal d f.number w c = .ok (u, s))
    (h : singularMerge (nestedAt S d) f v w b = .ok (v', r')) :
    r' = r ∧ singularMerge (nestedAt S d) f v w c = .ok (v', s) := by
  cases v with
  | msg i fs =>
    unfold singularMerge at h ⊢
    simp only at h ⊢
    cases hk : f.kind <;> simp only [hk] at h ⊢ <;> first
      | cases h; done
      | skip
    obtain ⟨m, hm, rfl⟩ := mapV_ok h
    have key : r' = r ∧ (if f.group then groupMerge (nestedAt S d) f.number w ⟨i, fs⟩ c
        else messageMerge (nestedAt S d) w ⟨i, fs⟩ c) = .ok (m, s) := by
      split at hm
      · next hg =>
        rw [if_pos hg]
        cases d with
        | zero =>
          unfold groupMerge at hm
          split at hm <;> cases hm
        | succ d =>
          unfold groupMerge at hm ⊢
          split at hm
          · cases hm
          · next hw =>
            simp only [ne_eq, Decidable.not_not] at hw
            subst hw
            simp only [nestedAt, ne_eq, not_true_eq_false, if_false] at hm ⊢
            rw [decUVal_eq] at hb hc
            simp only [decUValWith, groupMerge, ne_eq, not_true_eq_false, if_false] at hb hc
            split at hb
            · cases hb
            · next us r1 hgb =>
              cases hb
              split at hc
              · cases hc
              · next us2 s1 hgc =>
                cases hc
                obtain ⟨x, hx, hG⟩ := grouped_of_loop _ hgb
                obtain ⟨x', hx', hG'⟩ := grouped_of_loop _ hgc
                simp only [List.nil_append] at hx hx'
                subst hx; subst hx'
                obtain ⟨e1, e2⟩ := group_lock hS (hL d rfl) _ (hv i fs rfl).1 hG hG'
                  ((hv i fs rfl).2 _ rfl) hm
                exact ⟨e1, e2 _ (by omega)⟩
      · next hg =>
        rw [if_neg hg]
        cases d with
        | zero =>
          unfold messageMerge at hm
          split at hm <;> cases hm
        | succ d =>
          unfold messageMerge at hm ⊢
          split at hm
          · cases hm
          · next hw =>
            simp only [ne_eq, Decidable.not_not] at hw
            subst hw
            simp only [nestedAt, ne_eq, not_true_eq_false, if_false] at hm ⊢
            have hu : ∃ p, u = .len p := by
              have := (decUVal_ok _ _ _ _ _ _ hb).2.2
              cases u <;> simp [UVal.wireType] at this
              exact ⟨_, rfl⟩
            obtain ⟨p, rfl⟩ := hu
            exact mergeLoop_lock (keyThen_good (good_msgMerge S d)) (keyThen_strict (good_msgMerge S d))
              (decUVal_len hb) (decUVal_len hc) hm
    obtain ⟨e1, e2⟩ := key
    exact ⟨e1, by rw [e2]; rfl⟩
  | _ =>
    unfold singularMerge at h ⊢
    simp only at h ⊢
    split at h
    · next hv =>
      rw [if_pos hv]
      exact scalar_lock hb hc h
    · cases h

theorem list_lock {S : Schema} (hS : S.wf = true) {d : Nat} (hL : ∀ d', d = d' + 1 → LockAt S d')
    {f : FieldDesc} (hf : FieldWf S f) {vs vs' : List Value} {w : WireType} {b c r s r' : Bytes} {u : UVal}
    (hu : ∀ us i, u = .group us → f.kind = .message i → DelimitedAll S i us)
    (hb : decUVal d f.number w b = .ok (u, r)) (hc : decUVal d f.number w c = .ok (u, s))
    (h : listMerge S (nestedAt S d) f vs w b = .ok (vs', r')) :
    r' = r ∧ listMerge S (nestedAt S d) f vs w c = .ok (vs', s) := by
  unfold listMerge at h ⊢
  cases hk : kindDefault S f.kind with
  | none => rw [hk] at h; cases h
  | some v0 =>
    rw [hk] at h
    simp only at h ⊢
    split at h
    · next hw =>
      rw [if_pos hw]
      obtain ⟨hw, hp⟩ := hw
      subst hw
      have hu : ∃ p, u = .len p := by
        have := (decUVal_ok _ _ _ _ _ _ hb).2.2
        cases u <;> simp [UVal.wireType] at this
        exact ⟨_, rfl⟩
      obtain ⟨p, rfl⟩ := hu
      exact mergeLoop_lock (fun vs => Good.map (good_singular (good_nestedAt S d) _ _ _) _)
        (fun vs => Strict.map (strict_singular (good_nestedAt S d) _ _ _) _) (decUVal_len hb)
        (decUVal_len hc) h
    · next hw =>
      rw [if_neg hw]
      obtain ⟨v, hv, rfl⟩ := mapV_ok h
      obtain ⟨v1, hk1, hc0⟩ := kindDefault_conf hf
      rw [hk] at hk1
      cases hk1
      obtain ⟨e1, e2⟩ := singular_lock hS hL (u := u) (fun i fs he => by
        subst he
        have := confMsg_of_confVal hc0
        exact ⟨this.2.2, fun us hus => hu us i hus this.2.1⟩) hb hc hv
      exact ⟨e1, by rw [e2]; rfl⟩

theorem value_lock {S : Schema} (hS : S.wf = true) {d : Nat} (hL : ∀ d', d = d' + 1 → LockAt S d')
    {f : FieldDesc} (hf : FieldWf S f) {v v' : Value} {w : WireType} {b c r s r' : Bytes} {u : UVal}
    (hv : confVal S f v = true) (hmap : isMap S f = true → ∃ p, u = .len p)
    (hu : ∀ us i, u = .group us → f.kind = .message i → DelimitedAll S i us)
    (hb : decUVal d f.number w b = .ok (u, r)) (hc : decUVal d f.number w c = .ok (u, s))
    (h : valueMerge S d (nestedAt S d) f v w b = .ok (v', r')) :
    r' = r ∧ valueMerge S d (nestedAt S d) f v w c = .ok (v', s) := by
  cases v with
  | list vs =>
    simp only [valueMerge] at h ⊢
    split at h
    · next hi =>
      rw [if_pos hi]
      obtain ⟨vs', hm, rfl⟩ := mapV_ok h
      obtain ⟨e1, e2⟩ := list_lock hS hL hf hu hb hc hm
      exact ⟨e1, by rw [e2]; rfl⟩
    · cases h
  | map kvs =>
    simp only [valueMerge] at h ⊢
    cases hk : f.kind <;> simp only [hk] at h ⊢ <;> first
      | cases h; done
      | skip
    split at h
    · next hi =>
      rw [if_pos hi]
      obtain ⟨kvs', hm, rfl⟩ := mapV_ok h
      obtain ⟨p, rfl⟩ := hmap hi
      have hw : w = .lengthDelimited := (decUVal_ok _ _ _ _ _ _ hb).2.2.symm
      subst hw
      unfold mapMerge at hm ⊢
      split at hm
      · cases hm
      · next kd vd hkv =>
        split at hm
        · next k0 v0 hk0 hv0 =>
          obtain ⟨kv, hl, rfl⟩ := mapV_ok hm
          obtain ⟨e1, e2⟩ := mergeLoop_lock
            (keyThen_good (good_entryField (good_nestedAt S d) d kd vd))
            (keyThen_strict (good_entryField (good_nestedAt S d) d kd vd))
            (decUVal_len hb) (decUVal_len hc) hl
          exact ⟨e1, by simp only [hv0, e2]; rfl⟩
        · cases hm
    · cases h
  | msg i fs =>
    have hcm := confMsg_of_confVal hv
    have := singular_lock hS hL (f := f) (v := .msg i fs) (u := u) (fun j fs' he => by
      cases he
      exact ⟨hcm.2.2, fun us hus => hu us i hus hcm.2.1⟩) hb hc (v' := v') (r' := r') (by
        simpa only [valueMerge] using h)
    simpa only [valueMerge] using this
  | _ =>
    simp only [valueMerge] at h ⊢
    refine singular_lock hS hL (u := u) ?_ hb hc h
    intro j fs' he
    cases he

theorem Delimited.use {S : Schema} {i : Nat} {f : FieldDesc} (hk : Known S i f) {u : UVal}
    (h : Delimited S i f.number u) : (isMap S f = true → ∃ p, u = .len p) ∧
      ∀ us j, u = .group us → f.kind = .message j → DelimitedAll S j us := by
  cases u with
  | len p => exact ⟨fun _ => ⟨p, rfl⟩, nofun⟩
  | group us =>
    simp only [Delimited] at h
    have := h f hk rfl
    exact ⟨fun e => (Bool.false_ne_true (this.1.symm.trans e)).elim, fun us' j e hj => by
      cases e; exact this.2 j hj⟩
  | varint _ =>
    simp only [Delimited] at h
    exact ⟨fun e => (Bool.false_ne_true ((h f hk rfl).symm.trans e)).elim, nofun⟩
  | sixtyFour _ =>
    simp only [Delimited] at h
    exact ⟨fun e => (Bool.false_ne_true ((h f hk rfl).symm.trans e)).elim, nofun⟩
  | thirtyTwo _ =>
    simp only [Delimited] at h
    exact ⟨fun e => (Bool.false_ne_true ((h f hk rfl).symm.trans e)).elim, nofun⟩

theorem lock_step {S : Schema} (hS : S.wf = true) {d : Nat} (hL : ∀ d', d = d' + 1 → LockAt S d') :
    LockAt S d := by
  intro m n w b c u r s m' r' hm hn hn' hb hc hu h
  obtain ⟨md, hC⟩ := confMsg_iff.1 hm
  have hw := Schema.wf_msg hS hC.desc
  cases hf : md.getField n with
  | some f =>
    obtain ⟨hmem, hnum⟩ := getField_mem hf
    obtain ⟨v, hv, -, hmerge, -⟩ := field_place hS hC hf d
    subst hnum
    rw [hmerge] at h ⊢
    obtain ⟨v', hv', rfl⟩ := mapV_ok h
    have hk : Known S m.desc f := .inl (by rw [field?_eq hC.desc]; exact hf)
    obtain ⟨h1, h2⟩ := Delimited.use hk hu
    obtain ⟨e1, e2⟩ := value_lock hS hL (hw.fields f hmem) hv h1 h2 hb hc hv'
    exact ⟨e1, by rw [e2]; rfl⟩
  | none =>
    cases hx : md.getExtension n with
    | some f =>
      obtain ⟨hmem, hnum⟩ := getExtension_mem hx
      obtain ⟨v, hv, -, hmerge, -⟩ := ext_place hS hC hx d
      subst hnum
      rw [hmerge] at h ⊢
      obtain ⟨v', hv', rfl⟩ := mapV_ok h
      have hk : Known S m.desc f := .inr (by rw [ext?_eq hC.desc]; exact hx)
      obtain ⟨h1, h2⟩ := Delimited.use hk hu
      obtain ⟨e1, e2⟩ := value_lock hS hL (hw.exts f hmem) hv h1 h2 hb hc hv'
      exact ⟨e1, by rw [e2]; rfl⟩
    | none =>
      rw [msgMerge_eq] at h ⊢
      unfold mergeField at h ⊢
      simp only [hC.desc, hf, hx, hb, hc] at h ⊢
      split at h
      · cases h
      · next fs hfs =>
        cases h
        exact ⟨rfl, rfl⟩

/-- Merging a field depends on the value of the field only. -/
theorem lockAt {S : Schema} (hS : S.wf = true) : ∀ d, LockAt S d
  | 0 => lock_step hS (fun d' h => by omega)
  | d + 1 => lock_step hS (fun d' h => by
      have : d' = d := by omega
      subst this; exact lockAt hS d')

/-- Two byte strings with the same fields merge alike. -/
theorem loop_lock {S : Schema} (hS : S.wf = true) {d : Nat} : ∀ (k : Nat) {m m' : DynMsg} {b c r : Bytes}
    {x : USet}, confMsg S m = true → Parsed d b x → Parsed d c x → DelimitedAll S m.desc x →
    loopTo 0 (keyThen (msgMerge S d)) k m b = .ok (m', r) →
    ∀ k', c.length < k' → loopTo 0 (keyThen (msgMerge S d)) k' m c = .ok (m', [])
  | 0, _, _, _, _, _, _, _, _, _, _, h => by simp [loopTo] at h
  | k + 1, m, m', b, c, r, x, hm, hb, hc, hx, h => by
    intro k' hk'
    cases hb with
    | nil =>
      cases hc with
      | nil =>
        cases k' with
        | zero => omega
        | succ k' =>
          simp only [loopTo, List.length_nil, Nat.le_refl, if_true, Except.ok.injEq, Prod.mk.injEq] at h ⊢
          exact ⟨h.1, trivial⟩
    | @cons _ b1 b2 n w u us hkb hub hb =>
      cases hc with
      | @cons _ c1 c2 _ w' _ _ hkc huc hc =>
        have hww : w' = w := by
          rw [← (decUVal_ok _ _ _ _ _ _ hub).2.2, ← (decUVal_ok _ _ _ _ _ _ huc).2.2]
        subst hww
        simp only [DelimitedAll] at hx
        simp only [loopTo] at h
        split at h
        · next hl =>
          have : b = [] := List.length_eq_zero_iff.1 (by omega)
          subst this
          obtain ⟨y, hne, hy, -⟩ := decodeKey_good hkb
          cases y with
          | nil => exact absurd rfl hne
          | cons _ _ => cases hy
        · simp only [keyThen, hkb] at h
          split at h
          · cases h
          · next m1 b3 hs =>
            obtain ⟨_, _, _, _, hn, hn'⟩ := decodeKey_good hkb
            obtain ⟨rfl, hs'⟩ := lockAt hS d _ _ _ _ _ _ _ _ _ _ hm hn hn' hub huc hx.1 hs
            have hok := (msgMerge_ok hS d m n w' b1 hn hn' hm).2 m1 b3 hs
            cases k' with
            | zero => omega
            | succ k' =>
              obtain ⟨y, hne, rfl, -⟩ := decodeKey_good hkc
              have h2 := (good_decUVal d n w').le huc
              have : 0 < y.length := List.length_pos_iff.2 hne
              simp only [List.length_append] at hk'
              simp only [loopTo, keyThen, hkc, hs']
              rw [if_neg (by rw [List.length_append]; omega)]
              exact loop_lock hS k hok.1 hb hc (by rw [hok.2]; exact hx.2) h k' (by omega)

theorem merge_lock {S : Schema} (hS : S.wf = true) {m m' : DynMsg} {b c : Bytes} {x : USet}
    (hm : confMsg S m = true) (hb : Parsed recursionLimit b x) (hc : Parsed recursionLimit c x)
    (hx : DelimitedAll S m.desc x) (h : merge S m b = .ok m') : merge S m c = .ok m' := by
  unfold merge mergeAll at h ⊢
  split at h
  · cases h
  · next m1 r hl =>
    cases h
    rw [loop_lock hS _ hm hb hc hx hl _ (Nat.lt_succ_self _)]

end Verif.Dyn
