import Verif.Opt.Options
import Verif.Wire.UnknownLemmas
/-! Helper lemmas about the bytes kept by `Options<T>`. -/
set_option autoImplicit false
namespace Verif.Opt
open Verif.Wire

variable {T : Type}

/-- `b` is a sequence of fields, each a key and a payload that `skip_field` walks over, and `e`
is the same sequence with each of these keys written by `encode_key`. -/
inductive Rekey : Bytes → Bytes → Prop
  | nil : Rekey [] []
  | cons {k c b e : Bytes} {n : Nat} {w : WireType}
      (hk : ∀ t, decodeKey (k ++ t) = .ok (n, w, t))
      (hc : skipField recursionLimit w n c = .ok []) (h : Rekey b e) :
      Rekey (k ++ (c ++ b)) (encodeKey n w ++ (c ++ e))

/-- A sequence of fields all of whose keys are the ones `encode_key` writes. -/
inductive ShortKeys : Bytes → Prop
  | nil : ShortKeys []
  | cons {c b : Bytes} {n : Nat} {w : WireType} (hn : 0 < n) (hn' : n < 2 ^ 29)
      (hc : skipField recursionLimit w n c = .ok []) (h : ShortKeys b) :
      ShortKeys (encodeKey n w ++ (c ++ b))

theorem skip_split {d n : Nat} {w : WireType} {b r : Bytes} (h : skipField d w n b = .ok r) :
    ∃ c, b = c ++ r ∧ ∀ t, skipField d w n (c ++ t) = .ok t := by
  obtain ⟨c, hb, hc⟩ := good_skipP d w n b () r (by unfold skipP; rw [h])
  refine ⟨c, hb, fun t => ?_⟩
  have := hc t
  unfold skipP at this
  split at this
  · cases this
  · rename_i r' hr
    cases this
    exact hr

theorem skip_endGroup (d n : Nat) (b : Bytes) {r : Bytes} : skipField d .endGroup n b ≠ .ok r := by
  cases d <;> simp [skipField]

theorem take_append_sub (c r : Bytes) : (c ++ r).take ((c ++ r).length - r.length) = c := by simp

/-- What one call of `Options::merge_field` does. -/
theorem optField_ok {d : Nat} {val : FieldFn T} {st st' : Bytes × T} {n : Nat} {w : WireType}
    {b r : Bytes} (h : optField d val st n w b = .ok (st', r)) :
    ∃ c x, b = c ++ r ∧ (∀ t, skipField d w n (c ++ t) = .ok t) ∧
      val st.2 n w c = .ok (st'.2, x) ∧ st'.1 = st.1 ++ (encodeKey n w ++ c) := by
  unfold optField at h
  split at h
  · cases h
  · rename_i rest hs
    obtain ⟨c, rfl, hc⟩ := skip_split hs
    rw [take_append_sub] at h
    simp only at h
    split at h
    · cases h
    · rename_i v x hv
      cases h
      exact ⟨c, x, rfl, hc, hv, rfl⟩

/-- And conversely. -/
theorem optField_of {d : Nat} {val : FieldFn T} {v v' : T} {e : Bytes} {n : Nat} {w : WireType}
    {c : Bytes} {z : Bytes} (hc : ∀ t, skipField d w n (c ++ t) = .ok t)
    (hv : val v n w c = .ok (v', z)) (t : Bytes) :
    optField d val (e, v) n w (c ++ t) = .ok ((e ++ (encodeKey n w ++ c), v'), t) := by
  unfold optField
  rw [hc t]
  simp only
  rw [take_append_sub, hv]

/-- The loop of `Options::decode`, described field by field. -/
theorem optLoop_ok {val : FieldFn T} : ∀ (fuel : Nat) {st st' : Bytes × T} {b r : Bytes},
    loopTo 0 (keyThen (optField recursionLimit val)) fuel st b = .ok (st', r) →
    ∃ e, st'.1 = st.1 ++ e ∧ Rekey b e ∧
      ∀ x, FSteps (optField recursionLimit val) (x, st.2) e (x ++ e, st'.2) := by
  intro fuel
  induction fuel with
  | zero => intro st st' b r h; simp [loopTo] at h
  | succ fuel ih =>
    intro st st' b r h
    unfold loopTo at h
    split at h
    · rename_i hb
      cases h
      have : b = [] := List.length_eq_zero_iff.1 (by omega)
      subst this
      exact ⟨[], by simp, .nil, fun x => by simpa using FSteps.nil (f := optField recursionLimit val) (x, st.2)⟩
    · split at h
      · cases h
      · rename_i st1 b1 h1
        unfold keyThen at h1
        split at h1
        · cases h1
        · rename_i n w rest hk
          obtain ⟨k, hkne, rfl, hkg, hn, hn'⟩ := decodeKey_good hk
          obtain ⟨c, z, rfl, hc, hv, he⟩ := optField_ok h1
          obtain ⟨e, he', hR, hF⟩ := ih h
          have hw : w ≠ .endGroup := by
            rintro rfl
            exact skip_endGroup _ _ _ (hc [])
          refine ⟨encodeKey n w ++ (c ++ e), by rw [he', he]; simp, ?_, fun x => ?_⟩
          · exact .cons hkg (by simpa using hc []) hR
          · have h2 := FSteps.cons (f := optField recursionLimit val) (st := (x, st.2)) hn hn' hw
              (fun t => optField_of hc hv t) (hF (x ++ (encodeKey n w ++ c)))
            simpa [List.append_assoc] using h2

theorem optDecode_ok {val : FieldFn T} {v0 v : T} {b e : Bytes} (h : optDecode val v0 b = .ok (e, v)) :
    Rekey b e ∧ optDecode val v0 e = .ok (e, v) := by
  unfold optDecode at h
  split at h
  · cases h
  · rename_i st r hm
    cases h
    obtain ⟨e', he, hR, hF⟩ := optLoop_ok _ hm
    simp only [List.nil_append] at he
    subst he
    refine ⟨hR, ?_⟩
    unfold optDecode
    rw [mergeAll_of_fsteps (hF [])]
    simp

theorem key_unique {k k' t t' : Bytes} {n n' : Nat} {w w' : WireType}
    (h : ∀ t, decodeKey (k ++ t) = .ok (n, w, t)) (h' : ∀ t, decodeKey (k' ++ t) = .ok (n', w', t))
    (he : k ++ t = k' ++ t') : k = k' ∧ t = t' ∧ n = n' ∧ w = w' := by
  have h1 := h t
  rw [he, h' t'] at h1
  simp only [Except.ok.injEq, Prod.mk.injEq] at h1
  obtain ⟨rfl, rfl, rfl⟩ := h1
  exact ⟨List.append_cancel_right he, rfl, rfl, rfl⟩

theorem skip_unique {d n : Nat} {w : WireType} {c c' t t' : Bytes} (h : skipField d w n c = .ok [])
    (h' : skipField d w n c' = .ok []) (he : c ++ t = c' ++ t') : c = c' ∧ t = t' := by
  obtain ⟨x, hx, hc⟩ := skip_split h
  obtain ⟨y, hy, hc'⟩ := skip_split h'
  simp only [List.append_nil] at hx hy
  subst hx; subst hy
  have h1 := hc t
  rw [he, hc' t'] at h1
  cases h1
  exact ⟨List.append_cancel_right he, rfl⟩

theorem rekey_short {b e : Bytes} (h : ShortKeys b) (hR : Rekey b e) : e = b := by
  induction h generalizing e with
  | nil =>
    generalize hb : ([] : Bytes) = b at hR
    cases hR with
    | nil => rfl
    | @cons k c b e n w hk hc h =>
      have hk0 : k = [] := (List.append_eq_nil_iff.1 hb.symm).1
      subst hk0
      have := hk []
      simp [decodeKey, decodeVarint, decodeVarintAux] at this
  | @cons c b n w hn hn' hc h ih =>
    generalize hb : encodeKey n w ++ (c ++ b) = b' at hR
    cases hR with
    | nil =>
      simp [encodeKey_ne_nil] at hb
    | @cons k c' b' e n' w' hk hc' hR =>
      obtain ⟨rfl, hb, rfl, rfl⟩ := key_unique (fun t => decode_encode_key hn hn' w t) hk hb
      obtain ⟨rfl, rfl⟩ := skip_unique hc hc' hb
      rw [ih hR]

/-- Every sequence of fields is given by its keys, numbers and payloads in one way only. -/
theorem Rekey.unique {b e e' : Bytes} (h : Rekey b e) (h' : Rekey b e') : e = e' := by
  induction h generalizing e' with
  | nil =>
    generalize hb : ([] : Bytes) = b at h'
    cases h' with
    | nil => rfl
    | @cons k c b e n w hk hc h =>
      have hk0 : k = [] := (List.append_eq_nil_iff.1 hb.symm).1
      subst hk0
      have := hk []
      simp [decodeKey, decodeVarint, decodeVarintAux] at this
  | @cons k c b e n w hk hc h ih =>
    generalize hb : k ++ (c ++ b) = b' at h'
    cases h' with
    | nil =>
      have hk0 : k = [] := (List.append_eq_nil_iff.1 hb).1
      subst hk0
      have := hk []
      simp [decodeKey, decodeVarint, decodeVarintAux] at this
    | @cons k' c' b' e' n' w' hk' hc' hR =>
      obtain ⟨rfl, hb, rfl, rfl⟩ := key_unique hk hk' hb
      obtain ⟨rfl, rfl⟩ := skip_unique hc hc' hb
      rw [ih hR]

theorem Rekey.short {b e : Bytes} (h : Rekey b e) : ShortKeys e := by
  induction h with
  | nil => exact .nil
  | @cons k c b e n w hk hc h ih =>
    obtain ⟨_, _, _, _, hn, hn'⟩ := decodeKey_good (hk [])
    exact .cons hn hn' hc ih

end Verif.Opt
