import Verif.Opt.Bytes
import Verif.Dyn.AsUnknown
import Verif.Text.Format
/-!
Reading the options of a descriptor back (`options()`).
-/
set_option autoImplicit false
namespace Verif.Opt
open Verif.Wire Verif.Dyn Verif.Pool

variable {T : Type}

/-- The option type, looked up in the pool and otherwise in the global pool (api.rs:1957-1959,
options.rs:309-313). The schema it belongs to is that of the pool it was found in. `none` is the
panic of the second `unwrap`. -/
def optionType (P G : Schema) (name : Name) : Option (Schema × Nat) :=
  match Text.Schema.msgByName P name with
  | some d => some (P, d)
  | none =>
    match Text.Schema.msgByName G name with
    | some d => some (G, d)
    | none => none

/-- `decode_options` (api.rs:1952-1966), the body of every `options()`. `none` is a panic. -/
def decodeOptions (P G : Schema) (name : Name) (o : Option Bytes) : Option DynMsg :=
  match optionType P G name with
  | none => none
  | some (S, d) =>
    match decode S d (match o with | some b => b | none => []) with
    | .ok m => some m
    | .error _ => none

/-! ### Lemmas -/

theorem groupLoop_rest {σ τ : Type} {tag : Nat} {f : FieldFn σ} {g : FieldFn τ}
    (hfg : ∀ st st' n w b x y r r', f st n w b = .ok (x, r) → g st' n w b = .ok (y, r') → r' = r) :
    ∀ (k k' : Nat) {st : σ} {st' : τ} {b r r' : Bytes} {x : σ} {y : τ},
      groupLoop tag f k st b = .ok (x, r) → groupLoop tag g k' st' b = .ok (y, r') → r' = r := by
  intro k
  induction k with
  | zero => intro k' st st' b r r' x y h; cases h
  | succ k ih =>
    intro k' st st' b r r' x y h h'
    cases k' with
    | zero => cases h'
    | succ k' =>
      unfold groupLoop at h h'
      cases hk : decodeKey b with
      | error e => rw [hk] at h; cases h
      | ok a =>
        obtain ⟨n, w, b1⟩ := a
        rw [hk] at h h'
        simp only at h h'
        by_cases hw : w = .endGroup
        · rw [if_pos hw] at h h'
          split at h
          · cases h
          · rw [if_neg (by assumption)] at h'
            cases h; cases h'; rfl
        · rw [if_neg hw] at h h'
          split at h
          · cases h
          · next s1 b2 hs =>
            split at h'
            · cases h'
            · next s2 b3 hs' =>
              have := hfg _ _ _ _ _ _ _ _ _ hs hs'
              subst this
              exact ih k' h h'

/-- `skip_field` and `UnknownField::decode_value` stop at the same place. -/
theorem skip_dec : ∀ (d : Nat) {w : WireType} {n : Nat} {b r r' : Bytes} {k : Nat} {u : UVal},
    skipField d w n b = .ok r → decUVal k n w b = .ok (u, r') → r' = r := by
  intro d
  induction d with
  | zero => intro w n b r r' k u h; cases h
  | succ d ih =>
    intro w n b r r' k u h h'
    rw [decUVal_eq] at h'
    cases w with
    | varint =>
      simp only [skipField, decUValWith] at h h'
      split at h
      · cases h
      · next hv => rw [hv] at h'; cases h; cases h'; rfl
    | sixtyFourBit =>
      simp only [skipField, decUValWith, getLE] at h h'
      split at h
      · cases h
      · next hv => rw [if_neg hv] at h'; cases h; cases h'; rfl
    | thirtyTwoBit =>
      simp only [skipField, decUValWith, getLE] at h h'
      split at h
      · cases h
      · next hv => rw [if_neg hv] at h'; cases h; cases h'; rfl
    | lengthDelimited =>
      simp only [skipField, decUValWith, getLenDelim] at h h'
      split at h
      · cases h
      · next hv =>
        rw [hv] at h'
        simp only at h'
        split at h
        · cases h
        · next hl => rw [if_neg hl] at h'; cases h; cases h'; rfl
    | startGroup =>
      simp only [skipField, decUValWith, groupMerge, ne_eq, not_true_eq_false, if_false] at h h'
      split at h
      · cases h
      · next x rest hg =>
        cases h
        split at h'
        · cases h'
        · next fs r2 hg' =>
          cases h'
          split at hg'
          · cases hg'
          · next f hf =>
            cases k with
            | zero => cases hf
            | succ k =>
              simp only [Option.some.injEq] at hf
              subst hf
              refine groupLoop_rest ?_ _ _ hg hg'
              intro st st' n w b x y r r' h1 h2
              split at h1
              · cases h1
              · next b' hb' =>
                cases h1
                unfold pushUnknown at h2
                split at h2
                · cases h2
                · next v r3 hd => cases h2; exact ih hb' hd
    | endGroup => cases h

/-- Fields written with `encode_raw` are kept byte for byte. -/
theorem rekey_enc : ∀ (x : USet) {e : Bytes}, (∀ p ∈ x, ValidNumber p.1 ∧ p.2.Wf) → Rekey (encUSet x) e →
    e = encUSet x
  | [], e, _, hR => rekey_short .nil hR
  | (n, u) :: xs, e, hw, hR => by
    obtain ⟨hn, hu⟩ := hw (n, u) List.mem_cons_self
    generalize hb : encUSet ((n, u) :: xs) = b at hR
    simp only [encUSet, encUVal_eq, List.append_assoc] at hb
    cases hR with
    | nil => simp [encodeKey_ne_nil] at hb
    | @cons k c b' e n' w' hk hc hR =>
      obtain ⟨rfl, hb, rfl, rfl⟩ := key_unique (fun t => decode_encode_key hn.1 hn.2 _ t) hk hb
      obtain ⟨c', hc', hs⟩ := skip_split hc
      simp only [List.append_nil] at hc'
      subst hc'
      have h1 := hs b'
      rw [← hb] at h1
      have h2 := skip_dec _ h1 (decUVal_payload u u.depth n (encUSet xs) (Nat.le_refl _) hu hn)
      subst h2
      have h3 := List.append_cancel_right hb
      subst h3
      rw [rekey_enc xs (fun p hp => hw p (List.mem_cons_of_mem _ hp)) hR]

/-- What `set_file_option` stores is what was resolved. -/
theorem store_enc {S : Schema} (hS : S.wf = true) {m : DynMsg} (hm : confMsg S m = true) {b : Bytes}
    (hb : encMsg S m = some b) (hl : b.length < 2 ^ 64) {val : FieldFn T} {v0 v : T} {e : Bytes}
    (h : storeOptions val v0 b = some (e, v)) : e = b := by
  unfold storeOptions at h
  split at h
  · next o ho =>
    cases h
    obtain ⟨x, rfl, hP, -⟩ := encMsg_parsed hS hm (Nat.le_refl _) hb hl
    refine rekey_enc x ?_ (optDecode_ok ho).1
    exact fun p hp => ⟨(hP.wf p hp).1, (hP.wf p hp).2.1⟩
  · cases h

end Verif.Opt
