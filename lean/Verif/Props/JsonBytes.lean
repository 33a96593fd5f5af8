import Verif.Json.Base64Lemmas
import Verif.Dyn.DecEq
/-!
Bytes and base64 (C42).
-/
set_option autoImplicit false
namespace Verif.Props
open Verif.Json Verif.Dyn

/-- The standard base64 alphabet (RFC 4648, table 1). -/
def stdAlphabet : List Char := "ABCDEFGHIJKLMNOPQRSTUVWXYZabcdefghijklmnopqrstuvwxyz0123456789+/".toList
/-- The URL-safe base64 alphabet (RFC 4648, table 2). -/
def urlAlphabet : List Char := "ABCDEFGHIJKLMNOPQRSTUVWXYZabcdefghijklmnopqrstuvwxyz0123456789-_".toList

/-- `s` spells `bs` in an alphabet: a number of symbols that is not one more than a multiple
of four; then no padding, or padding that does not exceed the canonical amount; the bits of
the bytes, eight per byte, are the leading bits of the symbols, six per symbol; and there are
as many bytes as the symbols can fill. -/
def Spells (al : List Char) (s : List Char) (bs : List UInt8) : Prop :=
  ∃ (syms : List Char) (idx : List Nat) (p : Nat),
    s = syms ++ List.replicate p '=' ∧
    syms.map some = idx.map (al[·]?) ∧
    syms.length % 4 ≠ 1 ∧
    (p = 0 ∨ 2 ≤ syms.length % 4 ∧ syms.length % 4 + p ≤ 4) ∧
    bs.length = syms.length * 6 / 8 ∧
    bs.flatMap (fun b => bitsOf 8 b.toNat) = (idx.flatMap (bitsOf 6)).take (8 * bs.length)

theorem char_ascii {c : Char} {n : Nat} (h : c.toNat = n) : c = Char.ofNat n := by
  rw [← h, Char.ofNat_toNat]

theorem index_ascii {a : Char × Char} {c : Char} {i : Nat} (h1 : a.1.toNat < 128) (h2 : a.2.toNat < 128)
    (h : b64Index a c = some i) : c.toNat < 128 := by
  unfold b64Index at h
  split at h
  · omega
  split at h
  · omega
  split at h
  · omega
  split at h
  · rename_i h3; rw [h3]; exact h1
  split at h
  · rename_i h3; rw [h3]; exact h2
  cases h

theorem alphabet_of {a : Char × Char} {al : List Char} (h1 : a.1.toNat < 128) (h2 : a.2.toNat < 128)
    (h3 : ∀ n : Fin 128, ∀ i, b64Index a (Char.ofNat n.val) = some i → al[i]? = some (Char.ofNat n.val))
    (h4 : ∀ i : Fin 64, (al[i.val]?).bind (b64Index a) = some i.val) (h5 : '=' ∉ al) (h6 : al.length = 64) :
    Alphabet a al where
  index c i := by
    constructor
    · intro h
      have hc := index_ascii h1 h2 h
      have := h3 ⟨c.toNat, hc⟩ i
      simp only [Char.ofNat_toNat] at this
      exact this h
    · intro h
      have hi : i < 64 := by rw [← h6]; exact (List.getElem?_eq_some_iff.1 h).1
      have := h4 ⟨i, hi⟩
      rw [h] at this
      exact this
  pad := h5
  len := h6

theorem opt_all {α : Type} {x : Option Nat} {p : Nat → Prop} (h : ∀ y ∈ x.toList, p y) : ∀ i, x = some i → p i := by
  rintro i rfl
  exact h i (by simp)

theorem std_alphabet : Alphabet b64Std stdAlphabet := by
  refine alphabet_of (by decide) (by decide) ?_ (by decide +kernel) (by decide +kernel) (by decide +kernel)
  intro n
  refine opt_all (α := Nat) ?_
  revert n
  decide +kernel

theorem url_alphabet : Alphabet b64Url urlAlphabet := by
  refine alphabet_of (by decide) (by decide) ?_ (by decide +kernel) (by decide +kernel) (by decide +kernel)
  intro n
  refine opt_all (α := Nat) ?_
  revert n
  decide +kernel

theorem dec_spells {a : Char × Char} {al : List Char} (ha : Alphabet a al) (s : List Char) (bs : List UInt8) :
    b64Dec a s = .ok bs ↔ Spells al s bs := by
  rw [dec_iff ha]
  constructor
  · rintro ⟨syms, idx, p, h1, h2, h3, h4, rfl⟩
    have hlen : syms.length = idx.length := by have := congrArg List.length h2; simpa using this
    exact ⟨syms, idx, p, h1, h2, by rwa [hlen], by rwa [hlen], by rw [hlen, bytesOf_length], bytesOf_bits (ha.lt h2)⟩
  · rintro ⟨syms, idx, p, h1, h2, h3, h4, h5, h6⟩
    have hlen : syms.length = idx.length := by have := congrArg List.length h2; simpa using this
    refine ⟨syms, idx, p, h1, h2, by rwa [← hlen], by rwa [← hlen], ?_⟩
    apply bits_bytes
    rw [h6, bytesOf_bits (ha.lt h2), bytesOf_length, h5, hlen]

/-! ### The two alphabets together -/

theorem look_std_of_url {c : Char} {i : Nat} (h : b64Look b64Url c = .ok i) :
    b64Look b64Std c = .ok i ∨ b64Look b64Std c = .error (.invalidByte '-') ∨
      b64Look b64Std c = .error (.invalidByte '_') := by
  unfold b64Look b64Index at *
  by_cases h1 : 65 ≤ c.toNat ∧ c.toNat ≤ 90
  · rw [if_pos h1] at h ⊢; exact Or.inl h
  by_cases h2 : 97 ≤ c.toNat ∧ c.toNat ≤ 122
  · rw [if_neg h1, if_pos h2] at h ⊢; exact Or.inl h
  by_cases h3 : 48 ≤ c.toNat ∧ c.toNat ≤ 57
  · rw [if_neg h1, if_neg h2, if_pos h3] at h ⊢; exact Or.inl h
  rw [if_neg h1, if_neg h2, if_neg h3] at h
  by_cases h4 : c = '-'
  · subst h4; right; left; decide
  by_cases h5 : c = '_'
  · subst h5; right; right; decide
  rw [if_neg (show ¬ c = b64Url.1 from h4), if_neg (show ¬ c = b64Url.2 from h5)] at h
  cases h

/-- The error makes the code try the other alphabet. -/
def Retry {α : Type} (x : Except B64Err α) : Prop := x = .error (.invalidByte '-') ∨ x = .error (.invalidByte '_')

theorem Retry.bind {α β : Type} {x : Except B64Err α} {f : α → Except B64Err β} (h : Retry x) : Retry (x >>= f) := by
  rcases h with h | h
  · left; rw [h]; rfl
  · right; rw [h]; rfl

theorem ok_bind {α β : Type} {x : α} {f : α → Except B64Err β} : ((Except.ok x : Except B64Err α) >>= f) = f x := rfl

theorem bind_ok {α β : Type} {x : Except B64Err α} {f : α → Except B64Err β} {b : β} (h : (x >>= f) = .ok b) :
    ∃ y, x = .ok y ∧ f y = .ok b := by
  cases x with
  | error e => cases h
  | ok y => exact ⟨y, rfl, h⟩

theorem suffix_std_of_url : ∀ (s : List Char) (i : Nat) (pad : Bool) (ms : List Nat),
    b64Suffix b64Url i pad s = .ok ms → b64Suffix b64Std i pad s = .ok ms ∨ Retry (b64Suffix b64Std i pad s)
  | [], i, pad, ms, h => Or.inl h
  | c :: r, i, pad, ms, h => by
    unfold b64Suffix at h ⊢
    by_cases h1 : c = '='
    · rw [if_pos h1] at h ⊢
      by_cases h2 : i < 2
      · rw [if_pos h2] at h; cases h
      · rw [if_neg h2] at h ⊢
        exact suffix_std_of_url r (i + 1) true ms h
    · rw [if_neg h1] at h ⊢
      by_cases h2 : pad = true
      · rw [if_pos h2] at h; cases h
      · rw [if_neg h2] at h ⊢
        obtain ⟨m, hm, h⟩ := bind_ok h
        obtain ⟨ms', hms, h⟩ := bind_ok h
        rcases look_std_of_url hm with e | e
        · rcases suffix_std_of_url r (i + 1) false ms' hms with e' | e'
          · left; rw [e, e']; exact h
          · right; rw [e]; exact Retry.bind (f := fun ms => .ok (m :: ms)) e'
        · right; exact Retry.bind (f := fun m => (b64Suffix b64Std (i + 1) false r >>= fun ms => .ok (m :: ms))) e

theorem dec_std_of_url (s : List Char) (bs : List UInt8) (h : b64Dec b64Url s = .ok bs) :
    b64Dec b64Std s = .ok bs ∨ Retry (b64Dec b64Std s) := by
  fun_induction b64Dec b64Url s generalizing bs with
  | case1 => exact Or.inl h
  | case2 c d e f g r ih =>
    obtain ⟨m, hm, h⟩ := bind_ok h
    obtain ⟨n, hn, h⟩ := bind_ok h
    obtain ⟨o, ho, h⟩ := bind_ok h
    obtain ⟨p, hp, h⟩ := bind_ok h
    obtain ⟨rest, hr, h⟩ := bind_ok h
    unfold b64Dec
    rcases look_std_of_url hm with em | em
    · rw [em, ok_bind]
      rcases look_std_of_url hn with en | en
      · rw [en, ok_bind]
        rcases look_std_of_url ho with eo | eo
        · rw [eo, ok_bind]
          rcases look_std_of_url hp with ep | ep
          · rw [ep, ok_bind]
            rcases ih rest hr with er | er
            · left; rw [er]; exact h
            · right; exact Retry.bind er
          · right; exact Retry.bind ep
        · right; exact Retry.bind eo
      · right; exact Retry.bind en
    · right; exact Retry.bind em
  | case3 s h0 h5 =>
    have e : b64Dec b64Std s = (b64Suffix b64Std 0 false s >>= b64Last) := by
      unfold b64Dec
      split
      · exact absurd rfl h0
      · rename_i c d e f g r; exact absurd rfl (h5 c d e f g r)
      · rfl
    rw [e]
    obtain ⟨ms, hm, h⟩ := bind_ok h
    rcases suffix_std_of_url s 0 false ms hm with e | e
    · left; rw [e]; exact h
    · right; exact Retry.bind e

/-! ### C42 -/

/-- C42: a string is accepted for a bytes field exactly when it spells the bytes in one of the
two alphabets, padded, partly padded or not padded. -/
theorem C42_accepts (s : List Char) (bs : List UInt8) :
    visitBytesStr s = .ok bs ↔ Spells stdAlphabet s bs ∨ Spells urlAlphabet s bs := by
  rw [← dec_spells std_alphabet, ← dec_spells url_alphabet]
  unfold visitBytesStr
  constructor
  · intro h
    cases h1 : b64Dec b64Std s with
    | ok b => rw [h1] at h; cases h; exact Or.inl rfl
    | error e =>
      rw [h1] at h
      dsimp only at h
      split at h
      · cases h2 : b64Dec b64Url s with
        | ok b => rw [h2] at h; cases h; exact Or.inr rfl
        | error e => rw [h2] at h; cases h
      · cases h
  · rintro (h | h)
    · rw [h]
    · rcases dec_std_of_url s bs h with h1 | h1
      · rw [h1]
      · rw [h]
        rcases h1 with h1 | h1 <;> rw [h1] <;> rfl

/-- The symbol indices of the encoder's output. -/
def idxOf : List UInt8 → List Nat
  | [] => []
  | [x] => [x.toNat / 4, x.toNat % 4 * 16]
  | [x, y] => [x.toNat / 4, x.toNat % 4 * 16 + y.toNat / 16, y.toNat % 16 * 4]
  | x :: y :: z :: r =>
    x.toNat / 4 :: (x.toNat % 4 * 16 + y.toNat / 16) :: (y.toNat % 16 * 4 + z.toNat / 64) :: z.toNat % 64 :: idxOf r

theorem ofNat_eq {b : UInt8} {n : Nat} (h : n = b.toNat) : UInt8.ofNat n = b := by rw [h, UInt8.ofNat_toNat]

theorem bytesOf_idxOf (bs : List UInt8) : bytesOf (idxOf bs) = bs := by
  fun_induction idxOf bs with
  | case1 => rfl
  | case2 x => rw [bytesOf, ofNat_eq (b := x) (by omega)]
  | case3 x y =>
    have := y.toNat_lt
    rw [bytesOf, ofNat_eq (b := x) (by omega), ofNat_eq (b := y) (by omega)]
  | case4 x y z r ih =>
    have := y.toNat_lt
    have := z.toNat_lt
    rw [bytesOf, ofNat_eq (b := x) (by omega), ofNat_eq (b := y) (by omega), ofNat_eq (b := z) (by omega), ih]

theorem idxOf_lt (bs : List UInt8) : ∀ i ∈ idxOf bs, i < 64 := by
  fun_induction idxOf bs with
  | case1 => simp
  | case2 x =>
    have := x.toNat_lt
    simp only [List.mem_cons, List.not_mem_nil, or_false]
    omega
  | case3 x y =>
    have := x.toNat_lt
    have := y.toNat_lt
    simp only [List.mem_cons, List.not_mem_nil, or_false]
    omega
  | case4 x y z r ih =>
    have := x.toNat_lt
    have := y.toNat_lt
    have := z.toNat_lt
    intro i hi
    simp only [List.mem_cons] at hi
    rcases hi with hi | hi | hi | hi | hi
    · omega
    · omega
    · omega
    · omega
    · exact ih i hi

theorem enc_eq (a : Char × Char) (bs : List UInt8) : ∃ p, p < 3 ∧ b64Enc a bs = (idxOf bs).map (b64Symbol a) ++
    List.replicate p '=' ∧ ((idxOf bs).length + p) % 4 = 0 := by
  fun_induction idxOf bs with
  | case1 => exact ⟨0, by decide, rfl, rfl⟩
  | case2 x => exact ⟨2, by decide, rfl, by simp⟩
  | case3 x y => exact ⟨1, by decide, rfl, by simp⟩
  | case4 x y z r ih =>
    obtain ⟨p, h1, h2, h3⟩ := ih
    refine ⟨p, h1, by rw [b64Enc, h2]; rfl, ?_⟩
    simp only [List.length_cons]
    omega

theorem symbols {a : Char × Char} {al : List Char} (hs : ∀ i : Fin 64, al[i.val]? = some (b64Symbol a i.val)) (bs : List UInt8) :
    ((idxOf bs).map (b64Symbol a)).map some = (idxOf bs).map (al[·]?) := by
  rw [List.map_map]
  apply List.map_congr_left
  intro i hi
  exact (hs ⟨i, idxOf_lt bs i hi⟩).symm

theorem enc_spells {a : Char × Char} {al : List Char} (ha : Alphabet a al)
    (hs : ∀ i : Fin 64, al[i.val]? = some (b64Symbol a i.val)) (bs : List UInt8) (k p : Nat) (syms : List Char)
    (h : b64Enc a bs = syms ++ List.replicate p '=') (hk : k ≤ p) (hsy : '=' ∉ syms) :
    Spells al (syms ++ List.replicate k '=') bs := by
  obtain ⟨q, h1, h2, h3⟩ := enc_eq a bs
  have hidx : '=' ∉ (idxOf bs).map (b64Symbol a) := by
    intro hm
    obtain ⟨i, hi, he⟩ := List.mem_map.1 hm
    exact ha.ne (hs ⟨i, idxOf_lt bs i hi⟩) he
  have key : ∀ (x y : List Char) (m n : Nat), '=' ∉ x → '=' ∉ y →
      x ++ List.replicate m '=' = y ++ List.replicate n '=' → x = y ∧ m = n := by
    intro x
    induction x with
    | nil =>
      intro y m n _ hy h
      cases y with
      | nil =>
        have := congrArg List.length h
        simpa using this
      | cons c y =>
        cases m with
        | zero => cases h
        | succ m =>
          simp only [List.nil_append, List.replicate_succ, List.cons_append, List.cons.injEq] at h
          exact absurd (h.1 ▸ List.mem_cons_self) hy
    | cons c x ih =>
      intro y m n hx hy h
      cases y with
      | nil =>
        cases n with
        | zero => cases h
        | succ n =>
          simp only [List.nil_append, List.replicate_succ, List.cons_append, List.cons.injEq] at h
          exact absurd (by simp [h.1]) hx
      | cons d y =>
        simp only [List.cons_append, List.cons.injEq] at h
        have := ih y m n (by intro h; exact hx (by simp [h])) (by intro h; exact hy (by simp [h])) h.2
        exact ⟨by rw [h.1, this.1], this.2⟩
  obtain ⟨e1, e2⟩ := key _ _ _ _ hsy hidx (h ▸ h2)
  subst e2 e1
  rw [← dec_spells ha, dec_iff ha]
  refine ⟨_, idxOf bs, k, rfl, symbols hs bs, by omega, by omega, (bytesOf_idxOf bs).symm⟩

/-- C42: what is written spells the bytes with the standard alphabet, padded to a multiple of
four. -/
theorem C42_written (bs : List UInt8) :
    Spells stdAlphabet (b64Enc b64Std bs) bs ∧ (b64Enc b64Std bs).length % 4 = 0 := by
  obtain ⟨q, h1, h2, h3⟩ := enc_eq b64Std bs
  have hs : ∀ i : Fin 64, stdAlphabet[i.val]? = some (b64Symbol b64Std i.val) := by decide +kernel
  constructor
  · rw [h2, ← dec_spells std_alphabet, dec_iff std_alphabet]
    exact ⟨_, idxOf bs, q, rfl, symbols hs bs, by omega, by omega, (bytesOf_idxOf bs).symm⟩
  · rw [h2]; simpa using h3

/-- C42: bytes written to JSON are read back. -/
theorem C42_roundtrip (bs : List UInt8) : visitBytesStr (b64Enc b64Std bs) = .ok bs :=
  (C42_accepts _ _).2 (Or.inl (C42_written bs).1)

/-- C42: the bytes are also read back from the URL-safe alphabet, and in either alphabet with
any part of the padding left out. -/
theorem C42_variants (bs : List UInt8) (a : Char × Char) (ha : a = ('+', '/') ∨ a = ('-', '_')) (k p : Nat)
    (syms : List Char) (h : b64Enc a bs = syms ++ List.replicate p '=') (hsy : '=' ∉ syms) (hk : k ≤ p) :
    visitBytesStr (syms ++ List.replicate k '=') = .ok bs := by
  rw [C42_accepts]
  rcases ha with rfl | rfl
  · exact Or.inl (enc_spells std_alphabet (by decide +kernel) bs k p syms h hk hsy)
  · exact Or.inr (enc_spells url_alphabet (by decide +kernel) bs k p syms h hk hsy)

example : b64Enc b64Std [0xfb, 0xff, 0x00, 0x41] = "+/8AQQ==".toList := by decide +kernel
example : visitBytesStr "-_8AQQ".toList = .ok [0xfb, 0xff, 0x00, 0x41] := by decide +kernel
example : visitBytesStr "+/8AQQ=".toList = .ok [0xfb, 0xff, 0x00, 0x41] := by decide +kernel
example : visitBytesStr "-/8A".toList = .error .err := by decide +kernel
example : visitBytesStr "A".toList = .error .err := by decide +kernel
example : b64Enc ('-', '_') [0xfb, 0xff] = "-_8".toList ++ List.replicate 1 '=' := by decide +kernel

end Verif.Props
