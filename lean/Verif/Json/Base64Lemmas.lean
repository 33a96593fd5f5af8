import Verif.Json.Base64
/-!
What `b64Dec` accepts and yields.
-/
set_option autoImplicit false
namespace Verif.Json

/-- The `k` low bits of a number, the most significant first. -/
def bitsOf (k n : Nat) : List Bool := (List.range k).map (fun i => n.testBit (k - 1 - i))

/-- The number with the given bits. -/
def ofBits (bs : List Bool) : Nat := bs.foldl (fun n b => 2 * n + b.toNat) 0

theorem bitsOf_length (k n : Nat) : (bitsOf k n).length = k := by simp [bitsOf]

/-- The bytes of a sequence of symbol indices; bits that do not fill a byte are dropped. -/
def bytesOf : List Nat → List UInt8
  | m :: n :: o :: p :: r =>
    UInt8.ofNat (m * 4 + n / 16) :: UInt8.ofNat (n % 16 * 16 + o / 4) :: UInt8.ofNat (o % 4 * 64 + p) :: bytesOf r
  | [m, n, o] => [UInt8.ofNat (m * 4 + n / 16), UInt8.ofNat (n % 16 * 16 + o / 4)]
  | [m, n] => [UInt8.ofNat (m * 4 + n / 16)]
  | _ => []

theorem bits_first : ∀ m n : Fin 64,
    bitsOf 8 (UInt8.ofNat (m.val * 4 + n.val / 16)).toNat = bitsOf 6 m.val ++ (bitsOf 6 n.val).take 2 := by decide +kernel
theorem bits_second : ∀ m n : Fin 64,
    bitsOf 8 (UInt8.ofNat (m.val % 16 * 16 + n.val / 4)).toNat = (bitsOf 6 m.val).drop 2 ++ (bitsOf 6 n.val).take 4 := by
  decide +kernel
theorem bits_third : ∀ m n : Fin 64,
    bitsOf 8 (UInt8.ofNat (m.val % 4 * 64 + n.val)).toNat = (bitsOf 6 m.val).drop 4 ++ bitsOf 6 n.val := by
  decide +kernel

theorem bits_byte {b c : UInt8} (h : bitsOf 8 b.toNat = bitsOf 8 c.toNat) : b = c := by
  have key : ∀ x : Fin 256, ofBits (bitsOf 8 x.val) = x.val := by decide +kernel
  have e : b.toNat = c.toNat := by
    have h1 := key ⟨b.toNat, b.toNat_lt⟩
    have h2 := key ⟨c.toNat, c.toNat_lt⟩
    simp only at h1 h2
    rw [← h1, ← h2, h]
  exact UInt8.toNat.inj e

theorem bits_bytes : ∀ {b c : List UInt8},
    b.flatMap (fun x => bitsOf 8 x.toNat) = c.flatMap (fun x => bitsOf 8 x.toNat) → b = c
  | [], [], _ => rfl
  | [], y :: c, h => by
    have := congrArg List.length h
    simp [bitsOf_length] at this
    omega
  | x :: b, [], h => by
    have := congrArg List.length h
    simp [bitsOf_length] at this
  | x :: b, y :: c, h => by
    simp only [List.flatMap_cons] at h
    obtain ⟨h1, h2⟩ := List.append_inj h (by simp [bitsOf_length])
    rw [bits_byte h1, bits_bytes h2]

theorem bytesOf_length : ∀ (idx : List Nat), (bytesOf idx).length = idx.length * 6 / 8 := by
  intro idx
  fun_induction bytesOf idx with
  | case1 m n o p r ih => simp only [List.length_cons, ih]; omega
  | case2 | case3 => simp
  | case4 x h1 h2 h3 =>
    match x, h1, h2, h3 with
    | [], _, _, _ => simp
    | [_], _, _, _ => simp
    | [a, b], _, _, h => exact absurd rfl (h a b)
    | [a, b, c], _, h, _ => exact absurd rfl (h a b c)
    | a :: b :: c :: d :: r, h, _, _ => exact absurd rfl (h a b c d r)

theorem take_drop_append {α : Type} (k : Nat) (q z : List α) : q.take k ++ (q.drop k ++ z) = q ++ z := by
  rw [← List.append_assoc, List.take_append_drop]

/-- The bits of the bytes are the leading bits of the symbols. -/
theorem bytesOf_bits {idx : List Nat} (h : ∀ i ∈ idx, i < 64) :
    (bytesOf idx).flatMap (fun x => bitsOf 8 x.toNat) =
      (idx.flatMap (bitsOf 6)).take (8 * (bytesOf idx).length) := by
  revert h
  fun_induction bytesOf idx with
  | case1 m n o p r ih =>
    intro h
    have hm := h m (by simp)
    have hn := h n (by simp)
    have ho := h o (by simp)
    have hp := h p (by simp)
    have ih := ih (fun i hi => h i (by simp [hi]))
    simp only [List.flatMap_cons, List.length_cons, ih]
    rw [bits_first ⟨m, hm⟩ ⟨n, hn⟩, bits_second ⟨n, hn⟩ ⟨o, ho⟩, bits_third ⟨o, ho⟩ ⟨p, hp⟩]
    have e : 8 * ((bytesOf r).length + 1 + 1 + 1) = 24 + 8 * (bytesOf r).length := by omega
    have l4 : (bitsOf 6 m ++ (bitsOf 6 n ++ (bitsOf 6 o ++ bitsOf 6 p))).length = 24 := by simp [bitsOf_length]
    have assoc : bitsOf 6 m ++ (bitsOf 6 n ++ (bitsOf 6 o ++ (bitsOf 6 p ++ r.flatMap (bitsOf 6)))) =
        (bitsOf 6 m ++ (bitsOf 6 n ++ (bitsOf 6 o ++ bitsOf 6 p))) ++ r.flatMap (bitsOf 6) := by simp
    rw [assoc, e, ← l4, List.take_length_add_append]
    simp only [List.append_assoc, take_drop_append]
  | case2 m n o =>
    intro h
    have hm := h m (by simp)
    have hn := h n (by simp)
    have ho := h o (by simp)
    simp only [List.flatMap_cons, List.length_cons, List.flatMap_nil, List.length_nil, List.append_nil]
    rw [bits_first ⟨m, hm⟩ ⟨n, hn⟩, bits_second ⟨n, hn⟩ ⟨o, ho⟩]
    have e : bitsOf 6 m ++ (bitsOf 6 n).take 2 ++ ((bitsOf 6 n).drop 2 ++ (bitsOf 6 o).take 4) =
        (bitsOf 6 m ++ bitsOf 6 n) ++ (bitsOf 6 o).take 4 := by
      simp only [List.append_assoc, take_drop_append]
    have l : (bitsOf 6 m ++ bitsOf 6 n).length = 12 := by simp [bitsOf_length]
    rw [e, ← List.append_assoc, show 8 * (0 + 1 + 1) = (bitsOf 6 m ++ bitsOf 6 n).length + 4 by rw [l],
      List.take_length_add_append]
  | case3 m n =>
    intro h
    have hm := h m (by simp)
    have hn := h n (by simp)
    simp only [List.flatMap_cons, List.length_cons, List.flatMap_nil, List.length_nil, List.append_nil]
    rw [bits_first ⟨m, hm⟩ ⟨n, hn⟩, show 8 * (0 + 1) = (bitsOf 6 m).length + 2 by rw [bitsOf_length],
      List.take_length_add_append]
  | case4 => intro _; simp

/-! ### Symbols -/

/-- What is needed to know about an alphabet. -/
structure Alphabet (a : Char × Char) (al : List Char) : Prop where
  index : ∀ c i, b64Index a c = some i ↔ al[i]? = some c
  pad : '=' ∉ al
  len : al.length = 64

theorem Alphabet.look {a : Char × Char} {al : List Char} (ha : Alphabet a al) {c : Char} {i : Nat} :
    b64Look a c = .ok i ↔ al[i]? = some c := by
  rw [← ha.index]
  unfold b64Look
  cases h : b64Index a c with
  | none => exact ⟨fun h => (by cases h), fun h => (by cases h)⟩
  | some j =>
    constructor
    · intro h; cases h; rfl
    · intro h; cases h; rfl

theorem Alphabet.ne {a : Char × Char} {al : List Char} (ha : Alphabet a al) {c : Char} {i : Nat}
    (h : al[i]? = some c) : c ≠ '=' := by
  rintro rfl
  exact ha.pad (List.mem_of_getElem? h)

theorem Alphabet.lt {a : Char × Char} {al : List Char} (ha : Alphabet a al) {syms : List Char} {idx : List Nat}
    (h : syms.map some = idx.map (al[·]?)) : ∀ i ∈ idx, i < 64 := by
  intro i hi
  have : al[i]? ∈ idx.map (al[·]?) := List.mem_map_of_mem hi
  rw [← h, List.mem_map] at this
  obtain ⟨c, _, hc⟩ := this
  have := (List.getElem?_eq_some_iff.1 hc.symm).1
  rw [← ha.len]; exact this

theorem suffix_iff {a : Char × Char} {al : List Char} (ha : Alphabet a al) : ∀ (s : List Char) (i : Nat) (pad : Bool)
    (ms : List Nat), (pad = true → 2 ≤ i) → (b64Suffix a i pad s = .ok ms ↔
      ∃ syms p, s = syms ++ List.replicate p '=' ∧ syms.map some = ms.map (al[·]?) ∧ (p = 0 ∨ 2 ≤ i + ms.length) ∧
        (pad = true → ms = [])) := by
  intro s
  induction s with
  | nil =>
    intro i pad ms _
    unfold b64Suffix
    constructor
    · intro h; cases h
      exact ⟨[], 0, rfl, rfl, Or.inl rfl, fun _ => rfl⟩
    · rintro ⟨syms, p, h1, h2, _, _⟩
      have h1 := List.append_eq_nil_iff.1 h1.symm
      rw [h1.1] at h2
      have : ms = [] := by cases ms with
        | nil => rfl
        | cons _ _ => cases h2
      rw [this]
  | cons c r ih =>
    intro i pad ms hpad
    unfold b64Suffix
    by_cases hc : c = '='
    · rw [if_pos hc]
      by_cases hi : i < 2
      · rw [if_pos hi]
        constructor
        · intro h; cases h
        · rintro ⟨syms, p, h1, h2, h3, h4⟩
          subst hc
          cases syms with
          | nil =>
            have hms : ms = [] := by cases ms with
              | nil => rfl
              | cons _ _ => cases h2
            subst hms
            rcases h3 with h3 | h3
            · subst h3; cases h1
            · simp at h3; omega
          | cons x xs =>
            cases ms with
            | nil => cases h2
            | cons m ms =>
              simp only [List.map_cons, List.cons.injEq] at h2
              simp only [List.cons_append, List.cons.injEq] at h1
              exact absurd h1.1.symm (ha.ne h2.1.symm)
      · rw [if_neg hi, ih (i + 1) true ms (fun _ => by omega)]
        subst hc
        constructor
        · rintro ⟨syms, p, h1, h2, h3, h4⟩
          have hms := h4 rfl
          subst hms
          have hs : syms = [] := by cases syms with
            | nil => rfl
            | cons _ _ => cases h2
          subst hs
          refine ⟨[], p + 1, by rw [h1]; rfl, rfl, Or.inr (by simp; omega), fun _ => rfl⟩
        · rintro ⟨syms, p, h1, h2, h3, h4⟩
          cases syms with
          | nil =>
            have hms : ms = [] := by cases ms with
              | nil => rfl
              | cons _ _ => cases h2
            subst hms
            cases p with
            | zero => cases h1
            | succ p =>
              simp only [List.nil_append, List.replicate_succ, List.cons.injEq, true_and] at h1
              exact ⟨[], p, h1, rfl, Or.inr (by simp; omega), fun _ => rfl⟩
          | cons x xs =>
            cases ms with
            | nil => cases h2
            | cons m ms =>
              simp only [List.map_cons, List.cons.injEq] at h2
              simp only [List.cons_append, List.cons.injEq] at h1
              exact absurd h1.1.symm (ha.ne h2.1.symm)
    · rw [if_neg hc]
      have syms_ne : ∀ syms p, c :: r = syms ++ List.replicate p '=' → ∃ xs, syms = c :: xs ∧ r = xs ++ List.replicate p '=' := by
        intro syms p h
        cases syms with
        | nil =>
          cases p with
          | zero => cases h
          | succ p =>
            simp only [List.nil_append, List.replicate_succ, List.cons.injEq] at h
            exact absurd h.1 hc
        | cons x xs =>
          simp only [List.cons_append, List.cons.injEq] at h
          exact ⟨xs, by rw [h.1], h.2⟩
      by_cases hp : pad = true
      · rw [if_pos hp]
        constructor
        · intro h; cases h
        · rintro ⟨syms, p, h1, h2, h3, h4⟩
          obtain ⟨xs, rfl, _⟩ := syms_ne syms p h1
          rw [h4 hp] at h2
          cases h2
      · rw [if_neg hp]
        constructor
        · intro h
          cases hl : b64Look a c with
          | error e => rw [hl] at h; cases h
          | ok m =>
            rw [hl] at h
            cases hs : b64Suffix a (i + 1) false r with
            | error e => rw [hs] at h; cases h
            | ok ms' =>
              rw [hs] at h
              cases h
              obtain ⟨syms, p, h1, h2, h3, h4⟩ := (ih (i + 1) false ms' (by simp)).1 hs
              refine ⟨c :: syms, p, by rw [h1]; rfl, ?_, ?_, fun h => absurd h hp⟩
              · simp only [List.map_cons, h2, ha.look.1 hl]
              · rcases h3 with h3 | h3
                · exact Or.inl h3
                · right; simp only [List.length_cons]; omega
        · rintro ⟨syms, p, h1, h2, h3, h4⟩
          obtain ⟨xs, rfl, hr⟩ := syms_ne syms p h1
          cases ms with
          | nil => cases h2
          | cons m ms' =>
            simp only [List.map_cons, List.cons.injEq] at h2
            have := (ih (i + 1) false ms' (by simp)).2 ⟨xs, p, hr, h2.2, (by
              rcases h3 with h3 | h3
              · exact Or.inl h3
              · right; simp only [List.length_cons] at h3; omega), by simp⟩
            rw [ha.look.2 h2.1.symm, this]
            rfl

theorem last_iff {ms : List Nat} {bs : List UInt8} (hl : ms.length ≤ 4) :
    b64Last ms = .ok bs ↔ 2 ≤ ms.length ∧ bs = bytesOf ms := by
  match ms, hl with
  | [], _ => simp [b64Last]
  | [a], _ => simp [b64Last]
  | [a, b], _ => simp [b64Last, bytesOf, eq_comm]
  | [a, b, c], _ => simp [b64Last, bytesOf, eq_comm]
  | [a, b, c, d], _ => simp [b64Last, bytesOf, eq_comm]
  | _ :: _ :: _ :: _ :: _ :: _, h => simp at h

/-- What the decoder accepts and yields. -/
theorem dec_iff {a : Char × Char} {al : List Char} (ha : Alphabet a al) (s : List Char) (bs : List UInt8) :
    b64Dec a s = .ok bs ↔ ∃ syms idx p, s = syms ++ List.replicate p '=' ∧ syms.map some = idx.map (al[·]?) ∧
      idx.length % 4 ≠ 1 ∧ (p = 0 ∨ 2 ≤ idx.length % 4 ∧ idx.length % 4 + p ≤ 4) ∧ bs = bytesOf idx := by
  fun_induction b64Dec a s generalizing bs with
  | case1 =>
    constructor
    · intro h; cases h
      exact ⟨[], [], 0, rfl, rfl, by simp, Or.inl rfl, rfl⟩
    · rintro ⟨syms, idx, p, h1, h2, _, _, h5⟩
      have h1 := List.append_eq_nil_iff.1 h1.symm
      rw [h1.1] at h2
      have : idx = [] := by cases idx with
        | nil => rfl
        | cons _ _ => cases h2
      rw [h5, this]; rfl
  | case2 c d e f g r ih =>
    constructor
    · intro h
      cases hc : b64Look a c with
      | error e => rw [hc] at h; cases h
      | ok m =>
        cases hd : b64Look a d with
        | error e => rw [hc, hd] at h; cases h
        | ok n =>
          cases he : b64Look a e with
          | error e => rw [hc, hd, he] at h; cases h
          | ok o =>
            cases hf : b64Look a f with
            | error e => rw [hc, hd, he, hf] at h; cases h
            | ok p =>
              cases hr : b64Dec a (g :: r) with
              | error e => rw [hc, hd, he, hf, hr] at h; cases h
              | ok rest =>
                rw [hc, hd, he, hf, hr] at h
                cases h
                obtain ⟨syms, idx, k, h1, h2, h3, h4, h5⟩ := (ih rest).1 hr
                refine ⟨c :: d :: e :: f :: syms, m :: n :: o :: p :: idx, k, by rw [h1]; rfl, ?_, ?_, ?_, by rw [h5]; rfl⟩
                · simp only [List.map_cons, h2, ha.look.1 hc, ha.look.1 hd, ha.look.1 he, ha.look.1 hf]
                · simp only [List.length_cons]; omega
                · simp only [List.length_cons]; omega
    · rintro ⟨syms, idx, k, h1, h2, h3, h4, h5⟩
      have hlen : syms.length = idx.length := by have := congrArg List.length h2; simpa using this
      have hl := congrArg List.length h1
      simp only [List.length_cons, List.length_append, List.length_replicate] at hl
      match syms, idx, h2, hlen with
      | s1 :: s2 :: s3 :: s4 :: syms, m :: n :: o :: p :: idx, h2, hlen =>
        simp only [List.map_cons, List.cons.injEq] at h2
        simp only [List.cons_append, List.cons.injEq] at h1
        obtain ⟨rfl, rfl, rfl, rfl, h1⟩ := h1
        simp only [List.length_cons] at h3 h4
        have := (ih (bytesOf idx)).2 ⟨syms, idx, k, h1, h2.2.2.2.2, by omega, by omega, rfl⟩
        rw [ha.look.2 h2.1.symm, ha.look.2 h2.2.1.symm, ha.look.2 h2.2.2.1.symm, ha.look.2 h2.2.2.2.1.symm, this, h5]
        rfl
      | [], idx, _, hlen => simp at hlen; rw [← hlen] at h4; simp at h4 hl; omega
      | [_], idx, _, hlen => simp at hlen; rw [← hlen] at h3; simp at h3
      | [_, _], idx, _, hlen => simp at hlen; rw [← hlen] at h4; simp at h4 hl; omega
      | [_, _, _], idx, _, hlen => simp at hlen; rw [← hlen] at h4; simp at h4 hl; omega
  | case3 s h0 h5 =>
    have hne : s ≠ [] := fun h => h0 h
    have hl : s.length ≤ 4 := by
      match s, h5 with
      | [], _ => simp
      | [_], _ => simp
      | [_, _], _ => simp
      | [_, _, _], _ => simp
      | [_, _, _, _], _ => simp
      | a :: b :: c :: d :: e :: r, h => exact absurd rfl (h a b c d e r)
    have hs := fun ms => suffix_iff ha s 0 false ms (by simp)
    constructor
    · intro h
      cases hm : b64Suffix a 0 false s with
      | error e => rw [hm] at h; cases h
      | ok ms =>
        rw [hm] at h
        change b64Last ms = .ok bs at h
        obtain ⟨syms, p, h1, h2, h3, _⟩ := (hs ms).1 hm
        have hlen : syms.length = ms.length := by have := congrArg List.length h2; simpa using this
        have hl' := congrArg List.length h1
        simp only [List.length_append, List.length_replicate] at hl'
        obtain ⟨h6, h7⟩ := (last_iff (by omega)).1 h
        refine ⟨syms, ms, p, h1, h2, by omega, by omega, h7⟩
    · rintro ⟨syms, idx, p, h1, h2, h3, h4, h6⟩
      have hlen : syms.length = idx.length := by have := congrArg List.length h2; simpa using this
      have hl' := congrArg List.length h1
      simp only [List.length_append, List.length_replicate] at hl'
      have hpos : 0 < s.length := List.length_pos_iff.2 hne
      have := (hs idx).2 ⟨syms, p, h1, h2, by omega, by simp⟩
      rw [this]
      exact (last_iff (by omega)).2 ⟨by omega, h6⟩

end Verif.Json
