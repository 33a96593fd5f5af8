import Verif.Json.Time
import Verif.Text.Format
import Verif.Dyn.DecEq
/-!
Timestamp strings (C39), the ranges of timestamps and durations (C40), and type URLs (C44).
-/
set_option autoImplicit false
namespace Verif.Props
open Verif.Json Verif.Dyn

/-! ### C39 -/

/-- An ASCII digit. -/
def Digit (b : UInt8) : Prop := 48 ≤ b.toNat ∧ b.toNat ≤ 57
/-- `n` digits. -/
def Digits (n : Nat) (ds : List UInt8) : Prop := ds.length = n ∧ ∀ b ∈ ds, Digit b
/-- The byte of an ASCII character. -/
def ch (c : Char) : UInt8 := UInt8.ofNat c.toNat

/-- `.` and at least one digit, or nothing. -/
def Fraction (f : List UInt8) : Prop := f = [] ∨ ∃ n ds, f = ch '.' :: ds ∧ Digits (n + 1) ds
/-- `Z`, or a sign, two digits, a colon and two digits. -/
def Offset (o : List UInt8) : Prop :=
  o = [ch 'Z'] ∨ ∃ sign h m, (sign = ch '+' ∨ sign = ch '-') ∧ Digits 2 h ∧ Digits 2 m ∧ o = sign :: h ++ ch ':' :: m

/-- `YYYY-MM-DDTHH:MM:SS[.digits](Z|(+|-)HH:MM)` -/
def Timestamp (s : List UInt8) : Prop :=
  ∃ y mo d h mi se f o, Digits 4 y ∧ Digits 2 mo ∧ Digits 2 d ∧ Digits 2 h ∧ Digits 2 mi ∧ Digits 2 se ∧
    Fraction f ∧ Offset o ∧
    s = y ++ ch '-' :: (mo ++ ch '-' :: (d ++ ch 'T' :: (h ++ ch ':' :: (mi ++ ch ':' :: (se ++ (f ++ o))))))

theorem popDigits_iff : ∀ (n : Nat) (s r : List UInt8), popDigits n s = some r ↔ ∃ ds, Digits n ds ∧ s = ds ++ r
  | 0, s, r => by
    unfold popDigits
    constructor
    · intro h; cases h; exact ⟨[], ⟨rfl, by simp⟩, rfl⟩
    · rintro ⟨ds, ⟨h1, _⟩, h3⟩
      have := List.length_eq_zero_iff.1 h1
      subst this
      rw [h3]; rfl
  | n + 1, s, r => by
    unfold popDigits
    cases s with
    | nil =>
      constructor
      · intro h; cases h
      · rintro ⟨ds, ⟨h1, _⟩, h3⟩
        have := (List.append_eq_nil_iff.1 h3.symm).1
        rw [this] at h1; cases h1
    | cons b s =>
      simp only [popDigit]
      constructor
      · intro h
        by_cases hb : 48 ≤ b.toNat ∧ b.toNat ≤ 57
        · rw [if_pos hb] at h
          obtain ⟨ds, ⟨h1, h2⟩, h3⟩ := (popDigits_iff n s r).1 h
          refine ⟨b :: ds, ⟨by simp [h1], ?_⟩, by rw [h3]; rfl⟩
          intro x hx
          rcases List.mem_cons.1 hx with rfl | hx
          · exact hb
          · exact h2 x hx
        · rw [if_neg hb] at h; cases h
      · rintro ⟨ds, ⟨h1, h2⟩, h3⟩
        cases ds with
        | nil => cases h1
        | cons d ds =>
          simp only [List.cons_append, List.cons.injEq] at h3
          obtain ⟨rfl, h3⟩ := h3
          rw [if_pos (show 48 ≤ b.toNat ∧ b.toNat ≤ 57 from h2 b (by simp))]
          exact (popDigits_iff n s r).2 ⟨ds, ⟨by simpa using h1, fun x hx => h2 x (by simp [hx])⟩, h3⟩

theorem popChar_iff {c : Char} (hc : c.toNat < 256) (s r : List UInt8) : popChar c s = some r ↔ s = ch c :: r := by
  have hch : (ch c).toNat = c.toNat := by unfold ch; rw [UInt8.toNat_ofNat']; omega
  cases s with
  | nil => exact ⟨fun h => (by cases h), fun h => (by cases h)⟩
  | cons b s =>
    simp only [popChar]
    constructor
    · intro h
      by_cases hb : b.toNat = c.toNat
      · rw [if_pos hb] at h
        cases h
        rw [show b = ch c from UInt8.toNat.inj (by rw [hb, hch])]
      · rw [if_neg hb] at h; cases h
    · intro h
      cases h
      rw [if_pos hch]

theorem dropDigits_spec (s : List UInt8) : ∃ ds, (∀ b ∈ ds, Digit b) ∧ s = ds ++ dropDigits s ∧
    ∀ b r, dropDigits s = b :: r → ¬ Digit b := by
  induction s with
  | nil => exact ⟨[], by simp, rfl, by intro b r h; cases h⟩
  | cons b s ih =>
    unfold dropDigits
    split
    · rename_i hb
      obtain ⟨ds, h1, h2, h3⟩ := ih
      refine ⟨b :: ds, ?_, by rw [List.cons_append, ← h2], h3⟩
      intro x hx
      rcases List.mem_cons.1 hx with rfl | hx
      · exact hb
      · exact h1 x hx
    · rename_i hb
      refine ⟨[], by simp, rfl, ?_⟩
      intro c r h
      cases h
      exact hb

theorem dropDigits_append {ds r : List UInt8} (h1 : ∀ b ∈ ds, Digit b) (h2 : ∀ b s, r = b :: s → ¬ Digit b) :
    dropDigits (ds ++ r) = r := by
  induction ds with
  | nil =>
    cases r with
    | nil => rfl
    | cons b s =>
      simp only [List.nil_append, dropDigits]
      rw [if_neg (show ¬ (48 ≤ b.toNat ∧ b.toNat ≤ 57) from h2 b s rfl)]
  | cons d ds ih =>
    simp only [List.cons_append, dropDigits]
    rw [if_pos (show 48 ≤ d.toNat ∧ d.toNat ≤ 57 from h1 d (by simp))]
    exact ih (fun b hb => h1 b (by simp [hb]))

theorem popOffset_iff (s r : List UInt8) : popOffset s = some r ↔ ∃ o, Offset o ∧ s = o ++ r := by
  have sgn : ∀ t, ((popDigits 2 t).bind (popChar ':')).bind (popDigits 2) = some r ↔
      ∃ h m, Digits 2 h ∧ Digits 2 m ∧ t = h ++ ch ':' :: (m ++ r) := by
    intro t
    simp only [Option.bind_eq_some_iff, popDigits_iff, popChar_iff (c := ':') (by decide)]
    constructor
    · rintro ⟨a, ⟨b, ⟨h, h1, h2⟩, h3⟩, m, h4, h5⟩
      exact ⟨h, m, h1, h4, by rw [h2, h3, h5]⟩
    · rintro ⟨h, m, h1, h2, h3⟩
      exact ⟨_, ⟨_, ⟨h, h1, h3⟩, rfl⟩, m, h2, rfl⟩
  unfold popOffset
  cases hp : popChar '+' s with
  | some t =>
    have e := (popChar_iff (c := '+') (by decide) s t).1 hp
    subst e
    dsimp only
    rw [sgn]
    constructor
    · rintro ⟨h, m, h1, h2, rfl⟩
      exact ⟨_, Or.inr ⟨ch '+', h, m, Or.inl rfl, h1, h2, rfl⟩, by simp⟩
    · rintro ⟨o, ho, h⟩
      rcases ho with rfl | ⟨sg, h', m, _, h1, h2, rfl⟩
      · cases h
      · simp only [List.cons_append, List.append_assoc, List.cons.injEq] at h
        exact ⟨h', m, h1, h2, h.2⟩
  | none =>
    have np : ∀ t, s ≠ ch '+' :: t := by
      intro t e
      rw [(popChar_iff (c := '+') (by decide) s t).2 e] at hp
      cases hp
    cases hm : popChar '-' s with
    | some t =>
      have e := (popChar_iff (c := '-') (by decide) s t).1 hm
      subst e
      dsimp only
      rw [sgn]
      constructor
      · rintro ⟨h, m, h1, h2, rfl⟩
        exact ⟨_, Or.inr ⟨ch '-', h, m, Or.inr rfl, h1, h2, rfl⟩, by simp⟩
      · rintro ⟨o, ho, h⟩
        rcases ho with rfl | ⟨sg, h', m, _, h1, h2, rfl⟩
        · cases h
        · simp only [List.cons_append, List.append_assoc, List.cons.injEq] at h
          exact ⟨h', m, h1, h2, h.2⟩
    | none =>
      have nm : ∀ t, s ≠ ch '-' :: t := by
        intro t e
        rw [(popChar_iff (c := '-') (by decide) s t).2 e] at hm
        cases hm
      dsimp only
      rw [popChar_iff (c := 'Z') (by decide)]
      constructor
      · intro h; exact ⟨_, Or.inl rfl, h⟩
      · rintro ⟨o, ho, h⟩
        rcases ho with rfl | ⟨sg, h', m, hs, h1, h2, rfl⟩
        · exact h
        · rcases hs with rfl | rfl
          · exact absurd h (np _)
          · exact absurd h (nm _)

theorem offset_head {o r : List UInt8} (h : Offset o) : ∃ b t, o ++ r = b :: t ∧ ¬ Digit b ∧ b ≠ ch '.' := by
  rcases h with rfl | ⟨sg, h, m, hs, _, _, rfl⟩
  · exact ⟨_, _, rfl, by unfold Digit; decide, by decide⟩
  · rcases hs with rfl | rfl
    · exact ⟨_, _, rfl, by unfold Digit; decide, by decide⟩
    · exact ⟨_, _, rfl, by unfold Digit; decide, by decide⟩

theorem popFraction_iff (s r : List UInt8) : (popFraction s).bind popOffset = some r ↔
    ∃ f o, Fraction f ∧ Offset o ∧ s = f ++ (o ++ r) := by
  unfold popFraction
  cases hp : popChar '.' s with
  | none =>
    have np : ∀ t, s ≠ ch '.' :: t := by
      intro t e
      rw [(popChar_iff (c := '.') (by decide) s t).2 e] at hp
      cases hp
    dsimp only [Option.bind_some]
    rw [popOffset_iff]
    constructor
    · rintro ⟨o, h1, h2⟩; exact ⟨[], o, Or.inl rfl, h1, h2⟩
    · rintro ⟨f, o, h1, h2, h3⟩
      rcases h1 with rfl | ⟨n, ds, rfl, _⟩
      · exact ⟨o, h2, h3⟩
      · exact absurd h3 (np _)
  | some t =>
    have e := (popChar_iff (c := '.') (by decide) s t).1 hp
    subst e
    dsimp only
    constructor
    · intro h
      cases t with
      | nil => cases h
      | cons b t =>
        simp only [popDigit] at h
        by_cases hb : 48 ≤ b.toNat ∧ b.toNat ≤ 57
        · rw [if_pos hb] at h
          obtain ⟨ds, h1, h2, h3⟩ := dropDigits_spec t
          obtain ⟨o, h4, h5⟩ := (popOffset_iff (dropDigits t) r).1 h
          refine ⟨ch '.' :: b :: ds, o, Or.inr ⟨ds.length, b :: ds, rfl, by simp, ?_⟩, h4, ?_⟩
          · intro x hx
            rcases List.mem_cons.1 hx with rfl | hx
            · exact hb
            · exact h1 x hx
          · rw [h5] at h2
            rw [h2]; rfl
        · rw [if_neg hb] at h; cases h
    · rintro ⟨f, o, h1, h2, h3⟩
      rcases h1 with rfl | ⟨n, ds, rfl, h1, h4⟩
      · obtain ⟨b, u, h5, _, h6⟩ := offset_head (r := r) h2
        rw [List.nil_append, h5] at h3
        cases h3
        exact absurd rfl h6
      · simp only [List.cons_append, List.cons.injEq, true_and] at h3
        cases ds with
        | nil => cases h1
        | cons d ds =>
          subst h3
          simp only [List.cons_append, popDigit]
          rw [if_pos (show 48 ≤ d.toNat ∧ d.toNat ≤ 57 from h4 d (by simp))]
          simp only [Option.map_some, Option.bind_some]
          rw [dropDigits_append (fun b hb => h4 b (by simp [hb]))]
          · exact (popOffset_iff _ r).2 ⟨o, h2, rfl⟩
          · intro b u e
            obtain ⟨b', u', h5, h6, _⟩ := offset_head (r := r) h2
            rw [h5] at e
            cases e
            exact h6

theorem pop5 {a c d : Nat} {sep : Char} (hsep : sep.toNat < 256) (s r : List UInt8) :
    ((((popDigits a s).bind (popChar sep)).bind (popDigits c)).bind (popChar sep)).bind (popDigits d) = some r ↔
      ∃ x y z, Digits a x ∧ Digits c y ∧ Digits d z ∧ s = x ++ ch sep :: (y ++ ch sep :: (z ++ r)) := by
  simp only [Option.bind_eq_some_iff, popDigits_iff, popChar_iff hsep]
  constructor
  · rintro ⟨a1, ⟨b1, ⟨c1, ⟨d1, ⟨x, hx, rfl⟩, rfl⟩, y, hy, rfl⟩, rfl⟩, z, hz, rfl⟩
    exact ⟨x, y, z, hx, hy, hz, rfl⟩
  · rintro ⟨x, y, z, hx, hy, hz, rfl⟩
    exact ⟨_, ⟨_, ⟨_, ⟨_, ⟨x, hx, rfl⟩, rfl⟩, y, hy, rfl⟩, rfl⟩, z, hz, rfl⟩

/-- C39: a string passes the check exactly when it has the form
`YYYY-MM-DDTHH:MM:SS[.digits](Z|(+|-)HH:MM)`. -/
theorem C39_iff (s : List UInt8) : rfc3339 s = true ↔ Timestamp s := by
  unfold rfc3339
  constructor
  · intro h
    split at h
    · cases h
    · rename_i s1 e1
      obtain ⟨y, mo, d, hy, hmo, hd, rfl⟩ := (pop5 (by decide) _ _).1 e1
      split at h
      · cases h
      · rename_i s2 e2
        have e2 := (popChar_iff (c := 'T') (by decide) _ _).1 e2
        subst e2
        split at h
        · cases h
        · rename_i s3 e3
          obtain ⟨hh, mi, se, h1, h2, h3, rfl⟩ := (pop5 (by decide) _ _).1 e3
          split at h
          · rename_i e4
            obtain ⟨f, o, hf, ho, e⟩ := (popFraction_iff _ _).1 e4
            rw [List.append_nil] at e
            subst e
            exact ⟨y, mo, d, hh, mi, se, f, o, hy, hmo, hd, h1, h2, h3, hf, ho, rfl⟩
          · cases h
  · rintro ⟨y, mo, d, hh, mi, se, f, o, hy, hmo, hd, h1, h2, h3, hf, ho, rfl⟩
    rw [(pop5 (by decide) _ _).2 ⟨y, mo, d, hy, hmo, hd, rfl⟩]
    dsimp only
    rw [(popChar_iff (c := 'T') (by decide) _ _).2 rfl]
    dsimp only
    rw [(pop5 (by decide) _ _).2 ⟨hh, mi, se, h1, h2, h3, rfl⟩]
    dsimp only
    rw [(popFraction_iff _ []).2 ⟨f, o, hf, ho, by rw [List.append_nil]⟩]

example : rfc3339 (utf8Encode "2019-03-26T14:00:00.4999+10:00".toList) = true := by decide +kernel
example : rfc3339 (utf8Encode "2019-03-26T14:00:00.Z".toList) = false := by decide +kernel
example : rfc3339 (utf8Encode "2019-03-26t14:00:00Z".toList) = false := by decide +kernel
example : rfc3339 (utf8Encode "9999-99-99T99:99:99Z".toList) = true := by decide +kernel

/-! ### C40 -/

/-- C40: a duration passes the check exactly when its seconds are within ±315576000000 and its
nanoseconds within ±999999999. -/
theorem C40_duration (s : BitVec 64) (n : BitVec 32) : checkDuration s n = true ↔
    -315576000000 ≤ s.toInt ∧ s.toInt ≤ 315576000000 ∧ -999999999 ≤ n.toInt ∧ n.toInt ≤ 999999999 := by
  unfold checkDuration unsignedAbs
  simp only [Bool.not_eq_true', Bool.or_eq_false_iff, decide_eq_false_iff_not]
  omega

/-- C40, partial: a timestamp passes the check exactly when its seconds are those of a time from
the start of year 1 to the end of year 9999.  Missing: the nanoseconds are not checked, see
`C40_nanos_false`. -/
theorem C40_timestamp_partial (s : BitVec 64) (n : BitVec 32) : checkTimestamp s n = true ↔
    -62135596800 ≤ s.toInt ∧ s.toInt ≤ 253402300799 := by
  unfold checkTimestamp
  simp only [Bool.not_eq_true', Bool.or_eq_false_iff, decide_eq_false_iff_not]
  omega

/-- C40 fails: nanoseconds outside the documented range 0 to 999999999 pass, so do the last
second's with an overflowing number of them, which is a time in year 10000; and a duration may
have seconds and nanoseconds of opposite signs. -/
theorem C40_nanos_false :
    checkTimestamp 0#64 (BitVec.ofInt 32 (-1)) = true ∧
    checkTimestamp (BitVec.ofInt 64 253402300799) 1000000000#32 = true ∧
    checkDuration 1#64 (BitVec.ofInt 32 (-1)) = true := by decide +kernel

example : checkDuration (BitVec.intMin 64) 0#32 = false := by decide +kernel
example : checkDuration (BitVec.ofInt 64 (-315576000000)) (BitVec.ofInt 32 (-999999999)) = true := by decide +kernel
example : checkTimestamp (BitVec.ofInt 64 (-62135596801)) 0#32 = false := by decide +kernel

/-! ### C44 -/

theorem take_slash (l : List Char) : '/' ∉ l.takeWhile (fun c => decide (c ≠ '/')) ∧
    ('/' ∈ l → ∃ t, l = l.takeWhile (fun c => decide (c ≠ '/')) ++ '/' :: t) := by
  induction l with
  | nil => simp
  | cons x l ih =>
    by_cases hx : x = '/'
    · subst hx
      refine ⟨by simp, fun _ => ⟨l, by simp⟩⟩
    · rw [List.takeWhile_cons_of_pos (by simpa using hx)]
      refine ⟨?_, ?_⟩
      · intro h
        rcases List.mem_cons.1 h with h | h
        · exact hx h.symm
        · exact ih.1 h
      · intro h
        rcases List.mem_cons.1 h with h | h
        · exact absurd h.symm hx
        · obtain ⟨t, ht⟩ := ih.2 h
          exact ⟨t, by rw [List.cons_append, ← ht]⟩

/-- C44: the message name is the part after the last slash. -/
theorem C44_name (url n : List Char) :
    Text.urlName url = some n ↔ ∃ pre, url = pre ++ '/' :: n ∧ '/' ∉ n := by
  unfold Text.urlName
  constructor
  · intro h
    split at h
    · rename_i hc
      cases h
      obtain ⟨h1, h2⟩ := take_slash url.reverse
      obtain ⟨t, ht⟩ := h2 (by simpa using hc)
      refine ⟨t.reverse, ?_, by simpa only [List.mem_reverse] using h1⟩
      have := congrArg List.reverse ht
      rw [List.reverse_reverse, List.reverse_append] at this
      simpa only [List.reverse_cons, List.append_assoc, List.singleton_append] using this
    · cases h
  · rintro ⟨pre, rfl, hn⟩
    rw [if_pos (by simp)]
    have e : (pre ++ '/' :: n).reverse = n.reverse ++ '/' :: pre.reverse := by simp
    rw [e]
    have : (n.reverse ++ '/' :: pre.reverse).takeWhile (fun c => decide (c ≠ '/')) = n.reverse := by
      rw [List.takeWhile_append_of_pos]
      · simp
      · intro c hc
        have : c ≠ '/' := by rintro rfl; exact hn (by simpa using hc)
        simpa using this
    rw [this, List.reverse_reverse]

/-- C44: a URL is rejected exactly when it has no slash. -/
theorem C44_rejected (url : List Char) : Text.urlName url = none ↔ '/' ∉ url := by
  unfold Text.urlName
  split
  · rename_i h
    simp only [List.contains_iff_mem] at h
    simp [h]
  · rename_i h
    simp only [List.contains_iff_mem] at h
    simp [h]

example : Text.urlName "type.googleapis.com/my.messages.Message".toList = some "my.messages.Message".toList := by
  decide +kernel
example : Text.urlName "a/b/".toList = some [] := by decide +kernel

end Verif.Props
