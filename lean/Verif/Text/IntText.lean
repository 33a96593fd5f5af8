import Verif.Text.LexText
import Verif.Text.Parse
/-!
Integer literals: their mathematical value and what the parser makes of them.
-/
set_option autoImplicit false
namespace Verif.Text
open Verif.Wire Verif.Dyn Verif.Pool

/-- The value of a hexadecimal digit, upper or lower case. -/
def digitOf (c : Char) : Nat :=
  if c.toNat ≤ 57 then c.toNat - 48 else if c.toNat ≤ 70 then c.toNat - 55 else c.toNat - 87

/-- The value of digits in positional notation. -/
def posVal (radix : Nat) : List Char → Nat
  | [] => 0
  | c :: r => digitOf c * radix ^ r.length + posVal radix r

/-- The mathematical value of an integer literal with an optional minus sign. -/
def litVal (neg : Bool) (radix : Nat) (ds : List Char) : Int :=
  if neg then -(posVal radix ds : Int) else posVal radix ds

theorem hexDigit_digitOf {c : Char} (h : cHex c = true) : hexDigit c = some (digitOf c) := by
  simp only [cHex, cDigit, Bool.or_eq_true, inR_iff] at h
  unfold hexDigit digitOf
  simp only [cDigit, inR]
  grind

theorem radixFrom_val {radix : Nat} {ds : List Char} (acc : Nat)
    (h : ∀ c ∈ ds, cHex c = true ∧ digitOf c < radix) :
    radixFrom radix acc ds = some (acc * radix ^ ds.length + posVal radix ds) := by
  induction ds generalizing acc with
  | nil => simp [radixFrom, posVal]
  | cons c r ih =>
    obtain ⟨h1, h2⟩ := h c (by simp)
    rw [radixFrom, hexDigit_digitOf h1]
    simp only [h2, if_true]
    rw [ih _ (fun x hx => h x (by simp [hx]))]
    simp only [posVal, List.length_cons, Nat.pow_succ]
    grind

theorem digit_hex {c : Char} (h : cDigit c = true) : cHex c = true ∧ digitOf c < 10 := by
  unfold cDigit at h
  simp only [cHex, cDigit, Bool.or_eq_true, inR_iff] at *
  unfold digitOf
  grind

theorem octal_hex {c : Char} (h : cOctal c = true) : cHex c = true ∧ digitOf c < 8 := by
  unfold cOctal at h
  simp only [cHex, cDigit, Bool.or_eq_true, inR_iff] at *
  unfold digitOf
  grind

theorem hex_lt {c : Char} (h : cHex c = true) : digitOf c < 16 := by
  simp only [cHex, cDigit, Bool.or_eq_true, inR_iff] at h
  unfold digitOf
  grind

/-- The digits of a literal read as its value. -/
theorem IntLit.val {s d : List Char} {x : Nat} (h : IntLit s d x) :
    radixVal x d = some (posVal x d) := by
  have key : d ≠ [] ∧ ∀ c ∈ d, cHex c = true ∧ digitOf c < x := by
    cases h with
    | zero => exact ⟨by simp, by decide⟩
    | dec hc hd =>
      refine ⟨by simp, fun c h => ?_⟩
      rcases List.mem_cons.1 h with rfl | h
      · exact digit_hex (nonzero_digit hc).1
      · exact digit_hex (hd c h)
    | oct hne hd => exact ⟨hne, fun c h => octal_hex (hd c h)⟩
    | hex hx hne hd => exact ⟨hne, fun c h => ⟨hd c h, hex_lt (hd c h)⟩⟩
  obtain ⟨h1, h2⟩ := key
  cases d with
  | nil => exact absurd rfl h1
  | cons c r =>
    show radixFrom x 0 (c :: r) = _
    rw [radixFrom_val 0 h2]
    simp

/-- A signed number is accepted exactly when its value is in range. -/
theorem signedOf_val {w : Nat} (hw : 0 < w) {neg : Bool} {s d : List Char} {x : Nat}
    (h : IntLit s d x) :
    signedOf w neg d x =
      if -(2 ^ (w - 1) : Int) ≤ litVal neg x d ∧ litVal neg x d < 2 ^ (w - 1) then
        some (BitVec.ofInt w (litVal neg x d)) else none := by
  have hp : 2 ^ w = 2 * 2 ^ (w - 1) := by
    obtain ⟨k, rfl⟩ : ∃ k, w = k + 1 := ⟨w - 1, by omega⟩
    rw [Nat.pow_succ]
    simp only [Nat.add_sub_cancel]
    omega
  have hpos : 0 < 2 ^ (w - 1) := Nat.two_pow_pos _
  have hc : ((2 ^ (w - 1) : Nat) : Int) = (2 : Int) ^ (w - 1) := by norm_cast
  unfold signedOf uintRadix litVal
  rw [h.val, ← hc]
  generalize posVal x d = n
  generalize hP : 2 ^ (w - 1) = P at *
  cases neg with
  | false =>
    simp only [Bool.false_eq_true, if_false]
    by_cases hn : n ≤ P - 1
    · rw [if_pos hn, if_pos (by omega)]
      simp only [Option.map_some, BitVec.ofInt_natCast]
    · rw [if_neg hn, if_neg (by omega)]
      rfl
  | true =>
    simp only [if_true]
    by_cases hn : n ≤ P
    · have e1 : n ≤ 2 ^ w - 1 := by omega
      rw [if_pos e1, if_pos (by omega)]
      simp only
      have e2 : BitVec.ofInt w (-(n : Int)) = -(BitVec.ofNat w n) := by
        rw [BitVec.ofInt_neg, BitVec.ofInt_natCast]
      by_cases hn' : n = P - 1 + 1
      · rw [if_pos hn', e2]
        have : n = P := by omega
        subst this
        congr 1
        apply BitVec.eq_of_toNat_eq
        rw [BitVec.toNat_neg, BitVec.toNat_ofNat, hp]
        rw [Nat.mod_eq_of_lt (a := n) (by omega), Nat.mod_eq_of_lt (by omega)]
        omega
      · rw [if_neg hn', if_pos (by omega), e2]
    · by_cases e1 : n ≤ 2 ^ w - 1
      · rw [if_pos e1]
        simp only
        rw [if_neg (by omega), if_neg (by omega), if_neg (by omega)]
      · rw [if_neg e1, if_neg (by omega)]

/-- An unsigned number is accepted exactly when it has no minus sign and is in range. -/
theorem unsignedOf_val {w : Nat} {neg : Bool} {s d : List Char} {x : Nat} (h : IntLit s d x) :
    unsignedOf w neg d x =
      if neg = false ∧ posVal x d < 2 ^ w then some (BitVec.ofNat w (posVal x d)) else none := by
  have hpos : 0 < 2 ^ w := Nat.two_pow_pos _
  unfold unsignedOf uintRadix
  rw [h.val]
  cases neg with
  | true => simp
  | false =>
    simp only [Bool.false_eq_true, if_false]
    by_cases hn : posVal x d < 2 ^ w
    · rw [if_pos (by omega), if_pos (by simpa using hn)]
      rfl
    · rw [if_neg (by omega), if_neg (by simp [hn])]
      rfl

/-- The text of an optional minus sign. -/
def signText (neg : Bool) : List Char := if neg then ['-'] else []

/-- The token of an optional minus sign. -/
def signTok (neg : Bool) : List LTok := if neg then [.tok .minus] else []

theorem lex_signed {fp : List Char → Option (BitVec 64)} {neg : Bool} {s d : List Char} {x : Nat}
    {r : List Char} (hs : IntLit s d x) (h : Stop r) :
    lex fp (signText neg ++ (s ++ r)) = signTok neg ++ (.tok (.int d x) :: lex fp r) := by
  cases neg with
  | false => exact lex_int hs h
  | true =>
    show lex fp ('-' :: (s ++ r)) = _
    rw [lex_punct (t := .minus) rfl (by decide), lex_int hs h]
    rfl

theorem parseInt_signed {neg : Bool} {d : List Char} {x : Nat} {r : List LTok} :
    parseInt (signTok neg ++ (.tok (.int d x) :: r)) = .ok ((neg, d, x), r) := by
  cases neg <;> rfl

/-! ### Printed numbers -/

theorem isDigit_cDigit {c : Char} (h : isDigit c) : cDigit c = true := inR_iff.2 h

theorem posVal_ten {ds : List Char} (h : ∀ c ∈ ds, isDigit c) : posVal 10 ds = placeValue ds := by
  induction ds with
  | nil => rfl
  | cons c r ih =>
    have hc : c.toNat ≤ 57 := (h c (by simp)).2
    rw [posVal, placeValue, ih (fun x hx => h x (by simp [hx])), digitOf, if_pos hc]

theorem decDigits_pos {n : Nat} (h : 0 < n) : ∃ c ds, decDigits n = c :: ds ∧ inR 49 57 c = true := by
  induction n using Nat.strongRecOn with
  | _ n ih =>
    rw [decDigits]
    split
    · next h' =>
      refine ⟨_, _, rfl, ?_⟩
      rw [inR_iff, digitChar_toNat h']
      omega
    · next h' =>
      obtain ⟨c, ds, e, hc⟩ := ih (n / 10) (by omega) (by omega)
      rw [e]
      exact ⟨c, _, rfl, hc⟩

/-- A printed number is a decimal literal. -/
theorem decDigits_lit (n : Nat) : IntLit (decDigits n) (decDigits n) 10 := by
  by_cases h : n = 0
  · subst h
    have : decDigits 0 = ['0'] := by
      rw [decDigits]
      rfl
    rw [this]
    exact .zero
  · obtain ⟨c, ds, e, hc⟩ := decDigits_pos (n := n) (by omega)
    have hd := (decDigits_spec n).2.1
    rw [e] at hd ⊢
    exact .dec hc (fun x hx => isDigit_cDigit (hd x (by simp [hx])))

theorem posVal_decDigits (n : Nat) : posVal 10 (decDigits n) = n := by
  rw [posVal_ten (decDigits_spec n).2.1, (decDigits_spec n).2.2]

/-- A printed integer is a sign and a literal with its value. -/
theorem decInt_lit (v : Int) : ∃ (neg : Bool) (d : List Char), decInt v = signText neg ++ d ∧ IntLit d d 10 ∧
    litVal neg 10 d = v := by
  unfold decInt
  split
  · refine ⟨true, _, rfl, decDigits_lit _, ?_⟩
    rw [litVal, posVal_decDigits]
    simp only [if_true]
    omega
  · refine ⟨false, _, rfl, decDigits_lit _, ?_⟩
    rw [litVal, posVal_decDigits]
    simp only [Bool.false_eq_true, if_false]
    omega

end Verif.Text
