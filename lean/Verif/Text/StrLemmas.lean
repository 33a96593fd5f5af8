import Verif.Text.LexLemmas
import Verif.Text.Format
/-!
Printed string literals read back.
-/
set_option autoImplicit false
namespace Verif.Text
open Verif.Wire Verif.Dyn Verif.Pool

/-- The three ways a byte is printed, each with what makes it read back. -/
def byteCase (b : UInt8) : Bool :=
  match fmtByte b with
  | ['\\', c] => charEscape c == some b
  | ['\\', c1, c2, c3] =>
    charEscape c1 == none && cOctal c1 && cOctal c2 && cOctal c3 &&
      radixVal 8 [c1, c2, c3] == some b.toNat
  | [c] => c != '\\' && c != '"' && c.toNat != 0 && c != '\n' && utf8EncodeChar c == [b]
  | _ => false

theorem byteCase_all (b : UInt8) : byteCase b = true := by
  have h : ∀ n : Fin 256, byteCase (UInt8.ofNat n.val) = true := by decide +kernel
  have := h ⟨b.toNat, b.toNat_lt⟩
  simpa using this

theorem escape_char {c : Char} {b : UInt8} (h : charEscape c = some b) (r : List Char) :
    escape (c :: r) = some ([b], r) := by
  simp only [escape, h]

theorem escape_octal {c1 c2 c3 : Char} {n : Nat} (h0 : charEscape c1 = none) (h1 : cOctal c1 = true)
    (h2 : cOctal c2 = true) (h3 : cOctal c3 = true) (h : radixVal 8 [c1, c2, c3] = some n)
    (hn : n < 256) (r : List Char) :
    escape (c1 :: c2 :: c3 :: r) = some ([UInt8.ofNat n], r) := by
  have e : upTo 3 cOctal (c1 :: c2 :: c3 :: r) = [c1, c2, c3] := by
    simp [upTo, List.takeWhile_cons, h1, h2, h3]
  simp only [escape, h0, h1, if_true, e, h, if_pos hn]
  rfl

/-- One printed byte is read back as that byte. -/
theorem strN_byte (b : UInt8) (n : Nat) (r : List Char) :
    strN '"' (n + 1) (fmtByte b ++ r) =
      match strN '"' n r with
      | some (bs, r') => some (b :: bs, r')
      | none => none := by
  have h := byteCase_all b
  unfold byteCase at h
  split at h
  · rename_i c heq
    rw [heq]
    simp only [beq_iff_eq] at h
    show strN '"' (n + 1) ('\\' :: c :: r) = _
    rw [strN, if_pos rfl, escape_char h]
    rfl
  · rename_i c1 c2 c3 heq
    rw [heq]
    simp only [Bool.and_eq_true, beq_iff_eq] at h
    obtain ⟨⟨⟨⟨h0, h1⟩, h2⟩, h3⟩, h4⟩ := h
    show strN '"' (n + 1) ('\\' :: c1 :: c2 :: c3 :: r) = _
    rw [strN, if_pos rfl, escape_octal h0 h1 h2 h3 h4 b.toNat_lt]
    simp only [UInt8.ofNat_toNat, List.cons_append, List.nil_append]
    cases strN '"' n r <;> rfl
  · rename_i c heq
    rw [heq]
    simp only [Bool.and_eq_true, beq_iff_eq, bne_iff_ne, ne_eq] at h
    obtain ⟨⟨⟨⟨h0, h1⟩, h2⟩, h3⟩, h4⟩ := h
    show strN '"' (n + 1) (c :: r) = _
    rw [strN, if_neg h0, if_neg h1, if_neg (by simp [h2, h3]), h4]
    rfl
  · cases h

theorem fmtByte_pos (b : UInt8) : 0 < (fmtByte b).length := by
  unfold fmtByte
  repeat' split
  all_goals simp

theorem fmtBytes_len (b : Bytes) : b.length ≤ (fmtBytes b).length := by
  induction b with
  | nil => simp [fmtBytes]
  | cons x b ih =>
    have := fmtByte_pos x
    simp only [fmtBytes, List.length_append, List.length_cons]
    omega

theorem strN_bytes (b : Bytes) (n : Nat) (r : List Char) :
    strN '"' (b.length + n) (fmtBytes b ++ r) =
      match strN '"' n r with
      | some (bs, r') => some (b ++ bs, r')
      | none => none := by
  induction b with
  | nil =>
    simp only [fmtBytes, List.nil_append, List.length_nil, Nat.zero_add]
    split <;> rename_i h <;> simp [h]
  | cons x b ih =>
    have e : (x :: b).length + n = (b.length + n) + 1 := by simp only [List.length_cons]; omega
    rw [e]
    simp only [fmtBytes, List.append_assoc]
    rw [strN_byte, ih]
    split <;> rename_i h
    · simp only [List.cons_append]
      split at h
      · cases h
        simp
      · cases h
    · split at h
      · cases h
      · rfl

/-- The body of a printed literal and its closing quote read back as the bytes. -/
theorem lexStr_fmt (b : Bytes) (r : List Char) :
    lexStr '"' (fmtBytes b ++ '"' :: r) = some (b, r) := by
  obtain ⟨k, hk⟩ : ∃ k, (fmtBytes b ++ '"' :: r).length + 1 = b.length + (k + 1) := by
    have := fmtBytes_len b
    refine ⟨(fmtBytes b ++ '"' :: r).length - b.length, ?_⟩
    simp only [List.length_append, List.length_cons]
    omega
  unfold lexStr
  rw [hk, strN_bytes, strN, if_neg (by decide), if_pos rfl]
  simp

/-- A printed literal is one token, whatever follows. -/
theorem lex_fmtString (fp : List Char → Option (BitVec 64)) (b : Bytes) (r : List Char) :
    lex fp (fmtString b ++ r) = .tok (.str b) :: lex fp r := by
  apply lex_tok
  have e : fmtString b ++ r = '"' :: (fmtBytes b ++ '"' :: r) := by simp [fmtString]
  rw [e, lexStep, if_neg (by decide), if_neg (by decide), if_neg (by decide), if_pos (by decide),
    lexStr_fmt]

end Verif.Text
