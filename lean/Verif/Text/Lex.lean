import Verif.Num
/-!
Tokens of the text format: model of `dynamic/text_format/parse/lex.rs`.

Trusted base: the lexer generated by logos follows its documentation (at each position the
longest match of any pattern, skipping the skip patterns); `f64::from_str` is a parameter.
Error spans are left out.
-/
set_option autoImplicit false
namespace Verif.Text
open Verif.Wire Verif.Dyn Verif.Pool

/-- `Token` (lex.rs:12-52). An integer literal is its digits and radix (lex.rs:54-58). -/
inductive Tok where
  | ident (s : List Char)
  | int (digits : List Char) (radix : Nat)
  | float (v : BitVec 64)
  | str (b : Bytes)
  | dot | minus | lbrace | rbrace | lbracket | rbracket | langle | rangle
  | comma | colon | semicolon | slash
  deriving DecidableEq, Repr

/-- What the parser sees at one position: a token, a lexical error (the lexer is not asked
again after one), or the panic of the `expect` in `float` (lex.rs:130). -/
inductive LTok where
  | tok (t : Tok)
  | bad
  | panic
  deriving DecidableEq, Repr

/-- A character in a range of code points. -/
def inR (lo hi : Nat) (c : Char) : Bool := decide (lo ≤ c.toNat) && decide (c.toNat ≤ hi)

/-- `[0-9]` -/
def cDigit (c : Char) : Bool := inR 48 57 c
/-- `[0-7]` -/
def cOctal (c : Char) : Bool := inR 48 55 c
/-- `[0-9A-Fa-f]` -/
def cHex (c : Char) : Bool := inR 48 57 c || inR 65 70 c || inR 97 102 c
/-- `[A-Za-z]` -/
def cAlpha (c : Char) : Bool := inR 65 90 c || inR 97 122 c
/-- `[A-Za-z_]` (lex.rs:13) -/
def cIdStart (c : Char) : Bool := cAlpha c || c == '_'
/-- `[A-Za-z0-9_]` (lex.rs:13) -/
def cIdent (c : Char) : Bool := cIdStart c || cDigit c
/-- `[\t\v\f\r\n ]` (lex.rs:9) -/
def cSpace (c : Char) : Bool := inR 9 13 c || c == ' '
/-- `[fF]` -/
def cF (c : Char) : Bool := c == 'f' || c == 'F'

/-- A non-empty run of characters: `[..]+`. -/
def run1 (p : Char → Bool) (s : List Char) : Option (List Char × List Char) :=
  if s.takeWhile p = [] then none else some (s.takeWhile p, s.dropWhile p)

/-- `[fF]?`, not part of the number. -/
def optF : List Char → List Char
  | c :: r => if cF c then r else c :: r
  | [] => []

/-- `[+\-]?` -/
def optSign : List Char → List Char × List Char
  | c :: r => if c = '+' ∨ c = '-' then ([c], r) else ([], c :: r)
  | [] => ([], [])

/-- `(?&exponent)`: `[eE][+\-]?[0-9]+` (lex.rs:11). -/
def expo : List Char → Option (List Char × List Char)
  | e :: r =>
    if e = 'e' ∨ e = 'E' then
      match run1 cDigit (optSign r).2 with
      | some (d, r') => some (e :: ((optSign r).1 ++ d), r')
      | none => none
    else none
  | [] => none

/-- `(?&exponent)?` -/
def optExpo (s : List Char) : List Char × List Char :=
  match expo s with
  | some x => x
  | none => ([], s)

/-- A match: the token it makes (an integer literal or the text of a float without its
suffix) and the rest of the input. -/
inductive Num where
  | int (digits : List Char) (radix : Nat)
  | float (text : List Char)

/-- `0` (lex.rs:15). -/
def reZero : List Char → Option (Num × List Char)
  | c :: r => if c = '0' then some (.int [c] 10, r) else none
  | [] => none

/-- `[1-9][0-9]*` (lex.rs:16). -/
def reDec : List Char → Option (Num × List Char)
  | c :: r => if inR 49 57 c then some (.int (c :: r.takeWhile cDigit) 10, r.dropWhile cDigit) else none
  | [] => none

/-- `0[0-7]+` (lex.rs:17). -/
def reOct : List Char → Option (Num × List Char)
  | c :: r =>
    if c = '0' then
      match run1 cOctal r with
      | some (d, r') => some (.int d 8, r')
      | none => none
    else none
  | [] => none

/-- `0[xX][0-9A-Fa-f]+` (lex.rs:18). -/
def reHex : List Char → Option (Num × List Char)
  | c :: x :: r =>
    if c = '0' ∧ (x = 'x' ∨ x = 'X') then
      match run1 cHex r with
      | some (d, r') => some (.int d 16, r')
      | none => none
    else none
  | _ => none

/-- `0[fF]` and `[1-9][0-9]*[fF]` (lex.rs:20-21). -/
def reIntF : List Char → Option (Num × List Char)
  | c :: r =>
    if c = '0' then
      match r with
      | x :: r' => if cF x then some (.float [c], r') else none
      | [] => none
    else if inR 49 57 c then
      match r.dropWhile cDigit with
      | x :: r' => if cF x then some (.float (c :: r.takeWhile cDigit), r') else none
      | [] => none
    else none
  | [] => none

/-- `[0-9]+\.[0-9]*(?&exponent)?[fF]?` (lex.rs:22). -/
def rePoint (s : List Char) : Option (Num × List Char) :=
  match run1 cDigit s with
  | some (d, '.' :: r) =>
    let e := optExpo (r.dropWhile cDigit)
    some (.float (d ++ '.' :: (r.takeWhile cDigit ++ e.1)), optF e.2)
  | _ => none

/-- `[0-9]+(?&exponent)[fF]?` (lex.rs:23). -/
def reExp (s : List Char) : Option (Num × List Char) :=
  match run1 cDigit s with
  | some (d, r) =>
    match expo r with
    | some (e, r') => some (.float (d ++ e), optF r')
    | none => none
  | none => none

/-- `\.[0-9]+(?&exponent)?[fF]?` (lex.rs:24). -/
def reFrac : List Char → Option (Num × List Char)
  | c :: r =>
    if c = '.' then
      match run1 cDigit r with
      | some (d, r') =>
        let e := optExpo r'
        some (.float ('.' :: (d ++ e.1)), optF e.2)
      | none => none
    else none
  | [] => none

/-- The longer of two matches, i.e. the one that leaves less.  No two of the patterns
match the same text. -/
def longer (a b : Option (Num × List Char)) : Option (Num × List Char) :=
  match a, b with
  | some x, some y => if y.2.length < x.2.length then some y else some x
  | some x, none => some x
  | none, b => b

/-- The longest match of the number patterns (lex.rs:15-24). -/
def lexNum (s : List Char) : Option (Num × List Char) :=
  longer (reZero s) (longer (reDec s) (longer (reOct s) (longer (reHex s)
    (longer (reIntF s) (longer (rePoint s) (longer (reExp s) (reFrac s)))))))

/-! ### String literals -/

/-- Value of a hexadecimal digit. -/
def hexDigit (c : Char) : Option Nat :=
  if inR 48 57 c then some (c.toNat - 48)
  else if inR 65 70 c then some (c.toNat - 55)
  else if inR 97 102 c then some (c.toNat - 87)
  else none

/-- `from_str_radix` without the range check: `none` for the empty string or a character
that is not a digit of the radix. -/
def radixFrom (radix : Nat) : Nat → List Char → Option Nat
  | acc, [] => some acc
  | acc, c :: r =>
    match hexDigit c with
    | some d => if d < radix then radixFrom radix (acc * radix + d) r else none
    | none => none

def radixVal (radix : Nat) (s : List Char) : Option Nat :=
  if s = [] then none else radixFrom radix 0 s

/-- `char_escape` (lex.rs:172-187) for `\\[abfnrtv?\\'"]`. -/
def charEscape (c : Char) : Option UInt8 :=
  if c = 'a' then some 0x07
  else if c = 'b' then some 0x08
  else if c = 'f' then some 0x0C
  else if c = 'n' then some 0x0A
  else if c = 'r' then some 0x0D
  else if c = 't' then some 0x09
  else if c = 'v' then some 0x0B
  else if c = '?' then some 0x3F
  else if c = '\\' then some 0x5C
  else if c = '\'' then some 0x27
  else if c = '"' then some 0x22
  else none

/-- `unicode_escape` (lex.rs:189-192) of exactly `k` hexadecimal digits. -/
def unicodeEscape (k : Nat) (s : List Char) : Option (Bytes × List Char) :=
  if (s.take k).length = k then
    match radixVal 16 (s.take k) with
    | some n =>
      match mkChar n with
      | some c => some (utf8EncodeChar c, s.drop k)
      | none => none
    | none => none
  else none

/-- The characters among the first `k` that satisfy `p`, up to the first that does not. -/
def upTo (k : Nat) (p : Char → Bool) (s : List Char) : List Char := (s.take k).takeWhile p

/-- One escape after the backslash (lex.rs:141-149): bytes and rest; `none` is an error. -/
def escape : List Char → Option (Bytes × List Char)
  | [] => none
  | c :: r =>
    match charEscape c with
    | some b => some ([b], r)
    | none =>
      if cOctal c then
        let ds := upTo 3 cOctal (c :: r)
        match radixVal 8 ds with
        | some n => if n < 256 then some ([UInt8.ofNat n], (c :: r).drop ds.length) else none
        | none => none
      else if c = 'x' ∨ c = 'X' then
        let ds := upTo 2 cHex r
        match radixVal 16 ds with
        | some n => some ([UInt8.ofNat n], r.drop ds.length)
        | none => none
      else if c = 'u' then unicodeEscape 4 r
      else if c = 'U' then unicodeEscape 8 r
      else none

/-- The loop of `string` (lex.rs:194-233) after the opening quote `q`: the bytes of the
literal and the rest; `none` is a lexical error.  The first argument bounds the number of
steps; the length of the input is enough. -/
def strN (q : Char) : Nat → List Char → Option (Bytes × List Char)
  | 0, _ => none
  | _ + 1, [] => none
  | n + 1, c :: r =>
    if c = '\\' then
      match escape r with
      | some (b, r') =>
        match strN q n r' with
        | some (bs, r'') => some (b ++ bs, r'')
        | none => none
      | none => none
    else if c = q then some ([], r)
    else if c.toNat = 0 ∨ c = '\n' then none
    else
      match strN q n r with
      | some (bs, r') => some (utf8EncodeChar c ++ bs, r')
      | none => none

/-- `string` (lex.rs:133-234). -/
def lexStr (q : Char) (s : List Char) : Option (Bytes × List Char) := strN q (s.length + 1) s

/-! ### The lexer -/

/-- The single-character tokens (lex.rs:28-51). -/
def punct (c : Char) : Option Tok :=
  if c = '.' then some .dot
  else if c = '-' then some .minus
  else if c = '{' then some .lbrace
  else if c = '}' then some .rbrace
  else if c = '[' then some .lbracket
  else if c = ']' then some .rbracket
  else if c = '<' then some .langle
  else if c = '>' then some .rangle
  else if c = ',' then some .comma
  else if c = ':' then some .colon
  else if c = ';' then some .semicolon
  else if c = '/' then some .slash
  else none

/-- One match of the lexer. -/
inductive Step where
  | eof
  | skip (rest : List Char)
  | tok (t : Tok) (rest : List Char)
  | bad
  | panic

/-- `int` (lex.rs:101-120): an integer directly followed by a letter or underscore is an
error. -/
def intTok (digits : List Char) (radix : Nat) (rest : List Char) : Step :=
  match rest with
  | c :: _ => if cIdStart c then .bad else .tok (.int digits radix) rest
  | [] => .tok (.int digits radix) rest

/-- `float` (lex.rs:122-131). -/
def floatTok (fp : List Char → Option (BitVec 64)) (text rest : List Char) : Step :=
  match fp text with
  | some v => .tok (.float v) rest
  | none => .panic

/-- The token for a number match. -/
def numTok (fp : List Char → Option (BitVec 64)) : Num × List Char → Step
  | (.int d x, r) => intTok d x r
  | (.float t, r) => floatTok fp t r

/-- The next match (lex.rs:12-52). -/
def lexStep (fp : List Char → Option (BitVec 64)) : List Char → Step
  | [] => .eof
  | c :: r =>
    if cSpace c then .skip (r.dropWhile cSpace)
    else if c = '#' then .skip ((r.dropWhile (· ≠ '\n')).drop 1)
    else if cIdStart c then .tok (.ident ((c :: r).takeWhile cIdent)) (r.dropWhile cIdent)
    else if c = '\'' ∨ c = '"' then
      match lexStr c r with
      | some (b, r') => .tok (.str b) r'
      | none => .bad
    else
      match lexNum (c :: r) with
      | some m => numTok fp m
      | none =>
        match punct c with
        | some t => .tok t r
        | none => .bad

/-- All tokens up to the end or the first error.  The first argument bounds the number of
steps. -/
def lexN (fp : List Char → Option (BitVec 64)) : Nat → List Char → List LTok
  | 0, _ => [.bad]
  | n + 1, s =>
    match lexStep fp s with
    | .eof => []
    | .skip r => lexN fp n r
    | .tok t r => .tok t :: lexN fp n r
    | .bad => [.bad]
    | .panic => [.panic]

/-- The tokens of a text. -/
def lex (fp : List Char → Option (BitVec 64)) (s : List Char) : List LTok := lexN fp (s.length + 1) s

end Verif.Text
