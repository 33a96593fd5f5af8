import Verif.Json.Tree
/-!
Base64, as the `base64` crate (0.22) encodes and decodes it under the configuration of the
code: the standard alphabet with padding for output; for input, either alphabet, any amount
of padding up to the canonical one, and non-zero trailing bits allowed.
-/
set_option autoImplicit false
namespace Verif.Json

/-- The symbols of an alphabet, given its last two. -/
def b64Symbol (last2 : Char × Char) (i : Nat) : Char :=
  if i < 26 then Char.ofNat (65 + i)
  else if i < 52 then Char.ofNat (97 + (i - 26))
  else if i < 62 then Char.ofNat (48 + (i - 52))
  else if i = 62 then last2.1 else last2.2

/-- The index of a symbol: the crate's decode table. -/
def b64Index (last2 : Char × Char) (c : Char) : Option Nat :=
  if 65 ≤ c.toNat ∧ c.toNat ≤ 90 then some (c.toNat - 65)
  else if 97 ≤ c.toNat ∧ c.toNat ≤ 122 then some (c.toNat - 97 + 26)
  else if 48 ≤ c.toNat ∧ c.toNat ≤ 57 then some (c.toNat - 48 + 52)
  else if c = last2.1 then some 62
  else if c = last2.2 then some 63
  else none

/-- `alphabet::STANDARD`: ends in `+` and `/`. -/
def b64Std : Char × Char := ('+', '/')
/-- `alphabet::URL_SAFE`: ends in `-` and `_`. -/
def b64Url : Char × Char := ('-', '_')

/-- `Base64Display::new(value, &BASE64_STANDARD)` (ser/mod.rs:145-147, ser/wkt.rs:246): three
bytes make four symbols; one or two bytes at the end make two or three symbols, padded to
four with `=`. -/
def b64Enc (a : Char × Char) : List UInt8 → List Char
  | [] => []
  | [x] => [b64Symbol a (x.toNat / 4), b64Symbol a (x.toNat % 4 * 16), '=', '=']
  | [x, y] =>
    [b64Symbol a (x.toNat / 4), b64Symbol a (x.toNat % 4 * 16 + y.toNat / 16),
     b64Symbol a (y.toNat % 16 * 4), '=']
  | x :: y :: z :: r =>
    b64Symbol a (x.toNat / 4) :: b64Symbol a (x.toNat % 4 * 16 + y.toNat / 16) ::
    b64Symbol a (y.toNat % 16 * 4 + z.toNat / 64) :: b64Symbol a (z.toNat % 64) :: b64Enc a r

/-- `DecodeError`, as far as the code looks at it. -/
inductive B64Err where
  /-- `InvalidByte(_, c)` -/
  | invalidByte (c : Char)
  /-- `InvalidLength` -/
  | other
  deriving DecidableEq

/-- A symbol in the decode table. -/
def b64Look (a : Char × Char) (c : Char) : Except B64Err Nat :=
  match b64Index a c with
  | some i => .ok i
  | none => .error (.invalidByte c)

/-- The crate's loop over the last one to four symbols: `i` is the position in the group,
`pad` whether padding has been seen.  Padding is an invalid byte in the first two places,
and so is anything but padding after it (reported as the padding). -/
def b64Suffix (a : Char × Char) : Nat → Bool → List Char → Except B64Err (List Nat)
  | _, _, [] => .ok []
  | i, pad, c :: r =>
    if c = '=' then
      if i < 2 then .error (.invalidByte '=') else b64Suffix a (i + 1) true r
    else if pad then .error (.invalidByte '=')
    else do
      let m ← b64Look a c
      let ms ← b64Suffix a (i + 1) false r
      .ok (m :: ms)

/-- The bytes of the symbols of the last group. -/
def b64Last : List Nat → Except B64Err (List UInt8)
  | [m, n] => .ok [UInt8.ofNat (m * 4 + n / 16)]
  | [m, n, o] => .ok [UInt8.ofNat (m * 4 + n / 16), UInt8.ofNat (n % 16 * 16 + o / 4)]
  | [m, n, o, p] =>
    .ok [UInt8.ofNat (m * 4 + n / 16), UInt8.ofNat (n % 16 * 16 + o / 4), UInt8.ofNat (o % 4 * 64 + p)]
  | _ => .error .other

/-- `GeneralPurpose::decode_vec` with `decode_allow_trailing_bits` and
`DecodePaddingMode::Indifferent`. -/
def b64Dec (a : Char × Char) : List Char → Except B64Err (List UInt8)
  | [] => .ok []
  | c :: d :: e :: f :: g :: r => do
    let m ← b64Look a c
    let n ← b64Look a d
    let o ← b64Look a e
    let p ← b64Look a f
    let rest ← b64Dec a (g :: r)
    .ok (UInt8.ofNat (m * 4 + n / 16) :: UInt8.ofNat (n % 16 * 16 + o / 4) :: UInt8.ofNat (o % 4 * 64 + p) :: rest)
  | s => do
    let ms ← b64Suffix a 0 false s
    b64Last ms

/-- `BytesVisitor::visit_str` (kind.rs:505-534): the standard alphabet first; if that meets a `-`
or `_`, the URL-safe one. -/
def visitBytesStr (s : List Char) : Except JErr (List UInt8) :=
  match b64Dec b64Std s with
  | .ok b => .ok b
  | .error e =>
    if e = .invalidByte '-' ∨ e = .invalidByte '_' then
      match b64Dec b64Url s with
      | .ok b => .ok b
      | .error _ => .error .err
    else .error .err

end Verif.Json
