/-
Wire primitives of prost used by prost-reflect.

prost itself is not part of /repo; these definitions model the published
behaviour of `prost::encoding` as called from
`prost-reflect/src/dynamic/message.rs` and `unknown.rs` (see DESIGN.md, trusted
base).  Bytes are `UInt8`, buffers are lists, unsigned integers are `Nat`.
-/
set_option autoImplicit false
namespace Verif.Wire

abbrev Bytes := List UInt8

/-- `prost::encoding::WireType`, used throughout message.rs and unknown.rs:146-175. -/
inductive WireType where
  | varint | sixtyFourBit | lengthDelimited | startGroup | endGroup | thirtyTwoBit
  deriving DecidableEq, Repr

def WireType.toNat : WireType → Nat
  | .varint => 0
  | .sixtyFourBit => 1
  | .lengthDelimited => 2
  | .startGroup => 3
  | .endGroup => 4
  | .thirtyTwoBit => 5

/-- `WireType::try_from(u64)`: only 0..=5 are wire types. -/
def WireType.ofNat? : Nat → Option WireType
  | 0 => some .varint
  | 1 => some .sixtyFourBit
  | 2 => some .lengthDelimited
  | 3 => some .startGroup
  | 4 => some .endGroup
  | 5 => some .thirtyTwoBit
  | _ => none

/-- The outcomes of decoding other than success.  Everything up to
`unexpectedEndGroup` is a `DecodeError` of prost; `panic` is a Rust panic of
prost-reflect; `unsupported` marks the one construct the model leaves out (a map
whose value type is again a map, see Dyn/Codec.lean); `fuel` is the model's own
out-of-fuel marker, proved unreachable. -/
inductive Err where
  | underflow
  | invalidVarint
  | invalidKey
  | invalidWireType
  | invalidTag
  | wrongWireType
  | recursionLimit
  | delimitedLengthExceeded
  | unexpectedEndGroup
  | invalidUtf8
  | panic
  | unsupported
  | fuel
  deriving DecidableEq, Repr

abbrev R (α : Type) := Except Err α

/-- Apply a function to the value of a successful parse (`.map` after `?`). -/
def mapV {α β γ : Type} (g : α → β) : R (α × γ) → R (β × γ)
  | .error e => .error e
  | .ok (v, r) => .ok (g v, r)

/-! ### Varints -/

/-- `prost::encoding::encode_varint` with an explicit bound on the number of
bytes: little-endian groups of seven bits, high bit set on all but the last. -/
def encodeVarintAux : Nat → Nat → Bytes
  | 0, _ => []
  | k + 1, n =>
    if n < 128 then [UInt8.ofNat n]
    else UInt8.ofNat (n % 128 + 128) :: encodeVarintAux k (n / 128)

/-- `prost::encoding::encode_varint` (message.rs:150, unknown.rs:73); prost's loop
runs at most ten times, which is enough for every `u64`. -/
def encodeVarint (n : Nat) : Bytes := encodeVarintAux 10 n

/-- `prost::encoding::encoded_len_varint` (message.rs:151, unknown.rs:184).
prost computes it branch-free from the bit length; this is the same number for
every `u64`: one byte per started group of seven bits, at least one. -/
def encodedLenVarint (n : Nat) : Nat :=
  ((Nat.log2 (n ||| 1)) * 9 + 73) / 64

/-- Body of `prost::encoding::decode_varint`: at most ten bytes, the tenth must
be below two so that the value fits in 64 bits. -/
def decodeVarintAux : Nat → Nat → Bytes → R (Nat × Bytes)
  | _, _, [] => .error .invalidVarint
  | k, acc, b :: rest =>
    if b.toNat < 128 then
      if k = 9 ∧ 2 ≤ b.toNat then .error .invalidVarint
      else .ok (acc + b.toNat * 2 ^ (7 * k), rest)
    else if k = 9 then .error .invalidVarint
    else decodeVarintAux (k + 1) (acc + (b.toNat - 128) * 2 ^ (7 * k)) rest

/-- `prost::encoding::decode_varint` (unknown.rs:148). -/
def decodeVarint (buf : Bytes) : R (Nat × Bytes) := decodeVarintAux 0 0 buf

/-! ### Keys -/

/-- `prost::encoding::encode_key` (message.rs:259, unknown.rs:72). -/
def encodeKey (number : Nat) (wt : WireType) : Bytes :=
  encodeVarint (number * 8 + wt.toNat)

/-- `prost::encoding::key_len` (message.rs:526, unknown.rs:184):
`encoded_len_varint(u64::from(tag << 3))`. -/
def keyLen (number : Nat) : Nat := encodedLenVarint (number * 8)

/-- `prost::encoding::decode_key` (message.rs:364, unknown.rs:113). -/
def decodeKey (buf : Bytes) : R (Nat × WireType × Bytes) :=
  match decodeVarint buf with
  | .error e => .error e
  | .ok (key, rest) =>
    if key > 4294967295 then .error .invalidKey
    else match WireType.ofNat? (key % 8) with
      | none => .error .invalidWireType
      | some wt =>
        if key / 8 < 1 then .error .invalidTag
        else .ok (key / 8, wt, rest)

/-! ### Fixed-width little-endian -/

/-- `BufMut::put_{u,i,f}{32,64}_le`: `k` bytes, least significant first. -/
def putLE : Nat → Nat → Bytes
  | 0, _ => []
  | k + 1, n => UInt8.ofNat (n % 256) :: putLE k (n / 256)

/-- Value of a little-endian byte string. -/
def leVal : Bytes → Nat
  | [] => 0
  | b :: r => b.toNat + 256 * leVal r

/-- `Buf::get_u{32,64}_le` after prost's check `buf.remaining() < width`. -/
def getLE (k : Nat) (buf : Bytes) : R (Nat × Bytes) :=
  if buf.length < k then .error .underflow
  else .ok (leVal (buf.take k), buf.drop k)

/-! ### Length-delimited payloads -/

/-- Payload part of `prost::encoding::{bytes,string}::merge` after the wire type
check: length varint, underflow check, copy (message.rs:322-327, unknown.rs:158). -/
def getLenDelim (buf : Bytes) : R (Bytes × Bytes) :=
  match decodeVarint buf with
  | .error e => .error e
  | .ok (len, rest) =>
    if len > rest.length then .error .underflow
    else .ok (rest.take len, rest.drop len)

/-! ### Loops -/

/-- `while buf.remaining() > limit { body(...)? }` with fuel. -/
def loopTo {σ : Type} (limit : Nat) (body : σ → Bytes → R (σ × Bytes)) :
    Nat → σ → Bytes → R (σ × Bytes)
  | 0, _, _ => .error .fuel
  | f + 1, st, buf =>
    if buf.length ≤ limit then .ok (st, buf)
    else match body st buf with
      | .error e => .error e
      | .ok (st', buf') => loopTo limit body f st' buf'

/-- `prost::encoding::merge_loop` (message.rs:340, 359): read a length, run the
body until that many bytes are gone, complain if it overran. The body sees the
whole remaining buffer, as in prost. -/
def mergeLoop {σ : Type} (body : σ → Bytes → R (σ × Bytes)) (st : σ) (buf : Bytes) :
    R (σ × Bytes) :=
  match decodeVarint buf with
  | .error e => .error e
  | .ok (len, rest) =>
    if len > rest.length then .error .underflow
    else
      match loopTo (rest.length - len) body (rest.length + 1) st rest with
      | .error e => .error e
      | .ok (st', buf') =>
        if buf'.length ≠ rest.length - len then .error .delimitedLengthExceeded
        else .ok (st', buf')

/-- `merge_field` of a message or unknown field set: state, number, wire type, buffer. -/
abbrev FieldFn (σ : Type) := σ → Nat → WireType → Bytes → R (σ × Bytes)

/-- One iteration of the message loop: `decode_key` then `merge_field`. -/
def keyThen {σ : Type} (f : FieldFn σ) (st : σ) (buf : Bytes) : R (σ × Bytes) :=
  match decodeKey buf with
  | .error e => .error e
  | .ok (number, wt, rest) => f st number wt rest

/-- The loop of `prost::encoding::group::merge` (message.rs:333, unknown.rs:163):
fields until the matching end-group key. -/
def groupLoop {σ : Type} (tag : Nat) (f : FieldFn σ) :
    Nat → σ → Bytes → R (σ × Bytes)
  | 0, _, _ => .error .fuel
  | k + 1, st, buf =>
    match decodeKey buf with
    | .error e => .error e
    | .ok (number, wt, rest) =>
      if wt = .endGroup then
        if number ≠ tag then .error .unexpectedEndGroup else .ok (st, rest)
      else match f st number wt rest with
        | .error e => .error e
        | .ok (st', buf') => groupLoop tag f k st' buf'

/-- `prost::Message::merge` (called by dynamic/mod.rs:138): fields until the
buffer is empty. -/
def mergeAll {σ : Type} (f : FieldFn σ) (st : σ) (buf : Bytes) : R (σ × Bytes) :=
  loopTo 0 (keyThen f) (buf.length + 1) st buf

/-- `prost::encoding::message::merge` given the field function of the nested
level; `none` is an exhausted recursion counter. -/
def messageMerge {σ : Type} (nested : Option (FieldFn σ)) (wt : WireType) (st : σ)
    (buf : Bytes) : R (σ × Bytes) :=
  if wt ≠ .lengthDelimited then .error .wrongWireType
  else match nested with
    | none => .error .recursionLimit
    | some f => mergeLoop (keyThen f) st buf

/-- `prost::encoding::group::merge` given the field function of the nested level. -/
def groupMerge {σ : Type} (nested : Option (FieldFn σ)) (tag : Nat) (wt : WireType)
    (st : σ) (buf : Bytes) : R (σ × Bytes) :=
  if wt ≠ .startGroup then .error .wrongWireType
  else match nested with
    | none => .error .recursionLimit
    | some f => groupLoop tag f (buf.length + 1) st buf

/-- `prost::encoding::skip_field` (message.rs:370). The first argument is the
recursion counter; `limit_reached` is checked on entry for every wire type. -/
def skipField : Nat → WireType → Nat → Bytes → R Bytes
  | 0, _, _, _ => .error .recursionLimit
  | d + 1, wt, tag, buf =>
    match wt with
    | .varint =>
      match decodeVarint buf with
      | .error e => .error e
      | .ok (_, rest) => .ok rest
    | .thirtyTwoBit => if buf.length < 4 then .error .underflow else .ok (buf.drop 4)
    | .sixtyFourBit => if buf.length < 8 then .error .underflow else .ok (buf.drop 8)
    | .lengthDelimited =>
      match decodeVarint buf with
      | .error e => .error e
      | .ok (len, rest) =>
        if len > rest.length then .error .underflow else .ok (rest.drop len)
    | .startGroup =>
      match groupLoop tag (fun (_ : Unit) n w b =>
          match skipField d w n b with
          | .error e => .error e
          | .ok b' => .ok ((), b')) (buf.length + 1) () buf with
      | .error e => .error e
      | .ok (_, rest) => .ok rest
    | .endGroup => .error .unexpectedEndGroup

/-- `prost::encoding::RECURSION_LIMIT`, the initial recursion counter. -/
def recursionLimit : Nat := 100

end Verif.Wire
