import Verif.Wire.Loops
import Verif.Text.Parse
/-!
Option messages: model of `Options<T>` (descriptor/types.rs:497-590) and of the resolution
of uninterpreted options (descriptor/build/options.rs:298-740).

`Options<T>` keeps the bytes of an option message next to the decoded prost message `T`.
`T` and its `merge_field` come from prost-types and stay parameters.
-/
set_option autoImplicit false
namespace Verif.Opt
open Verif.Wire Verif.Dyn Verif.Text

variable {T : Type}

/-- `Options::merge_field` (types.rs:538-581): write the key again, copy the bytes
`skip_field` walks over, let the prost message read the copy.  What the prost message
leaves unread of the copy is dropped. -/
def optField (d : Nat) (val : FieldFn T) : FieldFn (Bytes × T) := fun st number wt buf =>
  match skipField d wt number buf with
  | .error e => .error e
  | .ok rest =>
    let copy := buf.take (buf.length - rest.length)
    match val st.2 number wt copy with
    | .error e => .error e
    | .ok (v, _) => .ok ((st.1 ++ (encodeKey number wt ++ copy), v), rest)

/-- `Options::decode`: `prost::Message::decode` with `merge_field` as above; the result is
the pair `encoded`, `value`. `v0` is `T::default()`. -/
def optDecode (val : FieldFn T) (v0 : T) (buf : Bytes) : R (Bytes × T) :=
  match mergeAll (optField recursionLimit val) ([], v0) buf with
  | .error e => .error e
  | .ok (st, _) => .ok st

/-- `Options::encode_raw` (types.rs:531-536). -/
def optEncode (o : Bytes × T) : Bytes := o.1

/-- `Options::encoded_len` (types.rs:583-585). -/
def optLen (o : Bytes × T) : Nat := o.1.length

/-- A part of an option's name: `uninterpreted_option::NamePart`. -/
structure Part where
  name : Name
  isExt : Bool
  deriving DecidableEq, Repr

/-- `UninterpretedOption` (types.rs, prost-types); strings are lists of characters, the double
is its bit pattern. -/
structure Uninterp where
  parts : List Part
  ident : Option (List Char) := none
  pos : Option (BitVec 64) := none
  neg : Option (BitVec 64) := none
  dbl : Option (BitVec 64) := none
  str : Option Bytes := none
  agg : Option (List Char) := none

/-- The errors of options.rs, without names and labels. `panic` is a Rust panic. -/
inductive OErr where
  | notFound | nameNotFound | extendee | duplicate | invalidType
  | message (e : TErr)
  | panic
  deriving DecidableEq, Repr

/-- What option resolution takes from elsewhere: the `u64`/`i64` to `f64` and `f64` to `f32`
casts, the text parser's environment and stack, and `resolve_name` with the extension filter
(options.rs:495-509) for the scope at hand, giving the extended message and the extension. -/
structure OEnv where
  ofU64 : BitVec 64 → BitVec 64
  ofI64 : BitVec 64 → BitVec 64
  text : TEnv
  stack : Nat
  findExt : Name → Except OErr (Nat × FieldDesc)

/-- `option_to_bool` (options.rs:551-557). -/
def optBool (u : Uninterp) : Option Bool :=
  match u.ident with
  | some c => if c = "true".toList then some true else if c = "false".toList then some false else none
  | none => none

/-- `option_to_int::<i32>` and `option_to_int::<i64>` (options.rs:559-570), for `w` bits. -/
def optSigned (w : Nat) (u : Uninterp) : Option (BitVec w) :=
  match u.pos with
  | some n => if n.toNat < 2 ^ (w - 1) then some (BitVec.ofNat w n.toNat) else none
  | none =>
    match u.neg with
    | some n => if -(2 ^ (w - 1) : Int) ≤ n.toInt ∧ n.toInt < 2 ^ (w - 1)
        then some (BitVec.ofInt w n.toInt) else none
    | none => none

/-- `option_to_int::<u32>` and `option_to_int::<u64>` (options.rs:559-570). -/
def optUnsigned (w : Nat) (u : Uninterp) : Option (BitVec w) :=
  match u.pos with
  | some n => if n.toNat < 2 ^ w then some (BitVec.ofNat w n.toNat) else none
  | none =>
    match u.neg with
    | some n => if 0 ≤ n.toInt ∧ n.toInt < 2 ^ w then some (BitVec.ofInt w n.toInt) else none
    | none => none

/-- `option_to_float` (options.rs:572-582). -/
def optFloat (env : OEnv) (u : Uninterp) : Option (BitVec 64) :=
  match u.dbl with
  | some x => some x
  | none =>
    match u.pos with
    | some n => some (env.ofU64 n)
    | none => u.neg.map env.ofI64

/-- `option_to_string` (options.rs:584-590). -/
def optString (u : Uninterp) : Option Bytes :=
  match u.str with
  | some b => if utf8Valid b then some b else none
  | none => none

/-- `option_to_enum` (options.rs:600-613). -/
def optEnum (S : Schema) (e : Nat) (u : Uninterp) : Except OErr (BitVec 32) :=
  match S.enums[e]? with
  | none => .error .panic
  | some ed =>
    match u.ident with
    | some c =>
      match ed.values.find? (fun p => p.1 == c) with
      | some p => .ok p.2
      | none => .error .invalidType
    | none => .error .invalidType

/-- `option_to_message` (options.rs:620-630) with the `text-format` feature. -/
def optMessage (env : OEnv) (S : Schema) (d : Nat) (u : Uninterp) : Except OErr DynMsg :=
  match u.agg with
  | some t =>
    match parseText env.text S env.stack d t with
    | .ok m => .ok m
    | .error e => .error (.message e)
  | none => .error .invalidType

/-- `option_to_map_entry` (options.rs:644-662). -/
def optMapEntry (env : OEnv) (S : Schema) (d : Nat) (u : Uninterp) : Except OErr (MapKey × Value) :=
  match optMessage env S d u with
  | .error e => .error e
  | .ok m =>
    match S.msg? d with
    | none => .error .panic
    | some md =>
      match DynMsg.getByNumber S md m 1, DynMsg.getByNumber S md m 2 with
      | some (some kv), some (some v) =>
        match kv.toMapKey with
        | some k => .ok (k, v)
        | none => .error .invalidType
      | some _, some _ => .error .invalidType
      | _, _ => .error .panic

/-- `map_err(err)`. -/
def orInvalid {α : Type} (g : α → Value) : Option α → Except OErr Value
  | some a => .ok (g a)
  | none => .error .invalidType

/-- `set_field_value` (options.rs:439-484) on a value that is no list and no map. -/
def setSingle (env : OEnv) (S : Schema) (k : Kind) (u : Uninterp) : Value → Except OErr Value
  | .bool _ => orInvalid .bool (optBool u)
  | .i32 _ => orInvalid .i32 (optSigned 32 u)
  | .i64 _ => orInvalid .i64 (optSigned 64 u)
  | .u32 _ => orInvalid .u32 (optUnsigned 32 u)
  | .u64 _ => orInvalid .u64 (optUnsigned 64 u)
  | .f32 _ => orInvalid (fun x => .f32 (env.text.narrow x)) (optFloat env u)
  | .f64 _ => orInvalid .f64 (optFloat env u)
  | .str _ => orInvalid .str (optString u)
  | .bytes _ => orInvalid .bytes u.str
  | .enum _ =>
    match k with
    | .enum e =>
      match optEnum S e u with
      | .ok n => .ok (.enum n)
      | .error e => .error e
    | _ => .error .panic
  | .msg _ _ =>
    match k with
    | .message d =>
      match optMessage env S d u with
      | .ok m => .ok m.toValue
      | .error e => .error e
    | _ => .error .panic
  | .list _ => .error .panic
  | .map _ => .error .panic

/-- `set_field_value` (options.rs:417-492). The recursion for lists is on
`Value::default_value` of the kind, which is no list. -/
def setValue (env : OEnv) (S : Schema) (k : Kind) (u : Uninterp) : Value → Except OErr Value
  | .list vs =>
    match kindDefault S k with
    | none => .error .panic
    | some v =>
      match setSingle env S k u v with
      | .ok v' => .ok (.list (vs ++ [v']))
      | .error e => .error e
  | .map kvs =>
    match k with
    | .message d =>
      match optMapEntry env S d u with
      | .ok (mk, v) => .ok (.map (KMap.insert mk v kvs))
      | .error e => .error e
    | _ => .error .panic
  | v => setSingle env S k u v

/-- The field or extension a part of the name stands for, with the numbers to clear when it
is touched (options.rs:357-360, 395; `find_extension`, 494-527). -/
def lookPart (env : OEnv) (md : MsgDesc) (desc : Nat) (p : Part) : Except OErr (FieldDesc × List Nat) :=
  if p.isExt then
    match env.findExt p.name with
    | .error e => .error e
    | .ok (i, f) => if i = desc then .ok (f, []) else .error .extendee
  else
    match md.getFieldByName p.name with
    | some f => .ok (f, siblings md f)
    | none => .error .notFound

/-- `set_option` (options.rs:341-415). On an error the partly changed message is dropped: the
error makes the whole call fail. -/
def setOption (env : OEnv) (S : Schema) (u : Uninterp) : List Part → DynMsg → Except OErr DynMsg
  | [], m => .ok m
  | p :: ps, m =>
    match S.msg? m.desc with
    | none => .error .panic
    | some md =>
      match lookPart env md m.desc p with
      | .error e => .error e
      | .ok (f, sib) =>
        if ps = [] then
          match (if f.card ≠ .repeated then FieldSet.has S m.fields f else some false) with
          | none => .error .panic
          | some true => .error .duplicate
          | some false =>
            match FieldSet.getMut S sib m.fields f with
            | none => .error .panic
            | some (fs, v) =>
              match setValue env S f.kind u v with
              | .error e => .error e
              | .ok v' => .ok ⟨m.desc, FieldSet.write f v' fs⟩
        else
          match FieldSet.getMut S sib m.fields f with
          | none => .error .panic
          | some (fs, .msg d sub) =>
            match setOption env S u ps ⟨d, sub⟩ with
            | .error e => .error e
            | .ok m' => .ok ⟨m.desc, FieldSet.write f m'.toValue fs⟩
          | some _ => .error .invalidType

/-- The loop over the uninterpreted options (options.rs:322-332): the message after those that
could be set, or the first error. -/
def setOptions (env : OEnv) (S : Schema) : List Uninterp → DynMsg → Except OErr DynMsg
  | [], m => .ok m
  | u :: us, m =>
    match setOption env S u u.parts m with
    | .error e => .error e
    | .ok m' => setOptions env S us m'

/-- Number of `uninterpreted_option` in every option message. -/
def uninterpretedNumber : Nat := 999

/-- The outcome of `resolve_options`: new bytes, a decoding error, an option error, or a panic. -/
inductive Resolved where
  | ok (b : Bytes)
  | decode (e : Err)
  | option (e : OErr)
  | panic
  deriving DecidableEq, Repr

/-- `resolve_options` (options.rs:300-338) for the option message type `d`. -/
def resolveOptions (env : OEnv) (S : Schema) (d : Nat) (encoded : Bytes) (us : List Uninterp) :
    Resolved :=
  match S.msg? d with
  | none => .panic
  | some md =>
    match decode S d encoded with
    | .error e => .decode e
    | .ok m =>
      match setOptions env S us m with
      | .error e => .option e
      | .ok m' =>
        match encMsg S (DynMsg.clearByNumber md m' uninterpretedNumber) with
        | some b => .ok b
        | none => .panic

/-- `set_file_option` and its helpers (options.rs:707-790): the resolved bytes are read back
into an `Options<T>`; `unwrap` turns a decoding error into a panic. -/
def storeOptions (val : FieldFn T) (v0 : T) (encoded : Bytes) : Option (Bytes × T) :=
  match optDecode val v0 encoded with
  | .ok o => some o
  | .error _ => none

end Verif.Opt
