import Verif.Num
/-!
JSON values as `serde` presents them.

The code is generic over a `Serializer` and a `Deserializer`.  The model fixes the data model
of `serde_json`: a non-negative integer literal is offered as `u64`, a negative one as `i64`,
any other number as a finite `f64`; strings are sequences of characters; objects keep the
order of their entries and may repeat a key.  Reading and writing JSON text itself is
`serde_json`'s part and not modelled.
-/
set_option autoImplicit false
namespace Verif.Json

/-- A JSON value. -/
inductive Json where
  | null
  | bool (b : Bool)
  /-- offered to `visit_u64` -/
  | uint (v : BitVec 64)
  /-- offered to `visit_i64` -/
  | sint (v : BitVec 64)
  /-- offered to `visit_f64`: the bits of the number -/
  | float (v : BitVec 64)
  | str (s : List Char)
  | arr (xs : List Json)
  | obj (es : List (List Char × Json))

/-- How deserialization or serialization can fail.  `err` is an `Err`; `panic` a panic;
`stack` a recursion deeper than the stack allows. -/
inductive JErr where
  | err | panic | stack
  deriving DecidableEq, Repr

/-- A signed integer as `serde_json` offers it after writing and reading it. -/
def Json.ofInt (v : Int) : Json :=
  if v < 0 then .sint (BitVec.ofInt 64 v) else .uint (BitVec.ofInt 64 v)

end Verif.Json
