import Verif.Dyn.Typing
/-!
A schema and messages used by the non-vacuity examples of the property theorems:
scalars with and without presence, a recursive message, packed and unpacked lists, a
map, a oneof, a group, an enum, extensions and unknown fields.
-/
set_option autoImplicit false
namespace Verif.Props.Ex
open Verif.Wire Verif.Dyn

/-- A singular field without presence. -/
def fld (n : Nat) (name : String) (k : Kind) : FieldDesc :=
  { number := n, name := name.toList, jsonName := name.toList, kind := k, card := .optional,
    group := false, presence := false, packed := false, default := none, oneof := none }

def fA := fld 1 "a" .int32
def fS := { fld 2 "s" .string with presence := true, default := some (.str [104, 105]) }
def fChild := { fld 3 "child" (.message 0) with presence := true }
def fXs := { fld 4 "xs" .int32 with card := .repeated, packed := true }
def fTags := { fld 5 "tags" (.message 1) with card := .repeated }
def fO1 := { fld 6 "o1" .string with presence := true, oneof := some 0 }
def fO2 := { fld 7 "o2" (.message 0) with presence := true, oneof := some 0 }
def fYs := { fld 8 "ys" .string with card := .repeated }
def fG := { fld 9 "g" (.message 2) with presence := true, group := true }
def fE := { fld 10 "e" (.enum 0) with presence := false }
def fD := fld 11 "d" .double
def xExt := { fld 100 "t.ext" .int64 with presence := true }
def xMsgs := { fld 101 "t.msgs" (.message 0) with card := .repeated }

def schema : Schema where
  msgs := [
    { name := "t.M".toList, fields := [fA, fS, fChild, fXs, fTags, fO1, fO2, fYs, fG, fE, fD],
      mapEntry := false, extensions := [xExt, xMsgs] },
    { name := "t.M.TagsEntry".toList, fields := [fld 1 "key" .string, fld 2 "value" .double],
      mapEntry := true, extensions := [] },
    { name := "t.G".toList, fields := [{ fld 1 "v" .sfixed64 with presence := true }],
      mapEntry := false, extensions := [] }]
  enums := [{ name := "t.E".toList,
              values := [("ZERO".toList, 0), ("ONE".toList, 1), ("NEG".toList, -1)] }]

/-- A small message: `a = -1`, `o1 = "x"`. -/
def small : DynMsg := ⟨0, [(1, .val (.i32 (-1))), (6, .val (.str [120]))]⟩

/-- A message with something in every shape. Field 11 holds its default (absent), 12 is
taken, 50 and 60 are unknown. -/
def big : DynMsg := ⟨0, [
  (1, .val (.i32 7)),
  (2, .val (.str [104, 105])),
  (3, .val small.toValue),
  (4, .val (.list [.i32 1, .i32 (-2), .i32 300])),
  (5, .val (.map [(.str [107], .f64 0x3FF0000000000000), (.str [], .f64 0)])),
  (7, .val (.msg 0 [(4, .val (.list [.i32 5]))])),
  (8, .val (.list [.str [], .str [97, 98]])),
  (9, .val (.msg 2 [(1, .val (.i64 (-5)))])),
  (10, .val (.enum (-1))),
  (11, .val (.f64 0)),
  (12, .taken),
  (50, .unknown [(50, .varint 3), (50, .group [(1, .thirtyTwo 9), (2, .len [1, 2])])]),
  (60, .unknown [(60, .sixtyFour 1)]),
  (100, .val (.i64 0)),
  (101, .val (.list [small.toValue, .msg 0 []]))]⟩

example : schema.wf = true := by decide
example : confMsg schema big = true := by decide
example : depthMsg big = 1 := by decide
example : (encMsg schema big).isSome = true := by decide +kernel

end Verif.Props.Ex
