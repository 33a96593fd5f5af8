import Verif.Json.Tree
/-!
Field masks in JSON: `case.rs`, `serialize_field_mask` and `GoogleProtobufFieldMaskVisitor`.
-/
set_option autoImplicit false
namespace Verif.Json

/-- `is_ascii_uppercase` -/
def isUpper (c : Char) : Bool := decide (65 ≤ c.toNat ∧ c.toNat ≤ 90)
/-- `is_ascii_lowercase` -/
def isLower (c : Char) : Bool := decide (97 ≤ c.toNat ∧ c.toNat ≤ 122)
/-- `to_ascii_uppercase` -/
def toUpper (c : Char) : Char := if isLower c then Char.ofNat (c.toNat - 32) else c
/-- `to_ascii_lowercase` -/
def toLower (c : Char) : Char := if isUpper c then Char.ofNat (c.toNat + 32) else c

/-- `snake_case_to_camel_case` (case.rs:3-26): what is appended to `dst`.  The flag is
`ucase_next`; at the end of the part a set flag is ignored. -/
def snakeToCamel : Bool → List Char → Option (List Char)
  | _, [] => some []
  | ucase, c :: r =>
    if isUpper c then none
    else if ucase then
      if toUpper c = c then none
      else (snakeToCamel false r).map (toUpper c :: ·)
    else if c = '_' then snakeToCamel true r
    else (snakeToCamel false r).map (c :: ·)

/-- `camel_case_to_snake_case` (case.rs:28-41). -/
def camelToSnake : List Char → Option (List Char)
  | [] => some []
  | c :: r =>
    if isUpper c then (camelToSnake r).map (fun s => '_' :: toLower c :: s)
    else if c = '_' then none
    else (camelToSnake r).map (c :: ·)

/-- `str::split(c)` for a single character: always at least one part. -/
def splitAt (c : Char) : List Char → List (List Char)
  | [] => [[]]
  | x :: r =>
    if x = c then [] :: splitAt c r
    else match splitAt c r with
      | [] => [[x]]
      | p :: ps => (x :: p) :: ps

/-- The parts with a separator between them. -/
def joinAt (c : Char) : List (List Char) → List Char
  | [] => []
  | [p] => p
  | p :: q :: r => p ++ c :: joinAt c (q :: r)

/-- The conversion of every part, failing if one fails. -/
def mapParts (f : List Char → Option (List Char)) : List (List Char) → Option (List (List Char))
  | [] => some []
  | p :: r => match f p with
    | none => none
    | some q => (mapParts f r).map (q :: ·)

/-- The inner loop of `serialize_field_mask` (ser/wkt.rs:264-272): what one path appends. -/
def serPath (path : List Char) : Option (List Char) :=
  (mapParts (snakeToCamel false) (splitAt '.' path)).map (joinAt '.')

/-- The outer loop (ser/wkt.rs:258-273), from what `result` holds. -/
def serPaths : List Char → List (List Char) → Option (List Char)
  | acc, [] => some acc
  | acc, p :: r => match serPath p with
    | none => none
    | some q => serPaths ((if acc.isEmpty then acc else acc ++ [',']) ++ q) r

/-- `serialize_field_mask` (ser/wkt.rs:249-276). -/
def serMask (paths : List (List Char)) : Option (List Char) := serPaths [] paths

/-- The closure of `GoogleProtobufFieldMaskVisitor::visit_str` (de/wkt.rs:183-195). -/
def dePath (path : List Char) : Option (List Char) :=
  (mapParts camelToSnake (splitAt '.' path)).map (joinAt '.')

/-- `GoogleProtobufFieldMaskVisitor::visit_str` (de/wkt.rs:176-201). -/
def deMask (s : List Char) : Option (List (List Char)) :=
  mapParts dePath ((splitAt ',' s).filter (fun p => !p.isEmpty))

end Verif.Json
