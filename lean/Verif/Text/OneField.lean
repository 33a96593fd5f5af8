import Verif.Text.ParseLemmas
import Verif.Text.IntText
import Verif.Dyn.FieldLemmas
/-!
The text of one field with an integer value.
-/
set_option autoImplicit false
namespace Verif.Text
open Verif.Wire Verif.Dyn Verif.Pool

theorem find_name {fs : List FieldDesc} (hn : (fs.map (·.name)).Nodup) {f : FieldDesc} (hf : f ∈ fs) :
    fs.find? (fun g => g.name == f.name) = some f := by
  induction fs with
  | nil => cases hf
  | cons g r ih =>
    rw [List.map_cons, List.nodup_cons] at hn
    rw [List.find?_cons]
    rcases List.mem_cons.1 hf with rfl | h
    · simp
    · have : (g.name == f.name) = false := by
        simpa using fun e : g.name = f.name => hn.1 (e ▸ List.mem_map_of_mem h)
      rw [this]
      exact ih hn.2 h

theorem findField_name {S : Schema} {md : MsgDesc} (hn : (md.fields.map (·.name)).Nodup)
    {f : FieldDesc} (hf : f ∈ md.fields) (hg : f.group = false) :
    findField S md f.name = some (some f) := by
  unfold findField MsgDesc.getFieldByName
  rw [find_name hn hf]
  simp [Option.filter, hg]

theorem anyHas_nil {S : Schema} (mem : List FieldDesc) : anyHas S [] mem = some false := by
  induction mem with
  | nil => rfl
  | cons f r ih => simpa [anyHas, FieldSet.has, FieldSet.getValue, SMap.get?] using ih

theorem clearAll_nil (ns : List Nat) : FieldSet.clearAll ns [] = [] := by
  induction ns with
  | nil => rfl
  | cons n r ih => simpa [FieldSet.clearAll, SMap.erase] using ih

/-- The tokens of `name: value`. -/
theorem lex_named {fp : List Char → Option (BitVec 64)} {n : List Char} (hn : IsIdent n)
    (r : List Char) : lex fp (n ++ (':' :: r)) = .tok (.ident n) :: .tok .colon :: lex fp r := by
  rw [lex_ident hn (Halts.cons (by decide)), lex_punct (t := .colon) rfl (by decide)]

/-- One singular field. -/
theorem parseText_one {env : TEnv} {S : Schema} {k d : Nat} {md : MsgDesc} {f : FieldDesc}
    (hmd : S.msg? d = some md) (hn : (md.fields.map (·.name)).Nodup) (hf : f ∈ md.fields)
    (hg : f.group = false) (hc : f.card ≠ .repeated) (hid : IsIdent f.name) (text : List Char) :
    parseText env S k d (f.name ++ (':' :: text)) =
      match parseVal env S (parseMsg env S k) f.kind (lex env.parse64 text) with
      | .error e => .error e
      | .ok (v, r) =>
        match parseSep [(f.number, .val v)] r with
        | .error e => .error e
        | .ok (fs, r') =>
          match topLoop (parseField env S (parseMsg env S k) md d)
            ((lex env.parse64 text).length + 1) fs r' with
          | .error e => .error e
          | .ok fs' => .ok ⟨d, fs'⟩ := by
  unfold parseText mergeText mergeToks DynMsg.empty
  simp only [hmd]
  rw [lex_named hid]
  simp only [List.length_cons]
  rw [topLoop]
  simp only [parseField, parseFieldName, parseColon, parseNamed, findField_name hn hf hg,
    parseFieldValue, isList_of_ne hc, isMap_of_ne hc, Bool.false_eq_true, if_false, anyHas_nil,
    FieldSet.has, FieldSet.getValue, SMap.get?, FieldSet.set, clearAll_nil, SMap.insert]
  cases parseVal env S (parseMsg env S k) f.kind (lex env.parse64 text) with
  | error e => rfl
  | ok p =>
    obtain ⟨v, r⟩ := p
    simp only
    cases parseSep [(f.number, .val v)] r with
    | error e => rfl
    | ok q => rfl
  · intro h
    cases h

/-- The text of a field whose value takes up the whole rest of the text. -/
theorem parseText_one_end {env : TEnv} {S : Schema} {k d : Nat} {md : MsgDesc} {f : FieldDesc}
    (hmd : S.msg? d = some md) (hn : (md.fields.map (·.name)).Nodup) (hf : f ∈ md.fields)
    (hg : f.group = false) (hc : f.card ≠ .repeated) (hid : IsIdent f.name) {text : List Char}
    (P : Prop) [Decidable P] {v : Value} {e : TErr}
    (h : parseVal env S (parseMsg env S k) f.kind (lex env.parse64 text) =
      if P then .ok (v, []) else .error e) :
    parseText env S k d (f.name ++ (':' :: text)) =
      if P then .ok ⟨d, [(f.number, .val v)]⟩ else .error e := by
  rw [parseText_one hmd hn hf hg hc hid, h]
  by_cases hP : P
  · simp only [hP, if_true]
    rfl
  · simp only [hP, if_false]

/-- An integer of a signed kind, in any position. -/
theorem parseSigned_lit {fp : List Char → Option (BitVec 64)} {w : Nat} (hw : 0 < w) {neg : Bool}
    {s ds : List Char} {x : Nat} (hs : IntLit s ds x) {r : List Char} (hr : Stop r) :
    parseSigned w (lex fp (signText neg ++ (s ++ r))) =
      if -(2 ^ (w - 1) : Int) ≤ litVal neg x ds ∧ litVal neg x ds < 2 ^ (w - 1) then
        .ok (BitVec.ofInt w (litVal neg x ds), lex fp r) else .error .outOfRange := by
  rw [lex_signed hs hr, parseSigned, parseInt_signed]
  simp only
  rw [signedOf_val hw hs]
  by_cases hP : -(2 ^ (w - 1) : Int) ≤ litVal neg x ds ∧ litVal neg x ds < 2 ^ (w - 1)
  · rw [if_pos hP, if_pos hP]
  · rw [if_neg hP, if_neg hP]

/-- An integer of an unsigned kind, in any position. -/
theorem parseUnsigned_lit {fp : List Char → Option (BitVec 64)} {w : Nat} {neg : Bool}
    {s ds : List Char} {x : Nat} (hs : IntLit s ds x) {r : List Char} (hr : Stop r) :
    parseUnsigned w (lex fp (signText neg ++ (s ++ r))) =
      if neg = false ∧ posVal x ds < 2 ^ w then
        .ok (BitVec.ofNat w (posVal x ds), lex fp r) else .error .outOfRange := by
  rw [lex_signed hs hr, parseUnsigned, parseInt_signed]
  simp only
  rw [unsignedOf_val hs]
  by_cases hP : neg = false ∧ posVal x ds < 2 ^ w
  · rw [if_pos hP, if_pos hP]
  · rw [if_neg hP, if_neg hP]

end Verif.Text
