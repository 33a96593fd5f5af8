import Verif.Text.OneField
import Verif.Text.StrLemmas
import Verif.Dyn.Alike
/-!
Printed scalar values read back.
-/
set_option autoImplicit false
namespace Verif.Text
open Verif.Wire Verif.Dyn Verif.Pool

/-! ### What the standard library's floats must satisfy -/

/-- A finite number. -/
def isFin64 (x : BitVec 64) : Bool := decide (x.toNat % 0x8000000000000000 < 0x7FF0000000000000)
/-- A finite number. -/
def isFin32 (x : BitVec 32) : Bool := decide (x.toNat % 0x80000000 < 0x7F800000)

/-- `f32::INFINITY` -/
def inf32 : BitVec 32 := 0x7F800000#32
/-- `-f32::INFINITY` -/
def ninf32 : BitVec 32 := 0xFF800000#32

/-- `s` is a decimal number with a point which `f64::from_str` reads, up to the sign, as `w`. -/
def Decimal (env : TEnv) (s : List Char) (w : BitVec 64) : Prop :=
  ∃ (neg : Bool) (a b : List Char) (u : BitVec 64), s = signText neg ++ (a ++ ('.' :: b)) ∧ a ≠ [] ∧
    (∀ c ∈ a, cDigit c = true) ∧ (∀ c ∈ b, cDigit c = true) ∧ env.parse64 (a ++ ('.' :: b)) = some u ∧
    w = if neg then neg64 u else u

/-- The `f32` that survives the text format: any but `±7.038531e-26` (`C34_float_false`). -/
def textF32 (v : BitVec 32) : Prop := v ≠ 0x15AE43FD#32 ∧ v ≠ 0x95AE43FD#32

instance (v : BitVec 32) : Decidable (textF32 v) := by unfold textF32; infer_instance

/-- What printing and reading floats must satisfy: Rust's `Display` for floats writes
`NaN`, `inf`, `-inf` or digits with a point (format.rs:67-80 forces the point), and reading
them gives the number back; a 32-bit float is read as a 64-bit one and then narrowed, which
gives it back but for one number and its negative. -/
structure FloatSpec (env : TEnv) : Prop where
  nan64 : ∀ v, isNan64 v = true → env.show64 v = "NaN".toList
  inf64 : env.show64 inf64 = "inf".toList
  ninf64 : env.show64 (neg64 Text.inf64) = "-inf".toList
  fin64 : ∀ v, isFin64 v = true → Decimal env (env.show64 v) v
  nan32 : ∀ v, isNan32 v = true → env.show32 v = "NaN".toList
  inf32 : env.show32 inf32 = "inf".toList
  ninf32 : env.show32 ninf32 = "-inf".toList
  fin32 : ∀ v, isFin32 v = true → textF32 v → ∃ w, Decimal env (env.show32 v) w ∧ env.narrow w = v
  narrowNan : isNan32 (env.narrow Text.nan64) = true
  narrowInf : env.narrow Text.inf64 = Text.inf32
  narrowNinf : env.narrow (neg64 Text.inf64) = Text.ninf32

theorem classes64 (v : BitVec 64) : isNan64 v = true ∨ isFin64 v = true ∨ v = inf64 ∨ v = neg64 inf64 := by
  by_cases h1 : 0x7FF0000000000000 < v.toNat % 0x8000000000000000
  · exact .inl (by simpa [isNan64] using h1)
  · by_cases h2 : v.toNat % 0x8000000000000000 < 0x7FF0000000000000
    · exact .inr (.inl (by simpa [isFin64] using h2))
    · have hv := v.isLt
      have e : v.toNat = 0x7FF0000000000000 ∨ v.toNat = 0xFFF0000000000000 := by omega
      rcases e with e | e
      · exact .inr (.inr (.inl (BitVec.eq_of_toNat_eq e)))
      · exact .inr (.inr (.inr (BitVec.eq_of_toNat_eq e)))

theorem classes32 (v : BitVec 32) : isNan32 v = true ∨ isFin32 v = true ∨ v = inf32 ∨ v = ninf32 := by
  by_cases h1 : 0x7F800000 < v.toNat % 0x80000000
  · exact .inl (by simpa [isNan32] using h1)
  · by_cases h2 : v.toNat % 0x80000000 < 0x7F800000
    · exact .inr (.inl (by simpa [isFin32] using h2))
    · have hv := v.isLt
      have e : v.toNat = 0x7F800000 ∨ v.toNat = 0xFF800000 := by omega
      rcases e with e | e
      · exact .inr (.inr (.inl (BitVec.eq_of_toNat_eq e)))
      · exact .inr (.inr (.inr (BitVec.eq_of_toNat_eq e)))

/-! ### Tails -/

/-- The text after a value: it does not grow into the value, and the next token is not a
string. -/
def TailOk (fp : List Char → Option (BitVec 64)) (r : List Char) : Prop :=
  Stop r ∧ (lex fp r = [] ∨ ∃ t ts, lex fp r = .tok t :: ts ∧ ∀ b, t ≠ .str b)

theorem TailOk.punct {fp : List Char → Option (BitVec 64)} {c : Char} {t : Tok} {r : List Char}
    (h : Text.punct c = some t) (hc : c ≠ '.') : TailOk fp (c :: r) := by
  have hmem : c = '-' ∨ c = '{' ∨ c = '}' ∨ c = '[' ∨ c = ']' ∨ c = '<' ∨ c = '>' ∨ c = ',' ∨
      c = ':' ∨ c = ';' ∨ c = '/' := by
    unfold Text.punct at h
    grind
  refine ⟨Stop.cons ?_ hc, .inr ⟨t, _, lex_punct h hc, ?_⟩⟩
  · rcases hmem with rfl | rfl | rfl | rfl | rfl | rfl | rfl | rfl | rfl | rfl | rfl <;> decide
  · rintro b rfl
    rcases hmem with rfl | rfl | rfl | rfl | rfl | rfl | rfl | rfl | rfl | rfl | rfl <;> cases h

theorem TailOk.nil {fp : List Char → Option (BitVec 64)} : TailOk fp [] := ⟨Stop.nil, .inl rfl⟩

theorem moreStrings_tail {fp : List Char → Option (BitVec 64)} {r : List Char} (h : TailOk fp r) :
    moreStrings (lex fp r) = .ok ([], lex fp r) := by
  rcases h.2 with h | ⟨t, ts, h, hb⟩
  · rw [h]; rfl
  · rw [h]
    cases t <;> first | rfl | exact absurd rfl (hb _)

/-! ### Scalars -/

theorem isIdent_true : IsIdent "true".toList := by decide
theorem isIdent_false : IsIdent "false".toList := by decide
theorem isIdent_nan : IsIdent "NaN".toList := by decide
theorem isIdent_inf : IsIdent "inf".toList := by decide

theorem parseFloat_decimal {env : TEnv} {s : List Char} {w : BitVec 64} (h : Decimal env s w)
    {r : List Char} (hr : Stop r) :
    parseFloat env (lex env.parse64 (s ++ r)) = .ok (w, lex env.parse64 r) := by
  obtain ⟨neg, a, b, u, rfl, hne, ha, hb, hu, rfl⟩ := h
  have e := lex_float (fp := env.parse64) hne ha hb hu hr
  cases neg with
  | false =>
    simp only [signText, Bool.false_eq_true, if_false, List.nil_append]
    rw [e]
    rfl
  | true =>
    simp only [signText, if_true, List.cons_append, List.nil_append]
    rw [lex_punct (t := .minus) rfl (by decide)]
    simp only [List.append_assoc, List.cons_append] at e
    simp only [List.append_assoc, List.cons_append]
    rw [e]
    rfl

theorem parseFloat_nan {env : TEnv} {r : List Char} (hr : Stop r) :
    parseFloat env (lex env.parse64 ("NaN".toList ++ r)) = .ok (nan64, lex env.parse64 r) := by
  rw [lex_ident isIdent_nan hr.ident]
  rfl

theorem parseFloat_inf {env : TEnv} {r : List Char} (hr : Stop r) :
    parseFloat env (lex env.parse64 ("inf".toList ++ r)) = .ok (inf64, lex env.parse64 r) := by
  rw [lex_ident isIdent_inf hr.ident]
  rfl

theorem parseFloat_ninf {env : TEnv} {r : List Char} (hr : Stop r) :
    parseFloat env (lex env.parse64 ("-inf".toList ++ r)) = .ok (neg64 inf64, lex env.parse64 r) := by
  show parseFloat env (lex env.parse64 ('-' :: ("inf".toList ++ r))) = _
  rw [lex_punct (t := .minus) rfl (by decide), lex_ident isIdent_inf hr.ident]
  rfl

theorem parseSigned_print {fp : List Char → Option (BitVec 64)} {w : Nat} (hw : 0 < w) (v : BitVec w)
    {r : List Char} (hr : Stop r) :
    parseSigned w (lex fp (decInt v.toInt ++ r)) = .ok (v, lex fp r) := by
  obtain ⟨neg, d, e, hd, hv⟩ := decInt_lit v.toInt
  rw [e, List.append_assoc, parseSigned_lit hw hd hr, hv, if_pos, BitVec.ofInt_toInt]
  have h1 := BitVec.le_toInt v
  have h2 := BitVec.toInt_lt (x := v)
  exact ⟨h1, h2⟩

theorem parseUnsigned_print {fp : List Char → Option (BitVec 64)} {w : Nat} (v : BitVec w)
    {r : List Char} (hr : Stop r) :
    parseUnsigned w (lex fp (decDigits v.toNat ++ r)) = .ok (v, lex fp r) := by
  have := parseUnsigned_lit (fp := fp) (w := w) (neg := false) (decDigits_lit v.toNat) hr
  simp only [signText, Bool.false_eq_true, if_false, List.nil_append] at this
  rw [this, posVal_decDigits, if_pos (by simpa using v.isLt), BitVec.ofNat_toNat, BitVec.setWidth_eq]

theorem parseBytes_print {fp : List Char → Option (BitVec 64)} (b : Bytes) {r : List Char}
    (hr : TailOk fp r) : parseBytes (lex fp (fmtString b ++ r)) = .ok (b, lex fp r) := by
  rw [lex_fmtString]
  simp [parseBytes, moreStrings_tail hr]

/-- Enum values: the names of an enum are identifiers and distinct. -/
def enumNames (ed : EnumDesc) : Bool :=
  decide (ed.values.map (·.1)).Nodup && ed.values.all (fun p => decide (IsIdent p.1))

/-- `enumName` gives a declared name of the number. -/
def NamesEnums (env : TEnv) : Prop :=
  ∀ ed v n, env.enumName ed v = some n → (n, v) ∈ ed.values

theorem byName_mem {l : List (Name × BitVec 32)} (hn : (l.map (·.1)).Nodup) {n : Name} {v : BitVec 32}
    (h : (n, v) ∈ l) : l.find? (fun p => p.1 == n) = some (n, v) := by
  induction l with
  | nil => cases h
  | cons p r ih =>
    rw [List.map_cons, List.nodup_cons] at hn
    rw [List.find?_cons]
    rcases List.mem_cons.1 h with h | h
    · subst h; simp
    · have : (p.1 == n) = false := by
        simpa using fun e : p.1 = n => hn.1 (e ▸ List.mem_map_of_mem (f := (·.1)) h)
      rw [this]
      exact ih hn.2 h

theorem parseEnum_number {S : Schema} {fp : List Char → Option (BitVec 64)} (e : Nat) (v : BitVec 32)
    {r : List Char} (hr : Stop r) :
    parseEnum S e (lex fp (decInt v.toInt ++ r)) = .ok (v, lex fp r) := by
  have h := parseSigned_print (fp := fp) (by decide) v hr
  obtain ⟨neg, d, he, hd, hv⟩ := decInt_lit v.toInt
  rw [he, List.append_assoc, lex_signed hd hr] at h ⊢
  cases neg with
  | false => simpa only [signTok, Bool.false_eq_true, if_false, List.nil_append, parseEnum] using h
  | true => simpa only [signTok, if_true, List.cons_append, List.nil_append, parseEnum] using h

/-- What is required of a scalar. -/
def scalarText : Value → Prop
  | .f32 v => textF32 v
  | _ => True

/-- A printed scalar reads back. -/
theorem parseVal_scalar {env : TEnv} (hF : FloatSpec env) (hN : NamesEnums env) {S : Schema} {pay : Payloads}
    (hE : ∀ ed ∈ S.enums, enumNames ed = true) {sub : Nat → List LTok → PR FieldSet} {kind : Kind}
    {v : Value} (hv : scalarOk kind v = true) (hq : scalarText v) {s : List Char}
    (hs : fmtScalar env S (some kind) v = some s) {r : List Char} (hr : TailOk env.parse64 r) :
    ∃ w, parseVal env S sub kind (lex env.parse64 (s ++ r)) = .ok (w, lex env.parse64 r) ∧ AlikeBy S pay v w := by
  have hval := scalarOk_isValid hv
  have hrs := hr.1
  cases v with
  | bool b =>
    cases kind <;> simp [Value.isValid] at hval
    cases hs
    refine ⟨.bool b, ?_, .refl _⟩
    cases b
    · show mapP _ (parseBool (lex _ ("false".toList ++ r))) = _
      rw [lex_ident isIdent_false hrs.ident]
      rfl
    · show mapP _ (parseBool (lex _ ("true".toList ++ r))) = _
      rw [lex_ident isIdent_true hrs.ident]
      rfl
  | i32 x =>
    cases hs
    refine ⟨.i32 x, ?_, .refl _⟩
    cases kind <;> simp [Value.isValid] at hval
    all_goals simp only [parseVal, parseSigned_print (by decide : 0 < 32) x hrs, mapP]
  | i64 x =>
    cases hs
    refine ⟨.i64 x, ?_, .refl _⟩
    cases kind <;> simp [Value.isValid] at hval
    all_goals simp only [parseVal, parseSigned_print (by decide : 0 < 64) x hrs, mapP]
  | u32 x =>
    cases hs
    refine ⟨.u32 x, ?_, .refl _⟩
    cases kind <;> simp [Value.isValid] at hval
    all_goals simp only [parseVal, parseUnsigned_print x hrs, mapP]
  | u64 x =>
    cases hs
    refine ⟨.u64 x, ?_, .refl _⟩
    cases kind <;> simp [Value.isValid] at hval
    all_goals simp only [parseVal, parseUnsigned_print x hrs, mapP]
  | f32 x =>
    cases kind <;> simp [Value.isValid] at hval
    cases hs
    simp only [parseVal]
    rcases classes32 x with h | h | h | h
    · rw [hF.nan32 x h, parseFloat_nan hrs]
      exact ⟨_, rfl, .nan32 h hF.narrowNan⟩
    · obtain ⟨w, hw, hn⟩ := hF.fin32 x h hq
      rw [parseFloat_decimal hw hrs]
      refine ⟨_, rfl, ?_⟩
      simp only [hn]
      exact .refl _
    · subst h
      rw [hF.inf32, parseFloat_inf hrs]
      refine ⟨_, rfl, ?_⟩
      simp only [hF.narrowInf]
      exact .refl _
    · subst h
      rw [hF.ninf32, parseFloat_ninf hrs]
      refine ⟨_, rfl, ?_⟩
      simp only [hF.narrowNinf]
      exact .refl _
  | f64 x =>
    cases kind <;> simp [Value.isValid] at hval
    cases hs
    simp only [parseVal]
    rcases classes64 x with h | h | h | h
    · rw [hF.nan64 x h, parseFloat_nan hrs]
      exact ⟨_, rfl, .nan64 h (by decide)⟩
    · rw [parseFloat_decimal (hF.fin64 x h) hrs]
      exact ⟨_, rfl, .refl _⟩
    · subst h
      rw [hF.inf64, parseFloat_inf hrs]
      exact ⟨_, rfl, .refl _⟩
    · subst h
      rw [hF.ninf64, parseFloat_ninf hrs]
      exact ⟨_, rfl, .refl _⟩
  | str b =>
    cases kind <;> simp [Value.isValid] at hval
    cases hs
    refine ⟨.str b, ?_, .refl _⟩
    simp only [parseVal, parseBytes_print b hr, scalarOk_utf8 hv, if_true]
  | bytes b =>
    cases kind <;> simp [Value.isValid] at hval
    cases hs
    refine ⟨.bytes b, ?_, .refl _⟩
    simp only [parseVal, parseBytes_print b hr, mapP]
  | enum x =>
    cases kind <;> simp [Value.isValid] at hval
    rename_i e
    refine ⟨.enum x, ?_, .refl _⟩
    simp only [fmtScalar] at hs
    simp only [parseVal]
    cases hed : S.enums[e]? with
    | none => simp [hed] at hs
    | some ed =>
      simp only [hed] at hs
      cases hn : env.enumName ed x with
      | none =>
        simp only [hn, Option.some.injEq] at hs
        subst hs
        rw [parseEnum_number e x hrs]
        rfl
      | some n =>
        simp only [hn, Option.some.injEq] at hs
        subst hs
        have hm := hN ed x n hn
        have hok := hE ed (List.mem_of_getElem? hed)
        simp only [enumNames, Bool.and_eq_true, decide_eq_true_eq, List.all_eq_true] at hok
        rw [lex_ident (hok.2 _ hm) hrs.ident]
        simp only [parseEnum, hed, EnumDesc.byName, byName_mem hok.1 hm, Option.map_some, mapP]
  | msg d fs => cases kind <;> simp [scalarOk, Value.isValid] at hv
  | list vs => cases kind <;> simp [scalarOk, Value.isValid] at hv
  | map kvs => cases kind <;> simp [scalarOk, Value.isValid] at hv

end Verif.Text
