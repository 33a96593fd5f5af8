import Verif.Text.StrLemmas
import Verif.Text.OneField
import Verif.Props.Example
/-!
The text format: strings (C33) and integers (C36).
-/
set_option autoImplicit false
namespace Verif.Props
open Verif.Wire Verif.Dyn Verif.Pool Verif.Text

/-- What the standard library supplies, for the examples: any text is the number 1.0. -/
def exEnv : TEnv where
  show32 _ := "1.0".toList
  show64 _ := "1.0".toList
  parse64 _ := some 0x3FF0000000000000#64
  narrow _ := 0x3F800000#32
  enumName e n := (e.values.find? (fun p => p.2 == n)).map (·.1)

/-- The message `t.M`. -/
def exM : MsgDesc :=
  { name := "t.M".toList, fields := [Ex.fA, Ex.fS, Ex.fChild, Ex.fXs, Ex.fTags, Ex.fO1, Ex.fO2, Ex.fYs,
      Ex.fG, Ex.fE, Ex.fD], mapEntry := false, extensions := [Ex.xExt, Ex.xMsgs] }

/-! ### C33 -/

/-- C33: the printed form of any bytes, followed by any text, is lexed as one string token
with exactly these bytes; lexing goes on right after it. -/
theorem C33_escape_roundtrip (fp : List Char → Option (BitVec 64)) (b : Bytes) (rest : List Char) :
    lex fp (fmtString b ++ rest) = .tok (.str b) :: lex fp rest := lex_fmtString fp b rest

/-- C33: a printed literal consists of printable ASCII characters only. -/
theorem C33_printable (b : Bytes) : ∀ c ∈ fmtString b, 0x20 ≤ c.toNat ∧ c.toNat ≤ 0x7e := by
  have hoct : ∀ n : Nat, n < 8 → 0x20 ≤ (digitChar n).toNat ∧ (digitChar n).toNat ≤ 0x7e := by
    intro n h
    rw [digitChar_toNat (by omega)]
    omega
  have h1 : ∀ b : UInt8, ∀ c ∈ fmtByte b, 0x20 ≤ c.toNat ∧ c.toNat ≤ 0x7e := by
    intro b c hc
    unfold fmtByte at hc
    split at hc
    · revert c hc; decide
    split at hc
    · revert c hc; decide
    split at hc
    · revert c hc; decide
    split at hc
    · revert c hc; decide
    split at hc
    · revert c hc; decide
    split at hc
    · revert c hc; decide
    split at hc
    · rename_i h
      rw [List.mem_singleton] at hc
      subst hc
      have hv : b.toNat.isValidChar := by
        left
        omega
      rw [Char.ofNat, dif_pos hv]
      exact h
    · simp only [octal3, List.mem_cons, List.not_mem_nil, or_false] at hc
      rcases hc with rfl | rfl | rfl | rfl
      · decide
      · exact hoct _ (Nat.mod_lt _ (by decide))
      · exact hoct _ (Nat.mod_lt _ (by decide))
      · exact hoct _ (Nat.mod_lt _ (by decide))
  have h2 : ∀ b : Bytes, ∀ c ∈ fmtBytes b, 0x20 ≤ c.toNat ∧ c.toNat ≤ 0x7e := by
    intro b
    induction b with
    | nil => intro c hc; cases hc
    | cons x r ih =>
      intro c hc
      rw [fmtBytes, List.mem_append] at hc
      rcases hc with hc | hc
      · exact h1 x c hc
      · exact ih c hc
  intro c hc
  rw [fmtString, List.mem_cons, List.mem_append, List.mem_singleton] at hc
  rcases hc with rfl | hc | rfl
  · decide
  · exact h2 b c hc
  · decide

/-- C33 through the API: a bytes field given a printed literal is set to these bytes. -/
theorem C33_bytes_field (env : TEnv) {S : Schema} {k d : Nat} {md : MsgDesc} {f : FieldDesc}
    (hmd : S.msg? d = some md) (hn : (md.fields.map (·.name)).Nodup) (hf : f ∈ md.fields)
    (hg : f.group = false) (hc : f.card ≠ .repeated) (hid : IsIdent f.name) (hk : f.kind = .bytes)
    (b : Bytes) :
    parseText env S k d (f.name ++ (':' :: fmtString b)) = .ok ⟨d, [(f.number, .val (.bytes b))]⟩ := by
  have h : parseVal env S (parseMsg env S k) f.kind (lex env.parse64 (fmtString b)) =
      if True then .ok (.bytes b, []) else .error .fuel := by
    have := lex_fmtString env.parse64 b []
    rw [List.append_nil, lex_nil] at this
    rw [this, hk]
    simp [parseVal, mapP, parseBytes, moreStrings]
  have := parseText_one_end hmd hn hf hg hc hid True h
  simpa using this

/-- C33 through the API: a string field given the printed form of a string is set to it. -/
theorem C33_string_field (env : TEnv) {S : Schema} {k d : Nat} {md : MsgDesc} {f : FieldDesc}
    (hmd : S.msg? d = some md) (hn : (md.fields.map (·.name)).Nodup) (hf : f ∈ md.fields)
    (hg : f.group = false) (hc : f.card ≠ .repeated) (hid : IsIdent f.name) (hk : f.kind = .string)
    (b : Bytes) (hb : utf8Valid b = true) :
    parseText env S k d (f.name ++ (':' :: fmtString b)) = .ok ⟨d, [(f.number, .val (.str b))]⟩ := by
  have h : parseVal env S (parseMsg env S k) f.kind (lex env.parse64 (fmtString b)) =
      if True then .ok (.str b, []) else .error .fuel := by
    have := lex_fmtString env.parse64 b []
    rw [List.append_nil, lex_nil] at this
    rw [this, hk]
    simp [parseVal, parseBytes, moreStrings, hb]
  have := parseText_one_end hmd hn hf hg hc hid True h
  simpa using this

example : fmtString [0, 34, 10, 200, 65] = "\"\\000\\\"\\n\\310A\"".toList := by decide +kernel
example : lex exEnv.parse64 ("\"\\000\\\"\\n\\310A\"7".toList) =
    .tok (.str [0, 34, 10, 200, 65]) :: lex exEnv.parse64 ['7'] :=
  C33_escape_roundtrip exEnv.parse64 [0, 34, 10, 200, 65] ['7']
example : Ex.schema.msg? 0 = some exM ∧ (exM.fields.map (·.name)).Nodup ∧ Ex.fS ∈ exM.fields ∧
    Ex.fS.group = false ∧ Ex.fS.card ≠ .repeated ∧ IsIdent Ex.fS.name ∧ Ex.fS.kind = .string ∧
    utf8Valid [0xC3, 0xA9, 0] = true :=
  ⟨rfl, by decide, by simp [exM], rfl, by decide, by decide, rfl, by decide +kernel⟩

/-! ### C36 -/

/-- C36: a literal of any radix, with or without a minus sign, for a 32-bit signed field is
accepted exactly when its value fits, and then read as that value. -/
theorem C36_int32 (env : TEnv) {S : Schema} {k d : Nat} {md : MsgDesc} {f : FieldDesc}
    (hmd : S.msg? d = some md) (hn : (md.fields.map (·.name)).Nodup) (hf : f ∈ md.fields)
    (hg : f.group = false) (hc : f.card ≠ .repeated) (hid : IsIdent f.name)
    (hk : f.kind = .int32 ∨ f.kind = .sint32 ∨ f.kind = .sfixed32)
    (neg : Bool) {s ds : List Char} {radix : Nat} (hs : IntLit s ds radix) :
    parseText env S k d (f.name ++ (':' :: (signText neg ++ s))) =
      if -2 ^ 31 ≤ litVal neg radix ds ∧ litVal neg radix ds < 2 ^ 31 then
        .ok ⟨d, [(f.number, .val (.i32 (BitVec.ofInt 32 (litVal neg radix ds))))]⟩
      else .error .outOfRange := by
  refine parseText_one_end hmd hn hf hg hc hid _ ?_
  have h := parseSigned_lit (fp := env.parse64) (w := 32) (by decide) (neg := neg) hs Stop.nil
  rw [List.append_nil, lex_nil] at h
  have e : parseVal env S (parseMsg env S k) f.kind (lex env.parse64 (signText neg ++ s)) =
      mapP .i32 (parseSigned 32 (lex env.parse64 (signText neg ++ s))) := by
    rcases hk with hk | hk | hk <;> rw [hk] <;> rfl
  rw [e, h]
  simp only [Nat.add_one_sub_one]
  split <;> rfl

/-- C36 for a 64-bit signed field. -/
theorem C36_int64 (env : TEnv) {S : Schema} {k d : Nat} {md : MsgDesc} {f : FieldDesc}
    (hmd : S.msg? d = some md) (hn : (md.fields.map (·.name)).Nodup) (hf : f ∈ md.fields)
    (hg : f.group = false) (hc : f.card ≠ .repeated) (hid : IsIdent f.name)
    (hk : f.kind = .int64 ∨ f.kind = .sint64 ∨ f.kind = .sfixed64)
    (neg : Bool) {s ds : List Char} {radix : Nat} (hs : IntLit s ds radix) :
    parseText env S k d (f.name ++ (':' :: (signText neg ++ s))) =
      if -2 ^ 63 ≤ litVal neg radix ds ∧ litVal neg radix ds < 2 ^ 63 then
        .ok ⟨d, [(f.number, .val (.i64 (BitVec.ofInt 64 (litVal neg radix ds))))]⟩
      else .error .outOfRange := by
  refine parseText_one_end hmd hn hf hg hc hid _ ?_
  have h := parseSigned_lit (fp := env.parse64) (w := 64) (by decide) (neg := neg) hs Stop.nil
  rw [List.append_nil, lex_nil] at h
  have e : parseVal env S (parseMsg env S k) f.kind (lex env.parse64 (signText neg ++ s)) =
      mapP .i64 (parseSigned 64 (lex env.parse64 (signText neg ++ s))) := by
    rcases hk with hk | hk | hk <;> rw [hk] <;> rfl
  rw [e, h]
  simp only [Nat.add_one_sub_one]
  split <;> rfl

/-- C36 for a 32-bit unsigned field. Missing: `-0`, whose value fits but which is rejected
(`C36_false`). -/
theorem C36_uint32_partial (env : TEnv) {S : Schema} {k d : Nat} {md : MsgDesc} {f : FieldDesc}
    (hmd : S.msg? d = some md) (hn : (md.fields.map (·.name)).Nodup) (hf : f ∈ md.fields)
    (hg : f.group = false) (hc : f.card ≠ .repeated) (hid : IsIdent f.name)
    (hk : f.kind = .uint32 ∨ f.kind = .fixed32)
    (neg : Bool) {s ds : List Char} {radix : Nat} (hs : IntLit s ds radix)
    (h0 : neg = true → litVal neg radix ds ≠ 0) :
    parseText env S k d (f.name ++ (':' :: (signText neg ++ s))) =
      if 0 ≤ litVal neg radix ds ∧ litVal neg radix ds < 2 ^ 32 then
        .ok ⟨d, [(f.number, .val (.u32 (BitVec.ofInt 32 (litVal neg radix ds))))]⟩
      else .error .outOfRange := by
  refine parseText_one_end hmd hn hf hg hc hid _ ?_
  have h := parseUnsigned_lit (fp := env.parse64) (w := 32) (neg := neg) hs Stop.nil
  rw [List.append_nil, lex_nil] at h
  have e : parseVal env S (parseMsg env S k) f.kind (lex env.parse64 (signText neg ++ s)) =
      mapP .u32 (parseUnsigned 32 (lex env.parse64 (signText neg ++ s))) := by
    rcases hk with hk | hk <;> rw [hk] <;> rfl
  rw [e, h]
  cases neg with
  | true =>
    have := h0 rfl
    simp only [litVal, if_true] at this ⊢
    rw [if_neg (by simp), if_neg (by omega)]
    rfl
  | false =>
    simp only [litVal, Bool.false_eq_true, if_false, true_and, BitVec.ofInt_natCast]
    by_cases hv : posVal radix ds < 2 ^ 32
    · rw [if_pos hv, if_pos (by omega)]
      rfl
    · rw [if_neg hv, if_neg (by omega)]
      rfl

/-- C36 for a 64-bit unsigned field. Missing: `-0`, as above. -/
theorem C36_uint64_partial (env : TEnv) {S : Schema} {k d : Nat} {md : MsgDesc} {f : FieldDesc}
    (hmd : S.msg? d = some md) (hn : (md.fields.map (·.name)).Nodup) (hf : f ∈ md.fields)
    (hg : f.group = false) (hc : f.card ≠ .repeated) (hid : IsIdent f.name)
    (hk : f.kind = .uint64 ∨ f.kind = .fixed64)
    (neg : Bool) {s ds : List Char} {radix : Nat} (hs : IntLit s ds radix)
    (h0 : neg = true → litVal neg radix ds ≠ 0) :
    parseText env S k d (f.name ++ (':' :: (signText neg ++ s))) =
      if 0 ≤ litVal neg radix ds ∧ litVal neg radix ds < 2 ^ 64 then
        .ok ⟨d, [(f.number, .val (.u64 (BitVec.ofInt 64 (litVal neg radix ds))))]⟩
      else .error .outOfRange := by
  refine parseText_one_end hmd hn hf hg hc hid _ ?_
  have h := parseUnsigned_lit (fp := env.parse64) (w := 64) (neg := neg) hs Stop.nil
  rw [List.append_nil, lex_nil] at h
  have e : parseVal env S (parseMsg env S k) f.kind (lex env.parse64 (signText neg ++ s)) =
      mapP .u64 (parseUnsigned 64 (lex env.parse64 (signText neg ++ s))) := by
    rcases hk with hk | hk <;> rw [hk] <;> rfl
  rw [e, h]
  cases neg with
  | true =>
    have := h0 rfl
    simp only [litVal, if_true] at this ⊢
    rw [if_neg (by simp), if_neg (by omega)]
    rfl
  | false =>
    simp only [litVal, Bool.false_eq_true, if_false, true_and, BitVec.ofInt_natCast]
    by_cases hv : posVal radix ds < 2 ^ 64
    · rw [if_pos hv, if_pos (by omega)]
      rfl
    · rw [if_neg hv, if_neg (by omega)]
      rfl

/-- The value written is the mathematical value: reading the stored number back gives it. -/
theorem C36_exact (v : Int) : (-2 ^ 31 ≤ v ∧ v < 2 ^ 31 → (BitVec.ofInt 32 v).toInt = v) ∧
    (-2 ^ 63 ≤ v ∧ v < 2 ^ 63 → (BitVec.ofInt 64 v).toInt = v) ∧
    (0 ≤ v ∧ v < 2 ^ 32 → ((BitVec.ofInt 32 v).toNat : Int) = v) ∧
    (0 ≤ v ∧ v < 2 ^ 64 → ((BitVec.ofInt 64 v).toNat : Int) = v) := by
  refine ⟨fun h => ?_, fun h => ?_, fun h => ?_, fun h => ?_⟩
  · rw [BitVec.toInt_ofInt]; simp only [Int.bmod]; omega
  · rw [BitVec.toInt_ofInt]; simp only [Int.bmod]; omega
  · rw [BitVec.toNat_ofInt]; omega
  · rw [BitVec.toNat_ofInt]; omega

/-- The integer literals are exactly these four forms of text. -/
theorem C36_literals (s ds : List Char) (radix : Nat) : IntLit s ds radix ↔
    (radix = 10 ∧ s = ds ∧ (ds = ['0'] ∨ ∃ c r, ds = c :: r ∧ '1' ≤ c ∧ c ≤ '9' ∧ ∀ x ∈ r, '0' ≤ x ∧ x ≤ '9')) ∨
    (radix = 8 ∧ s = '0' :: ds ∧ ds ≠ [] ∧ ∀ x ∈ ds, '0' ≤ x ∧ x ≤ '7') ∨
    (radix = 16 ∧ (s = '0' :: 'x' :: ds ∨ s = '0' :: 'X' :: ds) ∧ ds ≠ [] ∧
      ∀ x ∈ ds, ('0' ≤ x ∧ x ≤ '9') ∨ ('A' ≤ x ∧ x ≤ 'F') ∨ ('a' ≤ x ∧ x ≤ 'f')) := by
  have hr : ∀ (lo hi c : Char), inR lo.toNat hi.toNat c = true ↔ lo ≤ c ∧ c ≤ hi := by
    intro lo hi c
    rw [inR_iff]
    rfl
  constructor
  · intro h
    cases h with
    | zero => exact .inl ⟨rfl, rfl, .inl rfl⟩
    | dec hc hd =>
      exact .inl ⟨rfl, rfl, .inr ⟨_, _, rfl, ((hr '1' '9' _).1 hc).1, ((hr '1' '9' _).1 hc).2,
        fun x hx => (hr '0' '9' x).1 (hd x hx)⟩⟩
    | oct hne hd => exact .inr (.inl ⟨rfl, rfl, hne, fun x hx => (hr '0' '7' x).1 (hd x hx)⟩)
    | hex hx hne hd =>
      refine .inr (.inr ⟨rfl, ?_, hne, fun x hx => ?_⟩)
      · rcases hx with rfl | rfl
        · exact .inl rfl
        · exact .inr rfl
      · have := hd x hx
        simp only [cHex, Bool.or_eq_true] at this
        rcases this with (h | h) | h
        · exact .inl ((hr '0' '9' x).1 h)
        · exact .inr (.inl ((hr 'A' 'F' x).1 h))
        · exact .inr (.inr ((hr 'a' 'f' x).1 h))
  · rintro (⟨rfl, rfl, rfl | ⟨c, r, rfl, h1, h2, h3⟩⟩ | ⟨rfl, rfl, hne, hd⟩ | ⟨rfl, h, hne, hd⟩)
    · exact .zero
    · exact .dec ((hr '1' '9' c).2 ⟨h1, h2⟩) (fun x hx => (hr '0' '9' x).2 (h3 x hx))
    · exact .oct hne (fun x hx => (hr '0' '7' x).2 (hd x hx))
    · have hd' : ∀ c ∈ ds, cHex c = true := by
        intro x hx
        simp only [cHex, Bool.or_eq_true]
        rcases hd x hx with h | h | h
        · exact .inl (.inl ((hr '0' '9' x).2 h))
        · exact .inl (.inr ((hr 'A' 'F' x).2 h))
        · exact .inr ((hr 'a' 'f' x).2 h)
      rcases h with rfl | rfl
      · exact .hex (.inl rfl) hne hd'
      · exact .hex (.inr rfl) hne hd'

/-- The schema of one field `n` of the given kind. -/
def oneSchema (kind : Kind) : Schema where
  msgs := [{ name := "t.N".toList, fields := [Ex.fld 1 "n" kind], mapEntry := false, extensions := [] }]
  enums := []

/-- C36 does not hold for unsigned fields: `-0` denotes zero and is rejected. -/
theorem C36_false : litVal true 10 ['0'] = 0 ∧ IntLit ['0'] ['0'] 10 ∧
    parseText exEnv (oneSchema .uint32) 5 0 "n:-0".toList = .error .outOfRange ∧
    parseText exEnv (oneSchema .uint64) 5 0 "n:-0".toList = .error .outOfRange ∧
    parseText exEnv (oneSchema .int32) 5 0 "n:-0".toList = .ok ⟨0, [(1, .val (.i32 0))]⟩ :=
  ⟨rfl, .zero, rfl, rfl, rfl⟩

example : parseText exEnv (oneSchema .int32) 5 0 "n:-0x80000000".toList =
    .ok ⟨0, [(1, .val (.i32 0x80000000#32))]⟩ ∧
    parseText exEnv (oneSchema .int32) 5 0 "n:0x80000000".toList = .error .outOfRange ∧
    parseText exEnv (oneSchema .uint64) 5 0 "n:01777777777777777777777".toList =
    .ok ⟨0, [(1, .val (.u64 0xFFFFFFFFFFFFFFFF#64))]⟩ ∧
    parseText exEnv (oneSchema .uint64) 5 0 "n:18446744073709551616".toList = .error .outOfRange :=
  ⟨rfl, rfl, rfl, rfl⟩
example : IntLit "0x80000000".toList "80000000".toList 16 ∧
    litVal true 16 "80000000".toList = -2 ^ 31 := ⟨.hex (.inl rfl) (by decide) (by decide), by decide⟩
example : Ex.schema.msg? 0 = some exM ∧ (exM.fields.map (·.name)).Nodup ∧ Ex.fA ∈ exM.fields ∧
    Ex.fA.group = false ∧ Ex.fA.card ≠ .repeated ∧ IsIdent Ex.fA.name ∧ Ex.fA.kind = .int32 :=
  ⟨rfl, by decide, by simp [exM], rfl, by decide, by decide, rfl⟩

end Verif.Props
