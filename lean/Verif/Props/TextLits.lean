import Verif.Props.Text
import Verif.Text.LitLemmas
import Verif.Text.RoundScalar
/-!
Which text stands for which string (C55), boolean (C56) and enum value (C57).
-/
set_option autoImplicit false
namespace Verif.Props
open Verif.Wire Verif.Dyn Verif.Pool Verif.Text

/-! ### C55 -/

/-- C55: between quotes, text without backslash, quote, NUL and line feed stands for itself
(its UTF-8 bytes). -/
theorem C55_plain (fp : List Char → Option (BitVec 64)) {q : Char} (hq : q = '\'' ∨ q = '"')
    {s : List Char} (hs : ∀ c ∈ s, c ≠ '\\' ∧ c ≠ q ∧ c.toNat ≠ 0 ∧ c ≠ '\n') (rest : List Char) :
    lex fp (q :: (s ++ (q :: rest))) = .tok (.str (utf8Encode s)) :: lex fp rest := by
  apply lex_tok
  have h : lexStr q (s ++ (q :: rest)) = some (utf8Encode s, rest) :=
    strN_plain (by rcases hq with rfl | rfl <;> decide) (by simp; omega) hs
  rcases hq with rfl | rfl
  · rw [lexStep, if_neg (by decide), if_neg (by decide), if_neg (by decide), if_pos (by decide), h]
  · rw [lexStep, if_neg (by decide), if_neg (by decide), if_neg (by decide), if_pos (by decide), h]

/-- C55: a string literal ends with the quote it began with and contains neither NUL nor a
line feed, escaped or not. -/
theorem C55_literal (fp : List Char → Option (BitVec 64)) {q : Char} (hq : q = '\'' ∨ q = '"')
    {s rest : List Char} {t : Tok} (h : lexStep fp (q :: s) = .tok t rest) :
    (∃ b, t = .str b) ∧ ∃ lit, s = lit ++ (q :: rest) ∧ ∀ c ∈ lit, c.toNat ≠ 0 ∧ c ≠ '\n' := by
  have key : (match lexStr q s with
      | some (b, r') => Step.tok (.str b) r'
      | none => .bad) = .tok t rest := by
    rcases hq with rfl | rfl
    · rw [lexStep, if_neg (by decide), if_neg (by decide), if_neg (by decide), if_pos (by decide)] at h
      exact h
    · rw [lexStep, if_neg (by decide), if_neg (by decide), if_neg (by decide), if_pos (by decide)] at h
      exact h
  cases hl : lexStr q s with
  | none => rw [hl] at key; cases key
  | some p =>
    obtain ⟨b, r⟩ := p
    rw [hl] at key
    cases key
    exact ⟨⟨b, rfl⟩, strN_inline hl⟩

/-- C55: a NUL or a line feed before the closing quote is an error. -/
theorem C55_line (fp : List Char → Option (BitVec 64)) {q c : Char} (hq : q = '\'' ∨ q = '"')
    (hc : c.toNat = 0 ∨ c = '\n') {s : List Char}
    (hs : ∀ c ∈ s, c ≠ '\\' ∧ c ≠ q ∧ c.toNat ≠ 0 ∧ c ≠ '\n') (rest : List Char) :
    lex fp (q :: (s ++ (c :: rest))) = [.bad] := by
  have hbad : ∀ (s : List Char), (∀ c ∈ s, c ≠ '\\' ∧ c ≠ q ∧ c.toNat ≠ 0 ∧ c ≠ '\n') → ∀ n,
      strN q n (s ++ (c :: rest)) = none := by
    intro s
    induction s with
    | nil =>
      intro _ n
      cases n with
      | zero => rfl
      | succ n =>
        have h1 : c ≠ '\\' := by
          rcases hc with h | rfl
          · rintro rfl; revert h; decide
          · decide
        have h2 : c ≠ q := by
          rcases hq with rfl | rfl <;> rcases hc with h | rfl <;>
            first | decide | (rintro rfl; revert h; decide)
        rw [List.nil_append, strN, if_neg h1, if_neg h2, if_pos hc]
    | cons x t ih =>
      intro hs n
      cases n with
      | zero => rfl
      | succ n =>
        have hx := hs x (List.mem_cons_self ..)
        rw [List.cons_append, strN, if_neg hx.1, if_neg hx.2.1, if_neg (by simp [hx.2.2]),
          ih (fun y hy => hs y (List.mem_cons_of_mem _ hy))]
  have h : lexStr q (s ++ (c :: rest)) = none := hbad s hs _
  have : lexStep fp (q :: (s ++ (c :: rest))) = .bad := by
    rcases hq with rfl | rfl
    · rw [lexStep, if_neg (by decide), if_neg (by decide), if_neg (by decide), if_pos (by decide), h]
    · rw [lexStep, if_neg (by decide), if_neg (by decide), if_neg (by decide), if_pos (by decide), h]
  rw [lex, lexN, this]

/-- C55: adjacent literals are joined: a bytes field given any number of printed literals is
set to the bytes of all of them. -/
theorem C55_adjacent (env : TEnv) {S : Schema} {k d : Nat} {md : MsgDesc} {f : FieldDesc}
    (hmd : S.msg? d = some md) (hn : (md.fields.map (·.name)).Nodup) (hf : f ∈ md.fields)
    (hg : f.group = false) (hc : f.card ≠ .repeated) (hid : IsIdent f.name) (hk : f.kind = .bytes)
    (b : Bytes) (bs : List Bytes) :
    parseText env S k d (f.name ++ (':' :: (fmtString b ++ (bs.map fmtString).flatten))) =
      .ok ⟨d, [(f.number, .val (.bytes (b ++ bs.flatten)))]⟩ := by
  have hm : ∀ bs : List Bytes, moreStrings (lex env.parse64 (bs.map fmtString).flatten) = .ok (bs.flatten, []) := by
    intro bs
    induction bs with
    | nil => rfl
    | cons x r ih =>
      rw [List.map_cons, List.flatten_cons, lex_fmtString, moreStrings, ih]
      rfl
  have h : parseVal env S (parseMsg env S k) f.kind
      (lex env.parse64 (fmtString b ++ (bs.map fmtString).flatten)) =
      if True then .ok (.bytes (b ++ bs.flatten), []) else .error .fuel := by
    rw [lex_fmtString, hk]
    simp [parseVal, mapP, parseBytes, hm]
  have := parseText_one_end hmd hn hf hg hc hid True h
  simpa using this

example : lex exEnv.parse64 "'a\"é'7".toList = .tok (.str [97, 34, 0xC3, 0xA9]) :: lex exEnv.parse64 ['7'] :=
  C55_plain exEnv.parse64 (.inl rfl) (s := "a\"é".toList) (by decide) ['7']
example : lexStep exEnv.parse64 "'a\\'\\n'7".toList = .tok (.str [97, 39, 10]) ['7'] := by rfl
example : lex exEnv.parse64 "\"a\nb\"".toList = [.bad] := C55_line exEnv.parse64 (.inr rfl) (.inr rfl) (s := ['a'])
  (by decide) ['b', '"']

/-! ### C56 -/

/-- C56: of all words, a boolean field takes exactly these six. -/
theorem C56_words (env : TEnv) {S : Schema} {k d : Nat} {md : MsgDesc} {f : FieldDesc}
    (hmd : S.msg? d = some md) (hn : (md.fields.map (·.name)).Nodup) (hf : f ∈ md.fields)
    (hg : f.group = false) (hc : f.card ≠ .repeated) (hid : IsIdent f.name) (hk : f.kind = .bool)
    {s : List Char} (hs : IsIdent s) :
    parseText env S k d (f.name ++ (':' :: s)) =
      if s ∈ ["true".toList, "True".toList, "t".toList] then .ok ⟨d, [(f.number, .val (.bool true))]⟩
      else if s ∈ ["false".toList, "False".toList, "f".toList] then
        .ok ⟨d, [(f.number, .val (.bool false))]⟩
      else .error .unexpected := by
  have hl : lex env.parse64 s = [.tok (.ident s)] := by
    have := lex_ident (fp := env.parse64) (r := []) hs Text.Halts.nil
    rwa [List.append_nil, lex_nil] at this
  rw [parseText_one hmd hn hf hg hc hid, hk]
  simp only [parseVal, hl, Text.parseBool]
  by_cases h1 : s ∈ ["true".toList, "True".toList, "t".toList]
  · rw [if_pos h1, if_neg, if_pos]
    · rfl
    · simpa using h1
    · simp only [List.mem_cons, List.not_mem_nil, or_false] at h1
      rcases h1 with rfl | rfl | rfl <;> decide
  · rw [if_neg h1]
    by_cases h2 : s ∈ ["false".toList, "False".toList, "f".toList]
    · rw [if_pos h2, if_pos]
      · rfl
      · simpa using h2
    · rw [if_neg h2, if_neg, if_neg]
      · rfl
      · simpa using h1
      · simpa using h2

/-- C56: of all integer literals, a boolean field takes exactly those of value 0 and 1; a
sign is not allowed. -/
theorem C56_ints (env : TEnv) {S : Schema} {k d : Nat} {md : MsgDesc} {f : FieldDesc}
    (hmd : S.msg? d = some md) (hn : (md.fields.map (·.name)).Nodup) (hf : f ∈ md.fields)
    (hg : f.group = false) (hc : f.card ≠ .repeated) (hid : IsIdent f.name) (hk : f.kind = .bool)
    (neg : Bool) {s ds : List Char} {radix : Nat} (hs : IntLit s ds radix) :
    parseText env S k d (f.name ++ (':' :: (signText neg ++ s))) =
      if neg = false ∧ posVal radix ds = 1 then .ok ⟨d, [(f.number, .val (.bool true))]⟩
      else if neg = false ∧ posVal radix ds = 0 then .ok ⟨d, [(f.number, .val (.bool false))]⟩
      else .error .unexpected := by
  have hl := lex_signed (fp := env.parse64) (neg := neg) hs Stop.nil
  rw [List.append_nil, lex_nil] at hl
  rw [parseText_one hmd hn hf hg hc hid, hk]
  simp only [parseVal, hl]
  cases neg with
  | true => rfl
  | false =>
    have hb : Text.parseBool (signTok false ++ [.tok (.int ds radix)]) =
        if posVal radix ds = 1 then .ok (true, [])
        else if posVal radix ds = 0 then .ok (false, []) else .error .unexpected := by
      show (match uintRadix 255 ds radix with
        | some n => _
        | none => _) = _
      rw [uintRadix, hs.val]
      simp only
      by_cases h1 : posVal radix ds ≤ 255
      · rw [if_pos h1]
      · rw [if_neg h1, if_neg (by omega), if_neg (by omega)]
    rw [hb]
    by_cases h1 : posVal radix ds = 1
    · simp only [h1, if_true, and_self]
      rfl
    · by_cases h0 : posVal radix ds = 0
      · simp only [h0, if_true, and_self]
        rfl
      · simp only [h1, h0, if_false, and_false]
        rfl

example : parseText exEnv (oneSchema .bool) 5 0 "n:t".toList = .ok ⟨0, [(1, .val (.bool true))]⟩ ∧
    parseText exEnv (oneSchema .bool) 5 0 "n:0x01".toList = .ok ⟨0, [(1, .val (.bool true))]⟩ ∧
    parseText exEnv (oneSchema .bool) 5 0 "n:2".toList = .error .unexpected ∧
    parseText exEnv (oneSchema .bool) 5 0 "n:-0".toList = .error .unexpected ∧
    parseText exEnv (oneSchema .bool) 5 0 "n:TRUE".toList = .error .unexpected := ⟨rfl, rfl, rfl, rfl, rfl⟩
example : IsIdent "TRUE".toList ∧ IntLit "0x01".toList "01".toList 16 ∧ posVal 16 "01".toList = 1 :=
  ⟨by decide, .hex (.inl rfl) (by decide) (by decide), by decide⟩

/-! ### C57 -/

/-- C57: a word for an enum field is the number of the value with exactly this name; any
other word is rejected. -/
theorem C57_names (env : TEnv) {S : Schema} {k d e : Nat} {md : MsgDesc} {f : FieldDesc} {ed : EnumDesc}
    (hmd : S.msg? d = some md) (hn : (md.fields.map (·.name)).Nodup) (hf : f ∈ md.fields)
    (hg : f.group = false) (hc : f.card ≠ .repeated) (hid : IsIdent f.name) (hk : f.kind = .enum e)
    (he : S.enums[e]? = some ed) (hu : (ed.values.map (·.1)).Nodup) {s : List Char} (hs : IsIdent s) :
    (∀ v, (s, v) ∈ ed.values →
      parseText env S k d (f.name ++ (':' :: s)) = .ok ⟨d, [(f.number, .val (.enum v))]⟩) ∧
    ((∀ v, (s, v) ∉ ed.values) → parseText env S k d (f.name ++ (':' :: s)) = .error .enumValue) := by
  have hl : lex env.parse64 s = [.tok (.ident s)] := by
    have := lex_ident (fp := env.parse64) (r := []) hs Text.Halts.nil
    rwa [List.append_nil, lex_nil] at this
  rw [parseText_one hmd hn hf hg hc hid, hk]
  simp only [parseVal, hl, parseEnum, he]
  constructor
  · intro v hv
    have : EnumDesc.byName ed s = some v := by
      unfold EnumDesc.byName
      rw [byName_mem hu hv]
      rfl
    rw [this]
    rfl
  · intro hv
    have : EnumDesc.byName ed s = none := by
      unfold EnumDesc.byName
      rw [Option.map_eq_none_iff, List.find?_eq_none]
      intro p hp hps
      simp only [beq_iff_eq] at hps
      exact hv p.2 (by rw [← hps]; exact hp)
    rw [this]
    rfl

/-- C57: an integer literal for an enum field is taken as it is, declared or not, exactly
when it fits into 32 signed bits. -/
theorem C57_numbers (env : TEnv) {S : Schema} {k d e : Nat} {md : MsgDesc} {f : FieldDesc}
    (hmd : S.msg? d = some md) (hn : (md.fields.map (·.name)).Nodup) (hf : f ∈ md.fields)
    (hg : f.group = false) (hc : f.card ≠ .repeated) (hid : IsIdent f.name) (hk : f.kind = .enum e)
    (neg : Bool) {s ds : List Char} {radix : Nat} (hs : IntLit s ds radix) :
    parseText env S k d (f.name ++ (':' :: (signText neg ++ s))) =
      if -2 ^ 31 ≤ litVal neg radix ds ∧ litVal neg radix ds < 2 ^ 31 then
        .ok ⟨d, [(f.number, .val (.enum (BitVec.ofInt 32 (litVal neg radix ds))))]⟩
      else .error .outOfRange := by
  refine parseText_one_end hmd hn hf hg hc hid _ ?_
  have h := parseSigned_lit (fp := env.parse64) (w := 32) (by decide) (neg := neg) hs Stop.nil
  have hl := lex_signed (fp := env.parse64) (neg := neg) hs Stop.nil
  rw [List.append_nil, lex_nil] at h hl
  have e : parseVal env S (parseMsg env S k) f.kind (lex env.parse64 (signText neg ++ s)) =
      mapP .enum (parseSigned 32 (lex env.parse64 (signText neg ++ s))) := by
    rw [hk, hl]
    cases neg <;> rfl
  rw [e, h]
  simp only [Nat.add_one_sub_one]
  split <;> rfl

example : Ex.schema.msg? 0 = some exM ∧ (exM.fields.map (·.name)).Nodup ∧ Ex.fE ∈ exM.fields ∧
    Ex.fE.group = false ∧ Ex.fE.card ≠ .repeated ∧ IsIdent Ex.fE.name ∧ Ex.fE.kind = .enum 0 ∧
    (Ex.schema.enums[0]?.map (fun ed => decide (ed.values.map (·.1)).Nodup)) = some true ∧ IsIdent "NEG".toList :=
  ⟨rfl, by decide, by simp [exM], rfl, by decide, by decide, rfl, by decide, by decide⟩
example : parseText exEnv Ex.schema 5 0 "e:NEG".toList = .ok ⟨0, [(10, .val (.enum (-1)))]⟩ ∧
    parseText exEnv Ex.schema 5 0 "e:neg".toList = .error .enumValue ∧
    parseText exEnv Ex.schema 5 0 "e:7".toList = .ok ⟨0, [(10, .val (.enum 7))]⟩ := ⟨rfl, rfl, rfl⟩

end Verif.Props
