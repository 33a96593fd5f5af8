import Verif.Pool.Unescape
import Verif.Pool.Exts
import Verif.Props.PoolExample
/-!
Default values: C35 and C48.
-/
set_option autoImplicit false
namespace Verif.Props
open Verif.Wire Verif.Dyn Verif.Pool

/-! ### C35 -/

/-- How protoc writes one byte of a bytes default (`CEscape`): the usual letters for newline, return
and tab, a backslash before quotes and backslashes, printable ASCII as it is, anything else as
three octal digits.  `keep` says which other bytes are written as they are (`Utf8SafeCEscape`
keeps those of non-ASCII characters). -/
def cEscapeByte (keep : UInt8 → Bool) (b : UInt8) : Bytes :=
  if b = 10 then [92, 110]
  else if b = 13 then [92, 114]
  else if b = 9 then [92, 116]
  else if b = 34 then [92, 34]
  else if b = 39 then [92, 39]
  else if b = 92 then [92, 92]
  else if 32 ≤ b ∧ b < 127 ∨ keep b = true then [b]
  else [92, 48 + b / 64, 48 + b / 8 % 8, 48 + b % 8]

def cEscape (keep : UInt8 → Bool) : Bytes → Bytes
  | [] => []
  | b :: r => cEscapeByte keep b ++ cEscape keep r

theorem octal3 : ∀ b : Fin 256, let u := UInt8.ofNat b.val
    octDigit (48 + u / 64) ∧ octDigit (48 + u / 8 % 8) ∧ octDigit (48 + u % 8) ∧
    (((48 + u / 64).toNat - 48) * 8 + ((48 + u / 8 % 8).toNat - 48)) * 8 +
      ((48 + u % 8).toNat - 48) = b.val := by
  unfold octDigit
  decide +kernel

/-- **C35.** The decoder inverts the escaping protoc applies, for all bytes. -/
theorem C35_inverts (keep : UInt8 → Bool) (checks : Bool) (bs : Bytes) :
    unescape checks (cEscape keep bs) = .ok (some bs) := by
  induction bs with
  | nil => cases checks <;> rfl
  | cons b r ih =>
    rw [cEscape, cEscapeByte]
    have simple : ∀ e, simpleEscape e = some b →
        unescape checks ([92, e] ++ cEscape keep r) = .ok (some (b :: r)) := by
      intro e he
      show unescape checks (92 :: e :: cEscape keep r) = _
      rw [u_simple he, ih]; rfl
    split
    · next h => subst h; exact simple _ rfl
    split
    · next h => subst h; exact simple _ rfl
    split
    · next h => subst h; exact simple _ rfl
    split
    · next h => subst h; exact simple _ rfl
    split
    · next h => subst h; exact simple _ rfl
    split
    · next h => subst h; exact simple _ rfl
    split
    · next h _ =>
      rw [List.singleton_append, unescape.eq_def]
      simp [h, ih, consRes]
    · have hb := octal3 ⟨b.toNat, b.toNat_lt⟩
      simp only [UInt8.ofNat_toNat] at hb
      obtain ⟨h1, h2, h3, h4⟩ := hb
      show unescape checks (92 :: _ :: _ :: _ :: cEscape keep r) = _
      rw [u_oct3 h1 h2 h3, ih, octStep]
      rw [h4, if_pos b.toNat_lt]
      simp [octThen, consRes]

/-- **C35.** What the decoder accepts and what it returns (in a build with overflow checks), stated
by the grammar `Unesc`. -/
theorem C35_exact (s out : Bytes) : unescape true s = .ok (some out) ↔ Unesc s out :=
  unescape_iff s out

/-- No octal escape above `\377`. -/
def OctalsFit (s : Bytes) : Prop := ∀ (i : Nat) a b d, s[i]? = some 92 → s[i + 1]? = some a →
  s[i + 2]? = some b → s[i + 3]? = some d → octDigit a → octDigit b → octDigit d → a.toNat < 52

theorem OctalsFit.tail {c : UInt8} {s : Bytes} (h : OctalsFit (c :: s)) : OctalsFit s := by
  intro i a b d h1 h2 h3 h4
  exact h (i + 1) a b d h1 h2 h3 h4

theorem consRes_returns {b : UInt8} {k : Res (Option Bytes)} (h : ∃ r, k = .ok r) :
    ∃ r, consRes b k = .ok r := by
  obtain ⟨r, rfl⟩ := h
  cases r <;> exact ⟨_, rfl⟩

theorem octThen_returns {v : Res Nat} {k : Res (Option Bytes)} (hv : ∃ n, v = .ok n)
    (h : ∃ r, k = .ok r) : ∃ r, octThen v k = .ok r := by
  obtain ⟨n, rfl⟩ := hv
  exact consRes_returns h

/-- **C35, what holds of the second half.** On ASCII strings the decoder returns a value or an error;
with overflow checks, provided no octal escape exceeds `\377`. -/
theorem C35_no_panic_partial (checks : Bool) (s : Bytes) (hs : ∀ b ∈ s, b.toNat < 128)
    (ho : checks = false ∨ OctalsFit s) : ∃ r, unescape checks s = .ok r := by
  have tl : ∀ {c : UInt8} {s : Bytes}, checks = false ∨ OctalsFit (c :: s) →
      checks = false ∨ OctalsFit s := fun h => h.imp id (·.tail)
  fun_induction unescape checks s with
  | case1 => exact ⟨_, rfl⟩
  | case2 c r hc ih =>
    exact consRes_returns (ih (fun b hb => hs b (List.mem_cons_of_mem _ hb)) (tl ho))
  | case3 => exact ⟨_, rfl⟩
  | case4 c hc e r b he ih =>
    exact consRes_returns (ih (fun b hb => hs b (by simp [hb])) (tl (tl ho)))
  | case5 c hc a he ha ih =>
    exact octThen_returns ⟨_, oct1_ok (isOctal_iff.1 ha)⟩ (ih (by simp) (tl (tl ho)))
  | case6 c hc a he ha b hb ih =>
    exact octThen_returns ⟨_, oct2_ok (isOctal_iff.1 ha) (isOctal_iff.1 hb)⟩
      (ih (by simp) (tl (tl (tl ho))))
  | case7 c hc a he ha b hb d r hd ih =>
    refine octThen_returns ?_ (ih (fun b hb => hs b (by simp [hb])) (tl (tl (tl (tl ho)))))
    rw [oct3_eq (isOctal_iff.1 ha) (isOctal_iff.1 hb), octStep]
    split
    · exact ⟨_, rfl⟩
    · next hlt =>
      rcases ho with rfl | ho
      · exact ⟨_, rfl⟩
      · cases Classical.not_not.1 hc
        have h1 := isOctal_iff.1 ha
        have h2 := isOctal_iff.1 hb
        have h3 := isOctal_iff.1 hd
        have := ho 0 a b d rfl rfl rfl rfl h1 h2 h3
        unfold octDigit at h1 h2 h3
        omega
  | case8 c hc a he ha b hb d r hd ih =>
    exact octThen_returns ⟨_, oct2_ok (isOctal_iff.1 ha) (isOctal_iff.1 hb)⟩
      (ih (fun b hb => hs b (.tail _ (.tail _ (.tail _ hb)))) (tl (tl (tl ho))))
  | case9 c hc a he ha d r hd ih =>
    exact octThen_returns ⟨_, oct1_ok (isOctal_iff.1 ha)⟩
      (ih (fun b hb => hs b (.tail _ (.tail _ hb))) (tl (tl ho)))
  | case10 c hc x he ha hx a b r hr v hp ih =>
    exact consRes_returns (ih (fun b hb => hs b (by simp [hb])) (tl (tl (tl (tl ho)))))
  | case11 => exact ⟨_, rfl⟩
  | case12 c hc x he ha hx a b r hr =>
    have h1 := hs a (by simp)
    have bd : ∀ o : Option UInt8, (∀ b, o = some b → b.toNat < 128) → boundary o = true := by
      intro o h
      cases o with
      | none => rfl
      | some b => have := h b rfl; simp [boundary]; omega
    rw [bd (some a) (by rintro _ ⟨⟩; exact h1), bd r.head? (by
      intro b hb
      exact hs b (by have := List.mem_of_mem_head? hb; simp [this]))] at hr
    exact absurd rfl hr
  | case13 => exact ⟨_, rfl⟩
  | case14 => exact ⟨_, rfl⟩

/-- The hypotheses of `C35_no_panic_partial` hold of `a\101\x7f\q`. -/
example : ∃ s : Bytes, s = utf8Encode (nm "a\\101\\x7f\\q") ∧ (∀ b ∈ s, b.toNat < 128) ∧ OctalsFit s := by
  refine ⟨_, rfl, by decide +kernel, ?_⟩
  intro i a b d h1 h2 h3 h4 _ _ _
  have hi := getElem?_lt h4
  have key : ∀ i, i < 12 → ((utf8Encode (nm "a\\101\\x7f\\q"))[i]? = some 92 →
      ((utf8Encode (nm "a\\101\\x7f\\q"))[i + 1]?.all (fun a => a.toNat < 52 || 55 < a.toNat)) = true) := by
    decide +kernel
  have := key i (Nat.lt_of_lt_of_le (by omega) (by decide +kernel :
    (utf8Encode (nm "a\\101\\x7f\\q")).length ≤ 12)) h1
  rw [h2] at this
  simp only [Option.all_some, Bool.or_eq_true, decide_eq_true_eq] at this
  unfold octDigit at *
  omega

/-- **C35 fails**: `\400` panics in a build with overflow checks and silently becomes 0 without them. -/
theorem C35_false_octal : unescape true (utf8Encode (nm "\\400")) = .error .overflow ∧
    unescape false (utf8Encode (nm "\\400")) = .ok (some [0]) := by
  constructor <;> rfl

/-- **C35 fails**: a hexadecimal escape that ends inside a character panics. -/
theorem C35_false_slice (checks : Bool) :
    unescape checks (utf8Encode (nm "\\xaé")) = .error .slice := by
  cases checks <;> rfl

/-- **C35 fails**: the malformed escape `\x+f` is accepted. -/
theorem C35_false_plus : unescape true (utf8Encode (nm "\\x+f")) = .ok (some [15]) := by
  rfl

/-! ### C48 -/

/-- The string `s`, given as the default of a field of kind `k`, denotes the value `v`.  Enum defaults
are names of values of that enum; messages have no defaults.  What strings denote floating point
numbers is for the standard library to say. -/
def Denotes (env : Env) (p : Pool) (k : Kind) (s : Name) (v : Value) : Prop :=
  match k with
  | .double => ∃ x, v = .f64 x ∧ env.fp.f64 s = some x
  | .float => ∃ x, v = .f32 x ∧ env.fp.f32 s = some x
  | .int32 | .sint32 | .sfixed32 => ∃ x, v = .i32 x ∧ IntNumeral s x.toInt
  | .int64 | .sint64 | .sfixed64 => ∃ x, v = .i64 x ∧ IntNumeral s x.toInt
  | .uint32 | .fixed32 => ∃ x, v = .u32 x ∧ NatNumeral s x.toNat
  | .uint64 | .fixed64 => ∃ x, v = .u64 x ∧ NatNumeral s x.toNat
  | .bool => (s = nm "true" ∧ v = .bool true) ∨ (s = nm "false" ∧ v = .bool false)
  | .string => v = .str (utf8Encode s)
  | .bytes => ∃ b, v = .bytes b ∧ Unesc (utf8Encode s) b
  | .enum e => ∃ ed d, p.enums[e]? = some ed ∧ d ∈ ed.values ∧ d.id.name = s ∧
      v = .enum (BitVec.ofInt 32 d.number)
  | .message _ => False

theorem parseBool_iff {s : List Char} {b : Bool} : parseBool s = some b ↔
    (s = nm "true" ∧ b = true) ∨ (s = nm "false" ∧ b = false) := by
  unfold parseBool
  split
  · next h => subst h; simp [nm, eq_comm]
  · next h =>
    split
    · next h' => subst h'; simp [nm, eq_comm]
    · next h' =>
      have h1 : ¬ s = nm "true" := h
      have h2 : ¬ s = nm "false" := h'
      simp only [h1, h2, false_and, or_self, reduceCtorEq]

theorem find?_of_nodup {α : Type} {key : α → Name} : ∀ {l : List α} {d : α}, (l.map key).Nodup →
    d ∈ l → l.find? (fun v => key v == key d) = some d
  | a :: l, d, hn, hd => by
    rw [List.map_cons, List.nodup_cons] at hn
    rcases List.mem_cons.1 hd with rfl | hd
    · simp
    · have : key a ≠ key d := fun h => hn.1 (h ▸ List.mem_map_of_mem hd)
      rw [List.find?_cons_of_neg (by simpa using this)]
      exact find?_of_nodup hn.2 hd

/-- The parser of defaults finds exactly the value denoted. -/
theorem defaultOf_iff {env : Env} {p : Pool} {k : Kind} {s : Name} {v : Value}
    (hc : k = .bytes → env.checks = true)
    (hu : ∀ e ed, k = .enum e → p.enums[e]? = some ed → (ed.values.map (·.id.name)).Nodup) :
    defaultOf env p.enums k s = .ok (some v) ↔ Denotes env p k s v := by
  cases k with
  | message i => simp [defaultOf, Denotes]
  | enum e =>
    simp only [defaultOf, Denotes]
    cases he : p.enums[e]? with
    | none => simp
    | some ed =>
      simp only [Except.ok.injEq, Option.map_eq_some_iff, Option.some.injEq]
      constructor
      · rintro ⟨d, hd, rfl⟩
        have := List.find?_some hd
        exact ⟨ed, d, rfl, List.mem_of_find?_eq_some hd, by simpa using this, rfl⟩
      · rintro ⟨ed', d, rfl, hd, hn, rfl⟩
        refine ⟨d, ?_, rfl⟩
        subst hn
        exact find?_of_nodup (hu e ed rfl he) hd
  | bytes =>
    simp only [defaultOf, parseSimple, Denotes, hc rfl]
    cases h : unescape true (utf8Encode s) with
    | error e => simp [← unescape_iff, h]
    | ok r => 
      simp only [Except.ok.injEq, Option.map_eq_some_iff, ← unescape_iff, h]
      simp [eq_comm, and_comm]
  | bool =>
    simp only [defaultOf, parseSimple, Denotes, Except.ok.injEq, Option.map_eq_some_iff, parseBool_iff]
    constructor
    · rintro ⟨b, ⟨h, rfl⟩ | ⟨h, rfl⟩, rfl⟩
      · exact .inl ⟨h, rfl⟩
      · exact .inr ⟨h, rfl⟩
    · rintro (⟨h, rfl⟩ | ⟨h, rfl⟩)
      · exact ⟨_, .inl ⟨h, rfl⟩, rfl⟩
      · exact ⟨_, .inr ⟨h, rfl⟩, rfl⟩
  | string => simp [defaultOf, parseSimple, Denotes, eq_comm]
  | _ =>
    simp only [defaultOf, parseSimple, Denotes, Except.ok.injEq, Option.map_eq_some_iff,
      parseSigned_iff (by decide : 0 < 32), parseSigned_iff (by decide : 0 < 64), parseUnsigned_iff]
    simp only [and_comm, eq_comm]

/-- **C48, fields.** A field of an accepted file without a declared default has none; otherwise the
declared string denotes a value of the field's type and that value is the default.  (For bytes
in a build without overflow checks, see `C35_false_octal`.) -/
theorem C48_fields_partial {env : Env} (hsr : SearchOk env.search) {acc : List FileP} {p : Pool}
    (h : Hist env acc p) {k i : Nat} {md : MsgD} {d : FieldD}
    (hk : p.messages[k]? = some md) (hi : md.fields[i]? = some d)
    (hc : d.kind = .bytes → env.checks = true) :
    ∃ x y, Stands acc p d.id (.field x) (.field y) ∧
      (x.default = none → d.default = none) ∧
      (∀ s, x.default = some s → ∃ v, d.default = some v ∧ Denotes env p d.kind s v) := by
  obtain ⟨x, y, fd, h1, _, _, h3⟩ := (h.desc hsr).field_is hk hi
  have hd := h3.default
  refine ⟨x, y, h1, fun hn => ?_, fun s hn => ?_⟩
  · rw [hn] at hd; exact hd
  · rw [hn] at hd
    obtain ⟨w, hw, hd⟩ := hd
    refine ⟨w, hw, (defaultOf_iff hc ?_).1 hd⟩
    intro e ed _ he
    obtain ⟨_, _, _, _, _, _, _, _, _, _, hok⟩ := (h.desc hsr).enum_at he
    have hn := hok.names
    rw [List.take_length] at hn
    exact nodup_map_of_inj fun i j a b ha hb hab => hn.inj ha hb hab

/-- **C48, extensions.** -/
theorem C48_extensions_partial {env : Env} (hsr : SearchOk env.search) {acc : List FileP} {p : Pool}
    (h : Hist env acc p) {k : Nat} {d : ExtD} (hk : p.extensions[k]? = some d)
    (hc : d.kind = .bytes → env.checks = true) :
    ∃ x y, Stands acc p d.id (.extension x) (.extension y) ∧
      (x.default = none → d.default = none) ∧
      (∀ s, x.default = some s → ∃ v, d.default = some v ∧ Denotes env p d.kind s v) := by
  obtain ⟨x, y, fd, h1, _, _, h3⟩ := (h.desc hsr).extension_is hk
  have hd := h3.default
  refine ⟨x, y, h1, fun hn => ?_, fun s hn => ?_⟩
  · rw [hn] at hd; exact hd
  · rw [hn] at hd
    obtain ⟨w, hw, hd⟩ := hd
    refine ⟨w, hw, (defaultOf_iff hc ?_).1 hd⟩
    intro e ed _ he
    obtain ⟨_, _, _, _, _, _, _, _, _, _, hok⟩ := (h.desc hsr).enum_at he
    have hn := hok.names
    rw [List.take_length] at hn
    exact nodup_map_of_inj fun i j a b ha hb hab => hn.inj ha hb hab

/-- **C48, valid defaults.** A string that denotes a value of the type causes no error: the value is
returned and the state, errors included, is unchanged. -/
theorem C48_valid {env : Env} {st : St} {k : Kind} {s : Name} {v : Value} {file : Nat}
    (hc : k = .bytes → env.checks = true)
    (hu : ∀ e ed, k = .enum e → st.pool.enums[e]? = some ed → (ed.values.map (·.id.name)).Nodup)
    (h : Denotes env st.pool k s v) : parseDefault env st k (some s) file = .ok (st, some v) := by
  have h := (defaultOf_iff hc hu).2 h
  unfold defaultOf at h
  unfold parseDefault
  cases k with
  | message i => cases h
  | enum e =>
    simp only at h ⊢
    split at h
    · cases h
    · next ed he =>
      simp only [Except.ok.injEq, Option.map_eq_some_iff] at h
      obtain ⟨d, h1, h2⟩ := h
      simp only [getR, he]
      show (match ed.values.find? (fun v => v.id.name == s) with
        | some v => Except.ok (st, some (Value.enum (BitVec.ofInt 32 v.number)))
        | none => _) = _
      rw [h1, ← h2]
  | _ =>
    simp only at h ⊢
    rw [h]; rfl

/-- Numerals and names as defaults: -/
def fileDefaults : FileP where
  name := nm "d.proto"
  enums := [{ name := nm "E", values := [⟨nm "A", 0⟩, ⟨nm "B", -7⟩] }]
  messages := [{ name := nm "M", fields := [
    { name := nm "a", number := 1, ty := .int32, default := some (nm "-2147483648") },
    { name := nm "b", number := 2, ty := .uint64, default := some (nm "+18446744073709551615") },
    { name := nm "c", number := 3, ty := .bytes, default := some (nm "\\001x\\n") },
    { name := nm "d", number := 4, ty := .enum, typeName := nm "E", default := some (nm "B") },
    { name := nm "e", number := 5, ty := .bool, default := some (nm "true") }] }]

def shown : Option Value → Option Int
  | some (.i32 v) => some v.toInt
  | some (.u64 v) => some v.toNat
  | some (.enum v) => some v.toInt
  | some (.bytes b) => some (b.foldl (fun a b => a * 256 + b.toNat) 0)
  | some (.bool b) => some (if b then 1 else 0)
  | _ => none

example : ∃ acc p, Hist env0 acc p ∧ ((p.messages.map fun m => m.fields.map fun d => shown d.default) ==
    [[some (-2147483648), some 18446744073709551615, some (1 * 65536 + 120 * 256 + 10), some (-7),
      some 1]]) = true :=
  run_ex [[fileDefaults]] _ (by decide +kernel)

/-- Defaults out of range, misspelt, of unknown enum values or of messages are rejected. -/
example : ∀ x ∈ ([(.int32, nm "2147483648", []), (.int32, nm "1.0", []), (.uint32, nm "-0", []),
    (.bool, nm "True", []), (.enum, nm "C", nm "E"), (.message, nm "", nm "M"),
    (.bytes, nm "\\q", [])] : List (PType × Name × Name)),
    (match buildFiles env0 Pool.empty [{ fileDefaults with messages := [{ name := nm "M", fields := [
      { name := nm "a", number := 1, ty := x.1, default := some x.2.1, typeName := x.2.2 }] }] }] with
    | .ok ⟨_, es⟩ => es.length == 1
    | _ => false) = true := by decide +kernel

end Verif.Props
