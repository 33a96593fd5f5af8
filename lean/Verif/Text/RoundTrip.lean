import Verif.Text.RoundScalar
/-!
A printed message reads back alike.
-/
set_option autoImplicit false
namespace Verif.Text
open Verif.Wire Verif.Dyn Verif.Pool

/-! ### What names must satisfy -/

/-- The segments between the points of a name. -/
def segs : List Char → List (List Char)
  | [] => [[]]
  | c :: r =>
    if c = '.' then [] :: segs r
    else
      match segs r with
      | [] => [[c]]
      | s :: t => (c :: s) :: t

/-- Identifiers separated by points. -/
def dotted (n : List Char) : Bool := (segs n).all (fun s => decide (IsIdent s))

/-- The name printed for a field is an identifier that the parser resolves to the field:
for a group, it is the name of the message, the field is named like it in lower case, and
no other field has that name. -/
def labelOk (S : Schema) (md : MsgDesc) (f : FieldDesc) : Bool :=
  match fieldLabel S f with
  | none => false
  | some l => decide (IsIdent l) &&
    (!f.group || (l.map asciiLower == f.name && md.fields.all (fun g => g.group || g.name != l)))

/-- The fields of a map entry have the names the printer writes. -/
def entryNames (md : MsgDesc) : Bool :=
  md.fields.all (fun f => f.oneof.isNone && !f.group && (f.number != 1 || f.name == "key".toList) &&
    (f.number != 2 || f.name == "value".toList))

/-- What the names in one message must satisfy. -/
def msgNames (S : Schema) (md : MsgDesc) : Bool :=
  decide (md.fields.map (·.name)).Nodup && md.fields.all (labelOk S md) &&
    decide (md.extensions.map (·.name)).Nodup && md.extensions.all (fun f => dotted f.name) &&
    plainDefaults md && (!md.mapEntry || entryNames md)

/-- Names as `protoc` accepts them: field, extension and enum value names are identifiers
and unique, groups are named after their message, and map entries have `key` and `value`. -/
def textWf (S : Schema) : Bool := S.enums.all enumNames && S.msgs.all (msgNames S)

structure MsgNames (S : Schema) (md : MsgDesc) : Prop where
  nodup : (md.fields.map (·.name)).Nodup
  label : ∀ f ∈ md.fields, labelOk S md f = true
  extNodup : (md.extensions.map (·.name)).Nodup
  ext : ∀ f ∈ md.extensions, dotted f.name = true
  plain : plainDefaults md = true
  entry : md.mapEntry = true → entryNames md = true

theorem textWf_msg {S : Schema} (h : textWf S = true) {d : Nat} {md : MsgDesc}
    (hm : S.msg? d = some md) : MsgNames S md := by
  simp only [textWf, Bool.and_eq_true, List.all_eq_true] at h
  have := h.2 md (List.mem_of_getElem? hm)
  simp only [msgNames, Bool.and_eq_true, List.all_eq_true, decide_eq_true_eq, Bool.or_eq_true,
    Bool.not_eq_true'] at this
  obtain ⟨⟨⟨⟨⟨h1, h2⟩, h3⟩, h4⟩, h5⟩, h6⟩ := this
  refine ⟨h1, h2, h3, h4, h5, fun he => ?_⟩
  rcases h6 with h6 | h6
  · rw [he] at h6; cases h6
  · exact h6

theorem textWf_enum {S : Schema} (h : textWf S = true) : ∀ ed ∈ S.enums, enumNames ed = true := by
  simp only [textWf, Bool.and_eq_true, List.all_eq_true] at h
  exact h.1

/-- The name printed for a field finds it. -/
theorem findField_label {S : Schema} {md : MsgDesc} (hN : MsgNames S md) {f : FieldDesc}
    (hf : f ∈ md.fields) : ∃ l, fieldLabel S f = some l ∧ IsIdent l ∧ findField S md l = some (some f) := by
  have h := hN.label f hf
  unfold labelOk at h
  cases hl : fieldLabel S f with
  | none => rw [hl] at h; cases h
  | some l =>
    simp only [hl, Bool.and_eq_true, decide_eq_true_eq, Bool.or_eq_true, Bool.not_eq_true'] at h
    refine ⟨l, rfl, h.1, ?_⟩
    cases hg : f.group with
    | false =>
      have : l = f.name := by
        unfold fieldLabel at hl
        rw [hg] at hl
        cases hl
        rfl
      rw [this]
      exact findField_name hN.nodup hf hg
    | true =>
      have h2 := h.2
      rw [hg] at h2
      simp only [Bool.true_eq_false, false_or, beq_iff_eq, List.all_eq_true, bne_iff_ne] at h2
      have e1 : (md.getFieldByName l).filter (fun f => !f.group) = none := by
        unfold MsgDesc.getFieldByName
        cases hfind : md.fields.find? (fun f => f.name == l) with
        | none => rfl
        | some g =>
          have hgm := List.mem_of_find?_eq_some hfind
          have hgn := List.find?_some hfind
          have := h2.2 g hgm
          simp only [beq_iff_eq] at hgn
          have hgg : g.group = true := by
            rcases Bool.or_eq_true _ _ ▸ this with h | h
            · exact h
            · simp [hgn] at h
          simp [Option.filter, hgg]
      have e2 : (md.getFieldByName (l.map asciiLower)).filter (·.group) = some f := by
        rw [h2.1]
        unfold MsgDesc.getFieldByName
        rw [find_name hN.nodup hf]
        simp [Option.filter, hg]
      unfold findField
      rw [e1]
      simp only
      rw [e2]
      simp only [hl, if_true]

/-! ### Extension names -/

theorem segs_join (n : List Char) : joinWith ['.'] (segs n) = n ∧ segs n ≠ [] := by
  induction n with
  | nil => exact ⟨rfl, by simp [segs]⟩
  | cons c r ih =>
    unfold segs
    by_cases hc : c = '.'
    · rw [if_pos hc]
      refine ⟨?_, by simp⟩
      cases hs : segs r with
      | nil => exact absurd hs ih.2
      | cons s t =>
        rw [hs] at ih
        show [] ++ (['.'] ++ joinWith ['.'] (s :: t)) = _
        rw [ih.1, hc]
        rfl
    · rw [if_neg hc]
      cases hs : segs r with
      | nil => exact absurd hs ih.2
      | cons s t =>
        rw [hs] at ih
        refine ⟨?_, by simp⟩
        rw [← ih.1]
        cases t <;> rfl

theorem IsIdent.halts {s : List Char} (h : IsIdent s) (r : List Char) : Halts cDigit (s ++ r) := by
  obtain ⟨c, t, rfl, hc, -⟩ := h
  refine Halts.cons ?_
  simp only [cIdStart, cAlpha, Bool.or_eq_true, inR_iff, beq_iff_eq] at hc
  unfold cDigit
  rw [inR_false]
  rcases hc with hc | rfl
  · omega
  · decide

theorem fullIdent_segs {fp : List Char → Option (BitVec 64)} {terms : List Tok} {t : Tok} {c : Char}
    (hp : punct c = some t) (hdot : c ≠ '.') (hid : cIdent c = false) (ht : terms.contains t = true)
    (htd : t ≠ .dot) {r : List Char} :
    ∀ {ss : List (List Char)} (acc s : List Char), (∀ x ∈ s :: ss, IsIdent x) →
      ∃ ts, lex fp (joinWith ['.'] (s :: ss) ++ (c :: r)) = .tok (.ident s) :: ts ∧
        fullIdentLoop terms (acc ++ s) ts = .ok (acc ++ joinWith ['.'] (s :: ss), .tok t :: lex fp r) := by
  intro ss
  induction ss with
  | nil =>
    intro acc s h
    refine ⟨_, lex_ident (h s (by simp)) (Halts.cons hid), ?_⟩
    rw [lex_punct hp hdot]
    cases t <;> first | exact absurd rfl htd | simp only [fullIdentLoop, ht, if_true, joinWith]
  | cons s2 ss ih =>
    intro acc s h
    obtain ⟨ts, h1, h2⟩ := ih (acc ++ s ++ ['.']) s2 (fun x hx => h x (List.mem_cons_of_mem _ hx))
    have e : joinWith ['.'] (s :: s2 :: ss) ++ (c :: r) =
        s ++ ('.' :: (joinWith ['.'] (s2 :: ss) ++ (c :: r))) := by
      show s ++ (['.'] ++ joinWith ['.'] (s2 :: ss)) ++ (c :: r) = _
      simp
    have hd : Halts cDigit (joinWith ['.'] (s2 :: ss) ++ (c :: r)) := by
      have hs2 := h s2 (by simp)
      cases ss with
      | nil => exact hs2.halts _
      | cons a b =>
        show Halts cDigit (s2 ++ (['.'] ++ joinWith ['.'] (a :: b)) ++ (c :: r))
        rw [List.append_assoc]
        exact hs2.halts _
    refine ⟨.tok .dot :: .tok (.ident s2) :: ts, ?_, ?_⟩
    · rw [e, lex_ident (h s (by simp)) (Halts.cons (by decide)), lex_dot hd, h1]
    · have e3 : acc ++ s ++ ['.'] ++ s2 = acc ++ s ++ ('.' :: s2) := by simp
      have e4 : acc ++ s ++ ['.'] ++ joinWith ['.'] (s2 :: ss) = acc ++ joinWith ['.'] (s :: s2 :: ss) := by
        show _ = acc ++ (s ++ (['.'] ++ joinWith ['.'] (s2 :: ss)))
        simp
      rw [e3, e4] at h2
      simpa only [fullIdentLoop] using h2

/-- A bracketed extension name. -/
theorem parse_extName {fp : List Char → Option (BitVec 64)} {n : List Char} (h : dotted n = true)
    (r : List Char) : ∃ ts, lex fp ('[' :: (n ++ (']' :: r))) = .tok .lbracket :: ts ∧
      parseFieldName (.tok .lbracket :: ts) = .ok (.ext n, lex fp r) := by
  obtain ⟨h1, h2⟩ := segs_join n
  simp only [dotted, List.all_eq_true, decide_eq_true_eq] at h
  cases hs : segs n with
  | nil => exact absurd hs h2
  | cons s ss =>
    rw [hs] at h h1
    obtain ⟨ts, h3, h4⟩ := fullIdent_segs (fp := fp) (terms := [.rbracket, .slash]) (t := .rbracket)
      (c := ']') rfl (by decide) (by decide) (by decide) (by decide) (r := r) [] s h
    rw [h1] at h3 h4
    refine ⟨_, lex_punct (t := .lbracket) rfl (by decide), ?_⟩
    rw [h3]
    simp only [List.nil_append] at h4
    simp only [parseFieldName, parseFullIdent, h4]

/-! ### White space, separators and tails -/

theorem lex_pad {fp : List Char → Option (BitVec 64)} (o : FOpts) (r : List Char) :
    lex fp (pad o ++ r) = lex fp r := by
  apply lex_spaces
  unfold pad
  split
  · intro c hc
    simp only [List.mem_singleton] at hc
    subst hc; decide
  · intro c hc; cases hc

theorem lex_newline {fp : List Char → Option (BitVec 64)} (ind : Nat) (r : List Char) :
    lex fp (newline ind ++ r) = lex fp r := by
  apply lex_spaces
  intro c hc
  rcases List.mem_cons.1 hc with rfl | hc
  · decide
  · rw [(List.mem_replicate.1 hc).2]; decide

theorem stop_newline (ind : Nat) (r : List Char) : Stop (newline ind ++ r) :=
  Stop.cons (by decide) (by decide)

/-- What a message body may be followed by. -/
def BTail (fp : List Char → Option (BitVec 64)) (r : List Char) : Prop :=
  Stop r ∧ (lex fp r = [] ∨ ∃ ts, lex fp r = .tok .rbrace :: ts)

theorem BTail.tail {fp : List Char → Option (BitVec 64)} {r : List Char} (h : BTail fp r) : TailOk fp r := by
  refine ⟨h.1, ?_⟩
  rcases h.2 with h | ⟨ts, h⟩
  · exact .inl h
  · exact .inr ⟨_, ts, h, fun b e => by cases e⟩

theorem BTail.sep {fp : List Char → Option (BitVec 64)} {r : List Char} (h : BTail fp r) (gs : FieldSet) :
    parseSep gs (lex fp r) = .ok (gs, lex fp r) := by
  rcases h.2 with h | ⟨ts, h⟩ <;> rw [h] <;> rfl

theorem BTail.nil {fp : List Char → Option (BitVec 64)} : BTail fp [] := ⟨Stop.nil, .inl rfl⟩

theorem BTail.brace {fp : List Char → Option (BitVec 64)} (r : List Char) : BTail fp ('}' :: r) :=
  ⟨Stop.cons (by decide) (by decide), .inr ⟨_, lex_punct rfl (by decide)⟩⟩

theorem BTail.newline {fp : List Char → Option (BitVec 64)} (ind : Nat) (r : List Char) :
    BTail fp (newline ind ++ ('}' :: r)) :=
  ⟨stop_newline _ _, .inr ⟨_, by rw [lex_newline]; exact lex_punct rfl (by decide)⟩⟩

/-- The text starts a field. -/
def Starts (fp : List Char → Option (BitVec 64)) (r : List Char) : Prop :=
  ∃ t ts, lex fp r = .tok t :: ts ∧ startsField t = true

/-- The separator between fields. -/
def sepText (o : FOpts) (ind : Nat) : List Char := if o.pretty then newline ind else [',']

theorem sep_tail {fp : List Char → Option (BitVec 64)} (o : FOpts) (ind : Nat) {x : List Char}
    (h : Starts fp x) : TailOk fp (sepText o ind ++ x) := by
  unfold sepText
  split
  · obtain ⟨t, ts, h, ht⟩ := h
    refine ⟨stop_newline _ _, .inr ⟨t, ts, by rw [lex_newline, h], ?_⟩⟩
    rintro b rfl
    cases ht
  · exact TailOk.punct (t := .comma) rfl (by decide)

theorem sep_parse {fp : List Char → Option (BitVec 64)} (o : FOpts) (ind : Nat) {x : List Char}
    (h : Starts fp x) (gs : FieldSet) : parseSep gs (lex fp (sepText o ind ++ x)) = .ok (gs, lex fp x) := by
  unfold sepText
  split
  · obtain ⟨t, ts, h, ht⟩ := h
    rw [lex_newline, h]
    cases t <;> first | rfl | cases ht
  · rw [List.cons_append, List.nil_append, lex_punct (t := .comma) rfl (by decide)]
    rfl

/-! ### Storing parsed values -/

/-- `gs'` is `gs` with the value of one more field. -/
structure Upd (gs : FieldSet) (f : FieldDesc) (w : Value) (gs' : FieldSet) : Prop where
  sorted : SMap.sorted gs' = true
  get : ∀ n, SMap.get? gs' n = if n = f.number then some (.val w) else SMap.get? gs n

/-- Neither the field nor a member of its oneof is stored yet. -/
structure Free (gs : FieldSet) (sib : List Nat) (mem : List FieldDesc) (f : FieldDesc) : Prop where
  sorted : SMap.sorted gs = true
  self : SMap.get? gs f.number = none
  sib : ∀ n ∈ sib, SMap.get? gs n = none
  mem : ∀ g ∈ mem, SMap.get? gs g.number = none

theorem Free.clear {gs : FieldSet} {sib : List Nat} {mem : List FieldDesc} {f : FieldDesc}
    (h : Free gs sib mem f) (n : Nat) : SMap.get? (FieldSet.clearAll sib gs) n = SMap.get? gs n := by
  rw [get?_clearAll _ _ h.sorted]
  split
  · rename_i hn; rw [h.sib n hn]
  · rfl

theorem Free.upd {gs : FieldSet} {sib : List Nat} {mem : List FieldDesc} {f : FieldDesc}
    (h : Free gs sib mem f) (hpos : 0 < f.number) (w : Value) :
    Upd gs f w (SMap.insert f.number (.val w) (FieldSet.clearAll sib gs)) := by
  refine ⟨SMap.sorted_insert hpos (sorted_clearAll _ _ h.sorted), fun n => ?_⟩
  rw [SMap.get?_insert, h.clear]

theorem Free.noHas {S : Schema} {gs : FieldSet} {mem : List FieldDesc}
    (h : ∀ g ∈ mem, SMap.get? gs g.number = none) : anyHas S gs mem = some false := by
  induction mem with
  | nil => rfl
  | cons g r ih =>
    have hg := h g (by simp)
    simp only [anyHas, FieldSet.has, FieldSet.getValue, hg]
    exact ih (fun x hx => h x (List.mem_cons_of_mem _ hx))

theorem store_single {env : TEnv} {S : Schema} {sub : Nat → List LTok → PR FieldSet} {sib : List Nat}
    {mem : List FieldDesc} {f : FieldDesc} {gs : FieldSet} (hc : f.card ≠ .repeated)
    (hpos : 0 < f.number) (hF : Free gs sib mem f) {ts r : List LTok} {v : Value}
    (h : parseVal env S sub f.kind ts = .ok (v, r)) :
    ∃ gs', parseFieldValue env S sub sib mem f gs ts = .ok (gs', r) ∧ Upd gs f v gs' := by
  refine ⟨_, ?_, hF.upd hpos v⟩
  simp only [parseFieldValue, isList_of_ne hc, isMap_of_ne hc, Bool.false_eq_true, if_false, h,
    FieldSet.has, FieldSet.getValue, hF.self, Free.noHas hF.mem, FieldSet.set]

theorem getMut_fresh {S : Schema} {sib : List Nat} {mem : List FieldDesc} {f : FieldDesc} {gs : FieldSet}
    (hF : Free gs sib mem f) {d : Value} (hd : fieldDefault S f = some d) :
    FieldSet.getMut S sib gs f = some (SMap.insert f.number (.val d) (FieldSet.clearAll sib gs), d) := by
  unfold FieldSet.getMut
  simp only [hF.clear, hF.self, hd]

theorem write_fresh {f : FieldDesc} {w d : Value} {gs : FieldSet} :
    FieldSet.write f w (SMap.insert f.number (.val d) gs) = SMap.insert f.number (.val w) gs :=
  SMap.insert_insert _ _ _ _

theorem store_list {env : TEnv} {S : Schema} {sub : Nat → List LTok → PR FieldSet} {sib : List Nat}
    {mem : List FieldDesc} {f : FieldDesc} {gs : FieldSet} (hl : isList S f = true)
    (hpos : 0 < f.number) (hF : Free gs sib mem f) {ts r : List LTok} {vs : List Value}
    (h : parseRep (parseVal env S sub f.kind) ts = .ok (vs, r)) :
    ∃ gs', parseFieldValue env S sub sib mem f gs ts = .ok (gs', r) ∧ Upd gs f (.list vs) gs' := by
  refine ⟨_, ?_, hF.upd hpos (.list vs)⟩
  have hd : fieldDefault S f = some (.list []) := by simp [fieldDefault, hl]
  simp only [parseFieldValue, hl, if_true, h, getMut_fresh hF hd, write_fresh, List.nil_append]

theorem store_map {env : TEnv} {S : Schema} {sub : Nat → List LTok → PR FieldSet} {sib : List Nat}
    {mem : List FieldDesc} {f : FieldDesc} {gs : FieldSet} (hl : isMap S f = true) {i : Nat}
    (hk : f.kind = .message i) (hpos : 0 < f.number) (hF : Free gs sib mem f) {ts r : List LTok}
    {vs : List Value} {kvs : List (MapKey × Value)}
    (h : parseRep (parseVal env S sub f.kind) ts = .ok (vs, r)) (hi : insertEntries S i [] vs = .ok kvs) :
    ∃ gs', parseFieldValue env S sub sib mem f gs ts = .ok (gs', r) ∧ Upd gs f (.map kvs) gs' := by
  refine ⟨_, ?_, hF.upd hpos (.map kvs)⟩
  have hn : isList S f = false := by
    unfold isList; rw [hl]; simp
  have hd : fieldDefault S f = some (.map []) := by simp [fieldDefault, hn, hl]
  simp only [parseFieldValue, hn, hl, Bool.false_eq_true, if_false, if_true, h, getMut_fresh hF hd]
  simp only [hk, hi, write_fresh]

/-! ### Lists -/

/-- Related element by element. -/
inductive Pairs {α β : Type} (R : α → β → Prop) : List α → List β → Prop where
  | nil : Pairs R [] []
  | cons {a : α} {b : β} {as : List α} {bs : List β} (h : R a b) (t : Pairs R as bs) :
      Pairs R (a :: as) (b :: bs)

theorem Pairs.length {α β : Type} {R : α → β → Prop} {as : List α} {bs : List β} (h : Pairs R as bs) :
    as.length = bs.length := by
  induction h with
  | nil => rfl
  | cons h t ih => simp [ih]

theorem Pairs.get {α β : Type} {R : α → β → Prop} {as : List α} {bs : List β} (h : Pairs R as bs) :
    ∀ (i : Nat) a b, as[i]? = some a → bs[i]? = some b → R a b := by
  induction h with
  | nil => intro i a b h; simp at h
  | cons h t ih =>
    intro i a b ha hb
    cases i with
    | zero =>
      simp only [List.getElem?_cons_zero, Option.some.injEq] at ha hb
      subst ha; subst hb; exact h
    | succ i => exact ih i a b (by simpa using ha) (by simpa using hb)

theorem Pairs.imp {α β : Type} {R Q : α → β → Prop} {as : List α} {bs : List β}
    (h : Pairs R as bs) (hi : ∀ a ∈ as, ∀ b, R a b → Q a b) : Pairs Q as bs := by
  induction h with
  | nil => exact .nil
  | cons h t ih =>
    exact .cons (hi _ (by simp) _ h) (ih (fun a ha => hi a (List.mem_cons_of_mem _ ha)))

theorem fmtAll_pairs {α : Type} {f : α → Option (List Char)} : ∀ {xs : List α} {ss : List (List Char)},
    fmtAll f xs = some ss → Pairs (fun a s => f a = some s) xs ss := by
  intro xs
  induction xs with
  | nil => intro ss h; cases h; exact .nil
  | cons a r ih =>
    intro ss h
    simp only [fmtAll] at h
    cases ha : f a with
    | none => simp [ha] at h
    | some s =>
      cases hr : fmtAll f r with
      | none => simp [ha, hr] at h
      | some t =>
        simp only [ha, hr, Option.some.injEq] at h
        subst h
        exact .cons ha (ih hr)

theorem parseVal_rbracket {env : TEnv} {S : Schema} {K : Nat} {k : Kind} {t : List LTok}
    {x : Value × List LTok} : parseVal env S (parseMsg env S K) k (.tok .rbracket :: t) ≠ .ok x := by
  intro h
  cases k with
  | message i =>
    cases K with
    | zero => simp [parseVal, parseMsg, mapP] at h
    | succ K =>
      simp only [parseVal, parseMsg] at h
      cases hm : S.msg? i with
      | none => simp [hm, mapP] at h
      | some md => simp [hm, mapP, unexpected] at h
  | _ => simp [parseVal, mapP, parseFloat, parseFloatAbs, parseSigned, parseUnsigned, parseInt,
      parseBool, parseBytes, parseEnum, unexpected] at h

/-- The text `s` of `a` is parsed by `pv` to a value related to `a`. -/
def Reads {α : Type} (fp : List Char → Option (BitVec 64)) (pv : List LTok → PR Value)
    (R : α → Value → Prop) (a : α) (s : List Char) : Prop :=
  ∀ r, TailOk fp r → ∃ w, pv (lex fp (s ++ r)) = .ok (w, lex fp r) ∧ R a w

theorem listTail_reads {α : Type} {fp : List Char → Option (BitVec 64)} {pv : List LTok → PR Value}
    (hg : ∀ ts, Good ts (pv ts)) {R : α → Value → Prop} {o : FOpts} {xs : List α}
    {ss : List (List Char)} (h : Pairs (Reads fp pv R) xs ss) (r : List Char) :
    ∀ x, x = (ss.map (fun s => ',' :: (pad o ++ s))).flatten ++ (']' :: r) → ∀ n, (lex fp x).length < n →
      TailOk fp x ∧ ∃ ws, listTail pv n (lex fp x) = .ok (ws, lex fp r) ∧ Pairs R xs ws := by
  induction h with
  | nil =>
    intro x hx n hn
    subst hx
    simp only [List.map_nil, List.flatten_nil, List.nil_append] at hn ⊢
    refine ⟨TailOk.punct (t := .rbracket) rfl (by decide), [], ?_, .nil⟩
    rw [lex_punct (t := .rbracket) rfl (by decide)] at hn ⊢
    cases n with
    | zero => omega
    | succ n => rfl
  | cons ha t ih =>
    rename_i a s as ss
    intro x hx n hn
    subst hx
    simp only [List.map_cons, List.flatten_cons, List.cons_append, List.append_assoc] at hn ⊢
    refine ⟨TailOk.punct (t := .comma) rfl (by decide), ?_⟩
    rw [lex_punct (t := .comma) rfl (by decide), lex_pad] at hn ⊢
    cases n with
    | zero => omega
    | succ n =>
      simp only [List.length_cons] at hn
      obtain ⟨hT, -⟩ := ih _ rfl _ (Nat.lt_succ_self _)
      obtain ⟨w, hw, hR⟩ := ha _ hT
      have hlt := ((hg _).ok hw).2
      obtain ⟨-, ws, hws, hp⟩ := ih _ rfl n (by omega)
      refine ⟨w :: ws, ?_, .cons hR hp⟩
      simp only [listTail, hw, hws]

theorem joinWith_cons (sep s : List Char) (ss : List (List Char)) :
    joinWith sep (s :: ss) = s ++ (ss.map (fun t => sep ++ t)).flatten := by
  induction ss generalizing s with
  | nil => simp [joinWith]
  | cons t ss ih =>
    show s ++ (sep ++ joinWith sep (t :: ss)) = _
    rw [ih]
    simp

theorem parseRep_reads {α : Type} {fp : List Char → Option (BitVec 64)} {pv : List LTok → PR Value}
    (hg : ∀ ts, Good ts (pv ts)) (hb : ∀ t x, pv (.tok .rbracket :: t) ≠ .ok x)
    {R : α → Value → Prop} {o : FOpts} {xs : List α} {ss : List (List Char)}
    (h : Pairs (Reads fp pv R) xs ss) (r : List Char) :
    ∃ ws, parseRep pv (lex fp (('[' :: (joinWith (',' :: pad o) ss ++ [']'])) ++ r)) = .ok (ws, lex fp r) ∧
      Pairs R xs ws := by
  rw [List.cons_append, lex_punct (t := .lbracket) rfl (by decide)]
  cases h with
  | nil =>
    refine ⟨[], ?_, .nil⟩
    show parseRep pv (.tok .lbracket :: lex fp (']' :: r)) = _
    rw [lex_punct (t := .rbracket) rfl (by decide)]
    rfl
  | cons ha t =>
    rename_i a s as ss
    rw [joinWith_cons]
    simp only [List.append_assoc, List.cons_append, List.nil_append]
    obtain ⟨hT, -⟩ := listTail_reads (o := o) hg t r _ rfl _ (Nat.lt_succ_self _)
    obtain ⟨w, hw, hR⟩ := ha _ hT
    have hlt := ((hg _).ok hw).2
    obtain ⟨-, ws, hws, hp⟩ := listTail_reads (o := o) hg t r _ rfl _ (Nat.lt_succ_of_lt hlt)
    refine ⟨w :: ws, ?_, .cons hR hp⟩
    generalize hx : lex fp (s ++ _) = ts at hw hws ⊢
    have hnb : ∀ t, ts ≠ .tok .rbracket :: t := by
      rintro t rfl
      exact hb _ _ hw
    have e : parseRep pv (.tok .lbracket :: ts) = (match pv ts with
      | .error e => .error e
      | .ok (v, r') =>
        match listTail pv (ts.length + 1) r' with
        | .error e => .error e
        | .ok (vs, r'') => .ok (v :: vs, r'')) := by
      cases ts with
      | nil => rfl
      | cons t ts =>
        cases t with
        | tok t => cases t <;> first | rfl | exact absurd rfl (hnb _)
        | bad => rfl
        | panic => rfl
    rw [e, hw]
    simp only [hws]

/-! ### Maps -/

/-- The parsed entry `w` holds the key and an alike value. -/
def EntryFor (S : Schema) (pay : Payloads) (i : Nat) (p : MapKey × Value) (w : Value) : Prop :=
  ∃ v, unpack S i w = .ok (p.1, v) ∧ AlikeBy S pay p.2 v

theorem insertEntries_fresh {S : Schema} {pay : Payloads} {i : Nat} {kvs : List (MapKey × Value)} {ws : List Value}
    (h : Pairs (EntryFor S pay i) kvs ws) : KMap.distinct kvs = true → ∀ (acc : List (MapKey × Value)),
      (∀ p ∈ kvs, KMap.get? acc p.1 = none) →
      ∃ kws, insertEntries S i acc ws = .ok (acc ++ kws) ∧
        Pairs (fun p q => p.1 = q.1 ∧ AlikeBy S pay p.2 q.2) kvs kws := by
  induction h with
  | nil => intro _ acc _; exact ⟨[], by simp [insertEntries], .nil⟩
  | cons ha t ih =>
    rename_i p w kvs ws
    intro hd acc hf
    obtain ⟨k, v⟩ := p
    obtain ⟨v', hu, hA⟩ := ha
    simp only [KMap.distinct, Bool.and_eq_true, Option.isNone_iff_eq_none] at hd
    have hk := hf (k, v) (by simp)
    simp only at hu hk
    have hne : ∀ p ∈ kvs, p.1 ≠ k := by
      intro p hp e
      have : ∀ l : List (MapKey × Value), p ∈ l → KMap.get? l p.1 ≠ none := by
        intro l
        induction l with
        | nil => intro h; cases h
        | cons q l ih' =>
          intro h
          obtain ⟨qk, qv⟩ := q
          simp only [KMap.get?]
          split
          · simp
          · rename_i hq
            rcases List.mem_cons.1 h with rfl | h
            · exact absurd rfl hq
            · exact ih' h
      exact this kvs hp (e ▸ hd.1)
    obtain ⟨kws, h1, h2⟩ := ih hd.2 (acc ++ [(k, v')]) (fun p hp => by
      rw [KMap.get?_append, hf p (List.mem_cons_of_mem _ hp)]
      simp [KMap.get?, (hne p hp).symm])
    refine ⟨(k, v') :: kws, ?_, .cons ⟨rfl, hA⟩ h2⟩
    simp only [insertEntries, hu, KMap.insert_fresh hk, h1]
    simp

theorem alike_map {S : Schema} {pay : Payloads} {kvs kws : List (MapKey × Value)}
    (h : Pairs (fun p q => p.1 = q.1 ∧ AlikeBy S pay p.2 q.2) kvs kws) : AlikeBy S pay (.map kvs) (.map kws) := by
  have key : ∀ k, (KMap.get? kvs k = none ∧ KMap.get? kws k = none) ∨
      ∃ v w, KMap.get? kvs k = some v ∧ KMap.get? kws k = some w ∧ AlikeBy S pay v w := by
    intro k
    induction h with
    | nil => exact .inl ⟨rfl, rfl⟩
    | cons h t ih =>
      rename_i p q _ _
      obtain ⟨pk, pv⟩ := p
      obtain ⟨qk, qv⟩ := q
      obtain ⟨h1, h2⟩ := h
      simp only at h1 h2
      subst h1
      simp only [KMap.get?]
      by_cases hk : pk = k
      · simp only [hk, if_true]
        exact .inr ⟨_, _, rfl, rfl, h2⟩
      · simp only [hk, if_false]
        exact ih
  refine .map (fun k => ?_) (fun k v w hv hw => ?_)
  · rcases key k with ⟨h1, h2⟩ | ⟨v, w, h1, h2, -⟩ <;> simp [h1, h2]
  · rcases key k with ⟨h1, h2⟩ | ⟨v', w', h1, h2, h3⟩
    · rw [h1] at hv; cases hv
    · rw [h1] at hv; rw [h2] at hw; cases hv; cases hw; exact h3

/-! ### Fields -/

/-- Printed message values start with a brace. -/
theorem fmtVal_msg_brace {env : TEnv} {S : Schema} {o : FOpts} {k ind d : Nat} {fs : List (Nat × Slot)}
    {kind : Option Kind} {s : List Char} (h : fmtVal env S o k ind (.msg d fs) kind = some s) :
    ∃ t, s = '{' :: t := by
  cases k with
  | zero => simp [fmtVal] at h
  | succ k =>
    simp only [fmtVal] at h
    split at h
    · cases h
    · split at h
      · cases h
      · split at h
        · cases h; exact ⟨_, rfl⟩
        · unfold braced at h
          split at h
          all_goals
            obtain ⟨x, -, rfl⟩ := Option.map_eq_some_iff.1 h
            exact ⟨_, rfl⟩

/-- Colon, white space and value. -/
theorem parse_colon {fp : List Char → Option (BitVec 64)} {o : FOpts} {v : Value} {s : List Char}
    (hb : ∀ d fs, v = .msg d fs → ∃ t, s = '{' :: t) (r : List Char) :
    parseColon (lex fp (fieldValue o v s ++ r)) = .ok (lex fp (s ++ r)) := by
  have hcol : ∀ x, parseColon (lex fp ((':' :: (pad o ++ s)) ++ x)) = .ok (lex fp (s ++ x)) := by
    intro x
    rw [List.cons_append, lex_punct (t := .colon) rfl (by decide), List.append_assoc, lex_pad]
    rfl
  cases v with
  | msg d fs =>
    obtain ⟨t, rfl⟩ := hb d fs rfl
    simp only [fieldValue, List.append_assoc]
    rw [lex_pad, List.cons_append, lex_punct (t := .lbrace) rfl (by decide)]
    rfl
  | _ => exact hcol r

theorem fieldValue_halts {o : FOpts} {v : Value} {s : List Char}
    (hb : ∀ d fs, v = .msg d fs → ∃ t, s = '{' :: t) (r : List Char) :
    Halts cIdent (fieldValue o v s ++ r) := by
  cases v with
  | msg d fs =>
    obtain ⟨t, rfl⟩ := hb d fs rfl
    simp only [fieldValue, pad]
    split
    · exact Halts.cons (by decide)
    · exact Halts.cons (by decide)
  | _ => exact Halts.cons (by decide)

/-- One printed field. -/
theorem parse_item_field {env : TEnv} {S : Schema} {sub : Nat → List LTok → PR FieldSet} {md : MsgDesc}
    {d : Nat} {o : FOpts} {f : FieldDesc} {n s : List Char} {v : Value} {gs gs' : FieldSet} {r : List Char}
    (hn : IsIdent n) (hfind : findField S md n = some (some f))
    (hb : ∀ d fs, v = .msg d fs → ∃ t, s = '{' :: t)
    (h : parseFieldValue env S sub (siblings md f) (oneofMembers md f) f gs (lex env.parse64 (s ++ r)) =
      .ok (gs', lex env.parse64 r)) :
    Starts env.parse64 (n ++ (fieldValue o v s ++ r)) ∧
    parseField env S sub md d gs (lex env.parse64 (n ++ (fieldValue o v s ++ r))) =
      parseSep gs' (lex env.parse64 r) := by
  rw [Starts, lex_ident hn (fieldValue_halts hb r)]
  refine ⟨⟨_, _, rfl, rfl⟩, ?_⟩
  simp only [parseField, parseFieldName, parse_colon hb, parseNamed, hfind, h]

/-- One printed extension. -/
theorem parse_item_ext {env : TEnv} {S : Schema} {sub : Nat → List LTok → PR FieldSet} {md : MsgDesc}
    {d : Nat} {o : FOpts} {f : FieldDesc} {s : List Char} {v : Value} {gs gs' : FieldSet} {r : List Char}
    (hn : dotted f.name = true) (hfind : MsgDesc.extByName md f.name = some f)
    (hb : ∀ d fs, v = .msg d fs → ∃ t, s = '{' :: t)
    (h : parseFieldValue env S sub [] [] f gs (lex env.parse64 (s ++ r)) = .ok (gs', lex env.parse64 r)) :
    Starts env.parse64 ('[' :: (f.name ++ (']' :: (fieldValue o v s ++ r)))) ∧
    parseField env S sub md d gs (lex env.parse64 ('[' :: (f.name ++ (']' :: (fieldValue o v s ++ r))))) =
      parseSep gs' (lex env.parse64 r) := by
  obtain ⟨ts, h1, h2⟩ := parse_extName (fp := env.parse64) hn (fieldValue o v s ++ r)
  rw [Starts, h1]
  refine ⟨⟨_, _, rfl, rfl⟩, ?_⟩
  simp only [parseField, h2, parse_colon hb, parseNamed, hfind, h]

end Verif.Text
