import Verif.Text.Across2
/-!
Two schemas that show the same types under other numbers read the text format alike.
-/
set_option autoImplicit false
namespace Verif.Text
open Verif.Wire Verif.Dyn Verif.Pool

section
variable {S T : Schema} {ρ σ : Nat → Nat} {R : Nat → Prop}

/-- Apply a function to what was parsed. -/
def onFst {α β γ : Type} (r : α → β) (p : α × γ) : β × γ := (r p.1, p.2)

/-- The two parsers agree, and what the first yields is as `P` says. -/
def ParseAcross {α β : Type} (r : α → β) (P : α → Prop) (f : List LTok → PR α) (g : List LTok → PR β) : Prop :=
  ∀ ts, Tallies (onFst r) (fun p => P p.1) (f ts) (g ts)

/-- The two parsers of messages agree. -/
def SubAcross (ρ : Nat → Nat) (R : Nat → Prop) (f g : Nat → List LTok → PR FieldSet) : Prop :=
  ∀ i, R i → ParseAcross (renSlots ρ) (WithinSlots R) (f i) (g (ρ i))

theorem mapP_across {α β γ δ : Type} {r : α → β} {P : α → Prop} {r' : γ → δ} {P' : γ → Prop} {c : α → γ} {c' : β → δ}
    {x : PR α} {y : PR β} (h : Tallies (onFst r) (fun p => P p.1) x y)
    (h' : ∀ a, P a → P' (c a) ∧ c' (r a) = r' (c a)) :
    Tallies (onFst r') (fun p => P' p.1) (mapP c x) (mapP c' y) := by
  rcases h with ⟨e, rfl, rfl⟩ | ⟨⟨a, t⟩, ha, rfl, rfl⟩
  · exact .error e
  · refine .inr ⟨(c a, t), (h' a ha).1, rfl, ?_⟩
    simp only [onFst, mapP, (h' a ha).2]

/-- A value that holds no message is parsed by both alike. -/
theorem mapP_flat {α : Type} {c : α → Value} (hc : ∀ a, (c a).holdsNone = true) (x : PR α) :
    Tallies (onFst (renVal ρ)) (fun p => Within R p.1) (mapP c x) (mapP c x) := by
  cases x with
  | error e => exact .error e
  | ok p =>
    obtain ⟨a, t⟩ := p
    refine .inr ⟨(c a, t), flat_within (hc a), rfl, ?_⟩
    simp only [onFst, mapP, flat_ren (hc a)]

variable {sub sub' : Nat → List LTok → PR FieldSet}

theorem parseEnum_across {e : Nat} (he : T.enums[σ e]? = S.enums[e]?) (ts : List LTok) :
    parseEnum T (σ e) ts = parseEnum S e ts := by
  unfold parseEnum
  simp only [he]

theorem parseVal_across (env : TEnv) (hs : SubAcross ρ R sub sub') {k : Kind} (hk : KindIn S T σ R k) :
    ParseAcross (renVal ρ) (Within R) (parseVal env S sub k) (parseVal env T sub' (renKind ρ σ k)) := by
  intro ts
  cases k <;> simp only [renKind, parseVal]
  case message i =>
    refine mapP_across (hs i (hk.msg i rfl) ts) fun fs hfs => ⟨?_, ?_⟩
    · simp only [Within]; exact ⟨hk.msg i rfl, hfs⟩
    · simp only [renVal]
  case enum e =>
    rw [parseEnum_across (hk.enum e rfl)]
    exact mapP_flat (fun _ => rfl) _
  case string =>
    cases parseBytes ts with
    | error e => exact .error e
    | ok p =>
      obtain ⟨b, r⟩ := p
      simp only
      split
      · refine .inr ⟨(.str b, r), trivial, rfl, ?_⟩
        simp only [onFst, renVal]
      · exact .error _
  all_goals exact mapP_flat (fun _ => rfl) _

theorem unexpected_across {α β : Type} {r : α → β} {P : α → Prop} (ts : List LTok) :
    Tallies r P (unexpected ts) (unexpected ts) := by
  unfold unexpected
  split <;> exact .error _

variable {pv pv' : List LTok → PR Value}

theorem listTail_across (h : ParseAcross (renVal ρ) (Within R) pv pv') : ∀ n,
    ParseAcross (renVals ρ) (WithinVals R) (listTail pv n) (listTail pv' n)
  | 0 => fun ts => by simp only [listTail]; exact .error _
  | n + 1 => by
    intro ts
    have ih := listTail_across h n
    unfold listTail
    split
    · contradiction
    · next n' r heq =>
      cases heq
      rcases h r with ⟨e, e1, e2⟩ | ⟨⟨v, r'⟩, hv, e1, e2⟩
      · rw [e1, e2]; exact .error e
      · rw [e1, e2]
        simp only [onFst]
        rcases ih r' with ⟨e, e1, e2⟩ | ⟨⟨vs, r''⟩, hvs, e1, e2⟩
        · rw [e1, e2]; exact .error e
        · rw [e1, e2]
          refine .inr ⟨(v :: vs, r''), ?_, rfl, ?_⟩
          · simp only [WithinVals]; exact ⟨hv, hvs⟩
          · simp only [onFst, renVals]
    · refine .inr ⟨([], _), ?_, rfl, ?_⟩
      · simp only [WithinVals]
      · simp only [onFst, renVals]
    · exact unexpected_across _

/-- `parse_repeated_value`. -/
theorem parseRep_across (h : ParseAcross (renVal ρ) (Within R) pv pv') :
    ParseAcross (renVals ρ) (WithinVals R) (parseRep pv) (parseRep pv') := by
  intro ts
  unfold parseRep
  split
  · refine .inr ⟨([], _), ?_, rfl, ?_⟩
    · simp only [WithinVals]
    · simp only [onFst, renVals]
  · next r _ =>
    rcases h r with ⟨e, e1, e2⟩ | ⟨⟨v, r'⟩, hv, e1, e2⟩
    · rw [e1, e2]; exact .error e
    · rw [e1, e2]
      simp only [onFst]
      rcases listTail_across h (r.length + 1) r' with ⟨e, e1, e2⟩ | ⟨⟨vs, r''⟩, hvs, e1, e2⟩
      · rw [e1, e2]; exact .error e
      · rw [e1, e2]
        refine .inr ⟨(v :: vs, r''), ?_, rfl, ?_⟩
        · simp only [WithinVals]; exact ⟨hv, hvs⟩
        · simp only [onFst, renVals]
  · exact mapP_across (h _) fun v hv => ⟨by simp only [WithinVals, and_true]; exact hv, by simp only [renVals]⟩

theorem toMapKey_ren (v : Value) : (renVal ρ v).toMapKey = v.toMapKey := by
  cases v <;> simp only [renVal, Value.toMapKey]

theorem entryGet_across (h : Across S T ρ σ R) {i : Nat} (hi : R i) (n : Nat) (fs : FieldSet) :
    entryGet T (ρ i) n (renSlots ρ fs) = (entryGet S i n fs).map (renVal ρ) := by
  unfold entryGet
  rw [h.field hi]
  cases hf : S.field? i n with
  | none => rfl
  | some f => exact h.get (h.field_in hi hf) fs

theorem entryGet_within (h : Across S T ρ σ R) {i : Nat} (hi : R i) {n : Nat} {fs : FieldSet} (hw : WithinSlots R fs)
    {v : Value} (hv : entryGet S i n fs = some v) : Within R v := by
  unfold entryGet at hv
  split at hv
  · next f hf => exact get_within (h.field_in hi hf) hw hv
  · cases hv

theorem unpack_across (h : Across S T ρ σ R) {i : Nat} (hi : R i) {v : Value} (hv : Within R v) :
    Tallies (fun p : MapKey × Value => (p.1, renVal ρ p.2)) (fun p => Within R p.2) (unpack S i v)
      (unpack T (ρ i) (renVal ρ v)) := by
  cases v with
  | msg d fs =>
    simp only [Within] at hv
    simp only [renVal, unpack, entryGet_across h hi]
    cases entryGet S i 1 fs with
    | none => exact .error _
    | some k =>
      simp only [Option.map_some, toMapKey_ren]
      cases k.toMapKey with
      | none => exact .error _
      | some key =>
        simp only
        cases hg : entryGet S i 2 fs with
        | none => exact .error _
        | some w => exact .inr ⟨(key, w), entryGet_within h hi hv.2 hg, rfl, rfl⟩
  | _ => simp only [renVal, unpack]; exact .error _

theorem insertEntries_across (h : Across S T ρ σ R) {i : Nat} (hi : R i) : ∀ (vs : List Value)
    (kvs : List (MapKey × Value)), WithinVals R vs → WithinMap R kvs →
    Tallies (renMap ρ) (WithinMap R) (insertEntries S i kvs vs) (insertEntries T (ρ i) (renMap ρ kvs) (renVals ρ vs))
  | [], kvs, _, hk => by simp only [renVals, insertEntries]; exact .ok hk
  | v :: r, kvs, hv, hk => by
    simp only [WithinVals] at hv
    simp only [renVals, insertEntries]
    rcases unpack_across h hi hv.1 with ⟨e, e1, e2⟩ | ⟨⟨key, w⟩, hw, e1, e2⟩
    · rw [e1, e2]; exact .error e
    · rw [e1, e2]
      simp only
      rw [← insert_renMap]
      exact insertEntries_across h hi r _ hv.2 (withinMap_insert hk hw)

theorem renVals_append : ∀ a b : List Value, renVals ρ (a ++ b) = renVals ρ a ++ renVals ρ b
  | [], _ => rfl
  | v :: a, b => by simp only [List.cons_append, renVals, renVals_append a b]

theorem write_ren (f : FieldDesc) (v : Value) (fs : FieldSet) :
    FieldSet.write (renField ρ σ f) (renVal ρ v) (renSlots ρ fs) = renSlots ρ (FieldSet.write f v fs) :=
  insert_renSlots f.number (.val v) fs

theorem write_within {f : FieldDesc} {v : Value} {fs : FieldSet} (h : WithinSlots R fs) (hv : Within R v) :
    WithinSlots R (FieldSet.write f v fs) := withinSlots_insert h fun w hw => by cases hw; exact hv

theorem getMut_within (h : Across S T ρ σ R) {sib : List Nat} {fs : FieldSet} (hfs : WithinSlots R fs)
    {f : FieldDesc} (hf : InAcross S T σ R f) {fs' : FieldSet} {v : Value}
    (hg : FieldSet.getMut S sib fs f = some (fs', v)) : WithinSlots R fs' ∧ Within R v :=
  (h.self.getMut hfs ⟨hf.msg, fun _ _ => rfl, fun v hv => flat_within (hf.default v hv)⟩).2 fs' v hg

theorem parseFieldValue_across (env : TEnv) (h : AcrossNamed S T ρ σ R) (hs : SubAcross ρ R sub sub') (sib : List Nat)
    {mem : List FieldDesc} (hmem : ∀ f ∈ mem, InAcross S T σ R f) {f : FieldDesc} (hf : InAcross S T σ R f)
    {fs : FieldSet} (hw : WithinSlots R fs) :
    ParseAcross (renSlots ρ) (WithinSlots R) (parseFieldValue env S sub sib mem f fs)
      (parseFieldValue env T sub' sib (mem.map (renField ρ σ)) (renField ρ σ f) (renSlots ρ fs)) := by
  intro ts
  have hv := parseVal_across env (T := T) hs (.of hf)
  have hr := parseRep_across hv
  unfold parseFieldValue
  rw [show (renField ρ σ f).kind = renKind ρ σ f.kind from rfl, h.toAcross.isList hf, h.toAcross.isMap hf,
    h.toAcross.getMut hf, h.toAcross.has hf hw, h.toAcross.anyHas hw _ hmem]
  split
  · rcases hr ts with ⟨e, e1, e2⟩ | ⟨⟨vs, r⟩, hvs, e1, e2⟩
    · rw [e1, e2]; exact .error e
    · rw [e1, e2]
      simp only [onFst]
      cases hg : FieldSet.getMut S sib fs f with
      | none => exact .error _
      | some p =>
        obtain ⟨fs', w⟩ := p
        have hgw := getMut_within h.toAcross hw hf hg
        cases w with
        | list ws =>
          simp only [Option.map_some, renVal]
          refine .inr ⟨(FieldSet.write f (.list (ws ++ vs)) fs', r), ?_, rfl, ?_⟩
          · have := hgw.2
            simp only [Within] at this
            refine write_within hgw.1 ?_
            simp only [Within]
            exact withinVals_append.2 ⟨this, hvs⟩
          · simp only [onFst, ← write_ren (σ := σ), renVal, renVals_append]
        | _ => simp only [Option.map_some, renVal]; exact .error _
  · split
    · rcases hr ts with ⟨e, e1, e2⟩ | ⟨⟨vs, r⟩, hvs, e1, e2⟩
      · rw [e1, e2]; exact .error e
      · rw [e1, e2]
        simp only [onFst]
        cases hg : FieldSet.getMut S sib fs f with
        | none => exact .error _
        | some p =>
          obtain ⟨fs', w⟩ := p
          have hgw := getMut_within h.toAcross hw hf hg
          cases w with
          | map kvs =>
            have hkvs := hgw.2
            simp only [Within] at hkvs
            cases hk : f.kind with
            | message i =>
              simp only [Option.map_some, renVal, renKind]
              rcases insertEntries_across h.toAcross (hf.msg i hk) vs kvs hvs hkvs with
                ⟨e, e1, e2⟩ | ⟨kvs', hk', e1, e2⟩
              · rw [e1, e2]; exact .error e
              · rw [e1, e2]
                refine .inr ⟨(FieldSet.write f (.map kvs') fs', r), ?_, rfl, ?_⟩
                · refine write_within hgw.1 ?_
                  simp only [Within]; exact hk'
                · simp only [onFst, ← write_ren (σ := σ), renVal]
            | _ => simp only [Option.map_some, renVal, renKind]; exact .error _
          | _ => simp only [Option.map_some, renVal]; exact .error _
    · rcases hv ts with ⟨e, e1, e2⟩ | ⟨⟨v, r⟩, hvw, e1, e2⟩
      · rw [e1, e2]; exact .error e
      · rw [e1, e2]
        simp only [onFst]
        cases FieldSet.has S fs f with
        | none => exact .error _
        | some b =>
          cases b with
          | true => exact .error _
          | false =>
            simp only
            cases anyHas S fs mem with
            | none => exact .error _
            | some b =>
              cases b with
              | true => exact .error _
              | false =>
                refine .inr ⟨(FieldSet.set sib fs f v, r), set_within hw hvw, rfl, ?_⟩
                simp only [onFst, set_ren]

theorem filter_ren (o : Option FieldDesc) (t : FieldDesc → Bool) (ht : ∀ f, t (renField ρ σ f) = t f) :
    (o.map (renField ρ σ)).filter t = (o.filter t).map (renField ρ σ) := by
  cases o with
  | none => rfl
  | some f =>
    simp only [Option.map_some, Option.filter, ht]
    split <;> rfl

theorem findField_across (h : AcrossNamed S T ρ σ R) {d : Nat} {md td : MsgDesc} (hd : R d) (h1 : S.msg? d = some md)
    (ht : td.fields = md.fields.map (renField ρ σ)) (n : Name) :
    findField T td n = (findField S md n).map (Option.map (renField ρ σ)) ∧
      ∀ f, findField S md n = some (some f) → f ∈ md.fields := by
  unfold findField
  rw [getFieldByName_ren ht, getFieldByName_ren ht, filter_ren _ _ (fun _ => rfl), filter_ren _ _ (fun _ => rfl)]
  cases hg : (md.getFieldByName n).filter (fun f => !f.group) with
  | some f =>
    refine ⟨rfl, fun f' hf => ?_⟩
    cases hf
    exact List.mem_of_find?_eq_some (Option.filter_eq_some_iff.1 hg).1
  | none =>
    simp only [Option.map_none]
    cases hg' : (md.getFieldByName (n.map asciiLower)).filter (·.group) with
    | none => exact ⟨rfl, fun f' hf => by cases hf⟩
    | some f =>
      have hm : f ∈ md.fields := List.mem_of_find?_eq_some (Option.filter_eq_some_iff.1 hg').1
      simp only [Option.map_some, fieldLabel_across h (h.inner d md hd h1 f (.inl hm))]
      cases fieldLabel S f with
      | none => exact ⟨rfl, fun f' hf => by cases hf⟩
      | some l =>
        simp only
        split
        · refine ⟨rfl, fun f' hf => ?_⟩
          cases hf; exact hm
        · exact ⟨rfl, fun f' hf => by cases hf⟩

/-- Setting a field by number to a value that holds no message. -/
theorem trySetByNumber_across (h : Across S T ρ σ R) {d : Nat} {md td : MsgDesc} (hd : R d) (h1 : S.msg? d = some md)
    (ht : td.fields = md.fields.map (renField ρ σ)) {m : DynMsg} (hm : WithinMsg R m) (n : Nat) {v : Value}
    (hv : v.holdsNone = true) :
    (DynMsg.trySetByNumber S md m n v = none ∧ DynMsg.trySetByNumber T td (renMsg ρ m) n v = none) ∨
    (∃ m' m'' e e', DynMsg.trySetByNumber S md m n v = some (m', .error e) ∧
      DynMsg.trySetByNumber T td (renMsg ρ m) n v = some (m'', .error e')) ∨
    (∃ m', WithinMsg R m' ∧ DynMsg.trySetByNumber S md m n v = some (m', .ok ()) ∧
      DynMsg.trySetByNumber T td (renMsg ρ m) n v = some (renMsg ρ m', .ok ())) := by
  unfold DynMsg.trySetByNumber
  rw [getField_ren ht]
  cases hg : md.getField n with
  | none => exact .inr (.inl ⟨_, _, _, _, rfl, rfl⟩)
  | some f =>
    have hf := h.inner d md hd h1 f (.inl (List.mem_of_find?_eq_some hg))
    simp only [Option.map_some]
    have e := h.trySetField ht hf m v
    rw [flat_ren hv] at e
    rw [e]
    cases hs : DynMsg.trySetField S md m f v with
    | none => exact .inl ⟨rfl, rfl⟩
    | some p =>
      obtain ⟨m', r⟩ := p
      cases r with
      | ok u => exact .inr (.inr ⟨m', trySetField_within hm (flat_within hv) hs, rfl, rfl⟩)
      | error e' =>
        refine .inr (.inl ?_)
        cases e' <;> exact ⟨_, _, _, _, rfl, rfl⟩

theorem parseAny_across (h : AcrossNamed S T ρ σ R) (hs : SubAcross ρ R sub sub') {d : Nat} {md td : MsgDesc}
    (hd : R d) (h1 : S.msg? d = some md) (hn : td.name = md.name) (ht : td.fields = md.fields.map (renField ρ σ))
    (domain name : List Char) {fs : FieldSet} (hw : WithinSlots R fs) :
    ParseAcross (renSlots ρ) (WithinSlots R) (parseAny S sub md d domain name fs)
      (parseAny T sub' td (ρ d) domain name (renSlots ρ fs)) := by
  intro ts
  unfold parseAny
  rw [h.byName, hn]
  cases hi : Schema.msgByName S name with
  | none => exact .error _
  | some i =>
    have hR := h.named name i hi
    simp only [Option.map_some]
    rcases hs i hR ts with ⟨e, e1, e2⟩ | ⟨⟨body, r⟩, hb, e1, e2⟩
    · rw [e1, e2]; exact .error e
    · rw [e1, e2]
      have := h.toAcross.encMsg (m := ⟨i, body⟩) ⟨hR, hb⟩
      simp only [renMsg] at this
      simp only [onFst, this]
      cases encMsg S ⟨i, body⟩ with
      | none => exact .error _
      | some b =>
        simp only
        split
        · exact .error _
        · rcases trySetByNumber_across h.toAcross hd h1 ht (m := ⟨d, fs⟩) ⟨hd, hw⟩ 1
              (v := .str (utf8Encode (domain ++ '/' :: name))) rfl with ⟨e1, e2⟩ | ⟨m', m'', e, e', e1, e2⟩ | ⟨m', hm', e1, e2⟩
          · simp only [renMsg] at e2
            rw [e1, e2]; exact .error _
          · simp only [renMsg] at e2
            rw [e1, e2]; exact .error _
          · rw [show (⟨ρ d, renSlots ρ fs⟩ : DynMsg) = renMsg ρ ⟨d, fs⟩ from rfl, e1, e2]
            simp only
            rcases trySetByNumber_across h.toAcross hd h1 ht hm' 2 (v := .bytes b) rfl with
              ⟨e1, e2⟩ | ⟨m2, m3, e, e', e1, e2⟩ | ⟨m2, hm2, e1, e2⟩
            · rw [e1, e2]; exact .error _
            · rw [e1, e2]; exact .error _
            · rw [e1, e2]; exact .inr ⟨(m2.fields, r), hm2.2, rfl, rfl⟩

theorem parseNamed_across (env : TEnv) (h : AcrossNamed S T ρ σ R) (hs : SubAcross ρ R sub sub') {d : Nat}
    {md td : MsgDesc} (hd : R d) (h1 : S.msg? d = some md) (h2 : T.msg? (ρ d) = some td)
    (ht : td.fields = md.fields.map (renField ρ σ)) (name : FName) {fs : FieldSet} (hw : WithinSlots R fs) :
    ParseAcross (renSlots ρ) (WithinSlots R) (parseNamed env S sub md d name fs)
      (parseNamed env T sub' td (ρ d) name (renSlots ρ fs)) := by
  intro ts
  cases name with
  | ident n =>
    obtain ⟨f1, f2⟩ := findField_across h hd h1 ht n
    simp only [parseNamed, f1]
    cases hff : findField S md n with
    | none => exact .error _
    | some o =>
      cases o with
      | none => exact .error _
      | some f =>
        have hf := h.inner d md hd h1 f (.inl (f2 f hff))
        simp only [Option.map_some, siblings_ren ht, oneofMembers_ren ht]
        exact parseFieldValue_across env h hs _ (fun g hg => h.inner d md hd h1 g (.inl (oneofMembers_mem hg))) hf hw ts
  | ext n =>
    simp only [parseNamed]
    rw [show MsgDesc.extByName td n = (MsgDesc.extByName md n).map (renField ρ σ) from h.extName d md td hd h1 h2 n]
    cases hx : MsgDesc.extByName md n with
    | none => exact .error _
    | some f =>
      have hf := h.inner d md hd h1 f (.inr (List.mem_of_find?_eq_some hx))
      exact parseFieldValue_across env h hs [] (mem := []) (fun g hg => by cases hg) hf hw ts
  | any domain n => exact parseAny_across h hs hd h1 (h.name d md td hd h1 h2) ht domain n hw ts

theorem parseSep_across {fs : FieldSet} (hw : WithinSlots R fs) :
    ParseAcross (renSlots ρ) (WithinSlots R) (parseSep fs) (parseSep (renSlots ρ fs)) := by
  intro ts
  unfold parseSep
  split
  · exact .inr ⟨(fs, _), hw, rfl, rfl⟩
  · exact .inr ⟨(fs, _), hw, rfl, rfl⟩
  · exact .error _
  · exact .error _
  · exact .inr ⟨(fs, _), hw, rfl, rfl⟩

/-- The two parsers of a field agree. -/
def FieldAcross (ρ : Nat → Nat) (R : Nat → Prop) (f g : FieldSet → List LTok → PR FieldSet) : Prop :=
  ∀ fs, WithinSlots R fs → ParseAcross (renSlots ρ) (WithinSlots R) (f fs) (g (renSlots ρ fs))

theorem parseField_across (env : TEnv) (h : AcrossNamed S T ρ σ R) (hs : SubAcross ρ R sub sub') {d : Nat}
    {md td : MsgDesc} (hd : R d) (h1 : S.msg? d = some md) (h2 : T.msg? (ρ d) = some td)
    (ht : td.fields = md.fields.map (renField ρ σ)) :
    FieldAcross ρ R (parseField env S sub md d) (parseField env T sub' td (ρ d)) := by
  intro fs hw ts
  unfold parseField
  cases parseFieldName ts with
  | error e => exact .error e
  | ok p =>
    obtain ⟨name, r⟩ := p
    simp only
    cases parseColon r with
    | error e => exact .error e
    | ok r' =>
      simp only
      rcases parseNamed_across env h hs hd h1 h2 ht name hw r' with ⟨e, e1, e2⟩ | ⟨⟨fs', r''⟩, hw', e1, e2⟩
      · rw [e1, e2]; exact .error e
      · rw [e1, e2]; exact parseSep_across hw' r''

variable {pf pf' : FieldSet → List LTok → PR FieldSet}

theorem bodyLoop_across (hp : FieldAcross ρ R pf pf') (term : Tok) : ∀ n fs, WithinSlots R fs →
    ParseAcross (renSlots ρ) (WithinSlots R) (bodyLoop pf term n fs) (bodyLoop pf' term n (renSlots ρ fs))
  | 0, fs, hw => fun ts => by simp only [bodyLoop]; exact .error _
  | n + 1, fs, hw => by
    intro ts
    have ih := bodyLoop_across hp term n
    match ts with
    | [] => simp only [bodyLoop]; exact unexpected_across _
    | .tok t :: r =>
      simp only [bodyLoop]
      split
      · rcases hp fs hw (.tok t :: r) with ⟨e, e1, e2⟩ | ⟨⟨fs', r'⟩, hw', e1, e2⟩
        · rw [e1, e2]; exact .error e
        · rw [e1, e2]; exact ih fs' hw' r'
      · split
        · exact .inr ⟨(fs, _), hw, rfl, rfl⟩
        · exact .error _
    | .bad :: r => simp only [bodyLoop]; exact unexpected_across _
    | .panic :: r => simp only [bodyLoop]; exact unexpected_across _

theorem parseMsg_across (env : TEnv) (h : AcrossNamed S T ρ σ R) : ∀ k,
    SubAcross ρ R (parseMsg env S k) (parseMsg env T k)
  | 0 => fun i _ ts => by simp only [parseMsg]; exact .error _
  | k + 1 => by
    intro i hi ts
    have ih := parseMsg_across env h k
    obtain ⟨md, td, h1, h2, _, h3, _⟩ := h.msgs i hi
    have hF := parseField_across env h ih hi h1 h2 h3
    have h0 : WithinSlots R [] := by simp only [WithinSlots]
    simp only [parseMsg, h1, h2]
    split
    · exact bodyLoop_across hF _ _ [] h0 _
    · exact bodyLoop_across hF _ _ [] h0 _
    · exact unexpected_across _

theorem topLoop_across (hp : FieldAcross ρ R pf pf') : ∀ n fs ts, WithinSlots R fs →
    Tallies (renSlots ρ) (WithinSlots R) (topLoop pf n fs ts) (topLoop pf' n (renSlots ρ fs) ts)
  | 0, fs, [], hw => by simp only [topLoop]; exact .ok hw
  | n + 1, fs, [], hw => by simp only [topLoop]; exact .ok hw
  | 0, fs, t :: r, hw => by simp only [topLoop]; exact .error _
  | n + 1, fs, t :: r, hw => by
    simp only [topLoop]
    rcases hp fs hw (t :: r) with ⟨e, e1, e2⟩ | ⟨⟨fs', r'⟩, hw', e1, e2⟩
    · rw [e1, e2]; exact .error e
    · rw [e1, e2]; exact topLoop_across hp n fs' r' hw'

/-- Merging text into a message. -/
theorem mergeText_across (env : TEnv) (h : AcrossNamed S T ρ σ R) (k : Nat) {m : DynMsg} (hm : WithinMsg R m)
    (text : List Char) : Tallies (renMsg ρ) (WithinMsg R) (mergeText env S k m text)
      (mergeText env T k (renMsg ρ m) text) := by
  obtain ⟨md, td, h1, h2, _, h3, _⟩ := h.msgs m.desc hm.1
  have hF := parseField_across env h (parseMsg_across env h k) hm.1 h1 h2 h3
  unfold mergeText mergeToks
  rw [show (renMsg ρ m).desc = ρ m.desc from rfl, show (renMsg ρ m).fields = renSlots ρ m.fields from rfl, h1, h2]
  simp only
  rcases topLoop_across hF (lex env.parse64 text).length m.fields (lex env.parse64 text) hm.2 with
    ⟨e, e1, e2⟩ | ⟨fs, hw, e1, e2⟩
  · rw [e1, e2]; exact .error e
  · rw [e1, e2]; exact .inr ⟨⟨m.desc, fs⟩, ⟨hm.1, hw⟩, rfl, rfl⟩

/-- Reading a message in the text format. -/
theorem parseText_across (env : TEnv) (h : AcrossNamed S T ρ σ R) (k : Nat) {d : Nat} (hd : R d)
    (text : List Char) : Tallies (renMsg ρ) (WithinMsg R) (parseText env S k d text) (parseText env T k (ρ d) text) := by
  have := mergeText_across env h k (m := DynMsg.empty d) ⟨hd, by simp only [DynMsg.empty, WithinSlots]⟩ text
  simpa only [parseText, renMsg, DynMsg.empty, renSlots] using this

end
end Verif.Text
