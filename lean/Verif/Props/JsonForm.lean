import Verif.Json.DecEq
import Verif.Props.JsonRound
import Verif.Props.Access
/-!
C81: what the JSON of a message looks like under each of the serialize options. Messages with a
JSON form of their own (well-known types) are left to C38–C40, C43 and C65.
-/
set_option autoImplicit false
namespace Verif.Props
open Verif.Wire Verif.Dyn Verif.Pool Verif.Json

/-- The fields listed for a message, in the order of their numbers: those that are present and, unless
default values are skipped, those that have no presence. -/
def FieldsShown (S : Schema) (o : SOpts) (md : MsgDesc) (m : DynMsg) (xs : List (FieldDesc × Value)) : Prop :=
  (xs.map (·.1.number)).Pairwise (· < ·) ∧ ∀ f v, (f, v) ∈ xs ↔ f ∈ md.fields ∧
    (m.hasField S f = some true ∨ (o.skipDefault = false ∧ f.presence = false)) ∧ m.getField S f = some v

/-- The extensions listed: those that are present. -/
def ExtsShown (S : Schema) (md : MsgDesc) (m : DynMsg) (ys : List (FieldDesc × Value)) : Prop :=
  (ys.map (·.1.number)).Pairwise (· < ·) ∧ ∀ f v, (f, v) ∈ ys ↔ md.getExtension f.number = some f ∧
    m.hasField S f = some true ∧ m.getField S f = some v

/-- The text of a map key. -/
inductive KeyText : MapKey → List Char → Prop
  | true : KeyText (.bool true) "true".toList
  | false : KeyText (.bool false) "false".toList
  | i32 (v : BitVec 32) : KeyText (.i32 v) (decInt v.toInt)
  | i64 (v : BitVec 64) : KeyText (.i64 v) (decInt v.toInt)
  | u32 (v : BitVec 32) : KeyText (.u32 v) (decInt v.toNat)
  | u64 (v : BitVec 64) : KeyText (.u64 v) (decInt v.toNat)
  | str (s : List Char) : KeyText (.str (utf8Encode s)) s

/-- The JSON of a value of a kind. -/
inductive Shows (env : JEnv) (S : Schema) (o : SOpts) : Kind → Value → Json → Prop
  | bool {κ : Kind} (b : Bool) : Shows env S o κ (.bool b) (.bool b)
  | i32 {κ : Kind} (v : BitVec 32) : Shows env S o κ (.i32 v) (.ofInt v.toInt)
  | u32 {κ : Kind} (v : BitVec 32) : Shows env S o κ (.u32 v) (.uint (v.setWidth 64))
  | i64 {κ : Kind} (v : BitVec 64) (h : o.stringify64 = false) : Shows env S o κ (.i64 v) (.ofInt v.toInt)
  | i64s {κ : Kind} (v : BitVec 64) (h : o.stringify64 = true) : Shows env S o κ (.i64 v) (.str (decInt v.toInt))
  | u64 {κ : Kind} (v : BitVec 64) (h : o.stringify64 = false) : Shows env S o κ (.u64 v) (.uint v)
  | u64s {κ : Kind} (v : BitVec 64) (h : o.stringify64 = true) : Shows env S o κ (.u64 v) (.str (decInt v.toNat))
  | f32 {κ : Kind} (v : BitVec 32) (h : (v >>> 23) % 256#32 ≠ 255#32) : Shows env S o κ (.f32 v) (.float (env.widen v))
  | f64 {κ : Kind} (v : BitVec 64) (h : (v >>> 52) % 2048#64 ≠ 2047#64) : Shows env S o κ (.f64 v) (.float v)
  | inf32 {κ : Kind} : Shows env S o κ (.f32 0x7F800000#32) (.str "Infinity".toList)
  | ninf32 {κ : Kind} : Shows env S o κ (.f32 0xFF800000#32) (.str "-Infinity".toList)
  | nan32 {κ : Kind} (v : BitVec 32) (h : isNan32 v = true) : Shows env S o κ (.f32 v) (.str "NaN".toList)
  | inf64 {κ : Kind} : Shows env S o κ (.f64 0x7FF0000000000000#64) (.str "Infinity".toList)
  | ninf64 {κ : Kind} : Shows env S o κ (.f64 0xFFF0000000000000#64) (.str "-Infinity".toList)
  | nan64 {κ : Kind} (v : BitVec 64) (h : isNan64 v = true) : Shows env S o κ (.f64 v) (.str "NaN".toList)
  | str {κ : Kind} (s : List Char) : Shows env S o κ (.str (utf8Encode s)) (.str s)
  | bytes {κ : Kind} (b : Bytes) : Shows env S o κ (.bytes b) (.str (b64Enc b64Std b))
  | enumNull {e : Nat} {ed : EnumDesc} (v : BitVec 32) (he : S.enums[e]? = some ed)
      (hn : ed.name = "google.protobuf.NullValue".toList) : Shows env S o (.enum e) (.enum v) .null
  | enumNumber {e : Nat} {ed : EnumDesc} (v : BitVec 32) (he : S.enums[e]? = some ed)
      (hn : ed.name ≠ "google.protobuf.NullValue".toList) (h : o.enumNumbers = true ∨ env.enumName ed v = none) :
      Shows env S o (.enum e) (.enum v) (.ofInt v.toInt)
  | enumName {e : Nat} {ed : EnumDesc} {n : Name} (v : BitVec 32) (he : S.enums[e]? = some ed)
      (hn : ed.name ≠ "google.protobuf.NullValue".toList) (h : o.enumNumbers = false) (h' : env.enumName ed v = some n) :
      Shows env S o (.enum e) (.enum v) (.str n)
  | list {κ : Kind} {vs : List Value} {js : List Json} (hl : vs.length = js.length)
      (h : ∀ (i : Nat) v j, vs[i]? = some v → js[i]? = some j → Shows env S o κ v j) : Shows env S o κ (.list vs) (.arr js)
  | map {i : Nat} {f : FieldDesc} {kvs : List (MapKey × Value)} {es : List (List Char × Json)}
      (hf : S.field? i 2 = some f) (hl : kvs.length = es.length)
      (hk : ∀ (i : Nat) p e, kvs[i]? = some p → es[i]? = some e → KeyText p.1 e.1)
      (h : ∀ (i : Nat) p e, kvs[i]? = some p → es[i]? = some e → Shows env S o f.kind p.2 e.2) :
      Shows env S o (.message i) (.map kvs) (.obj es)
  | msg {κ : Kind} {d : Nat} {fs : FieldSet} {md : MsgDesc} {xs ys : List (FieldDesc × Value)}
      {es : List (List Char × Json)} (hd : S.msg? d = some md) (hw : wkt? md.name = none)
      (hx : FieldsShown S o md ⟨d, fs⟩ xs) (hy : ExtsShown S md ⟨d, fs⟩ ys)
      (hk : es.map (·.1) = xs.map (fun p => if o.protoNames then p.1.name else p.1.jsonName) ++ ys.map (·.1.jsonName))
      (h : ∀ (i : Nat) p e, (xs ++ ys)[i]? = some p → es[i]? = some e → Shows env S o p.1.kind p.2 e.2) :
      Shows env S o κ (.msg d fs) (.obj es)
  | wkt {κ : Kind} {d : Nat} {fs : FieldSet} {md : MsgDesc} {w : Wkt} {j : Json} (hd : S.msg? d = some md)
      (hw : wkt? md.name = some w) : Shows env S o κ (.msg d fs) j

/-! ### What is listed -/

theorem iterFieldPart_shown {S : Schema} {incl : Bool} {fs : FieldSet} :
    ∀ {ds : List (Nat × FieldDesc)} {its : List Item}, iterFieldPart S incl fs ds = some its →
      ∃ xs : List (FieldDesc × Value), its = xs.map (fun p => .field p.1 p.2) ∧
        (xs.map (·.1.number)).Sublist (ds.map (·.2.number)) ∧
        ∀ f v, (f, v) ∈ xs ↔ (∃ n, (n, f) ∈ ds) ∧
          (FieldSet.has S fs f = some true ∨ (incl = true ∧ f.presence = false)) ∧ FieldSet.get S fs f = some v
  | [], its, h => by cases h; exact ⟨[], rfl, .slnil, by simp⟩
  | (n, f) :: r, its, h => by
    simp only [iterFieldPart] at h
    split at h
    · next b its' hh hr =>
      obtain ⟨xs, rfl, h2, h3⟩ := iterFieldPart_shown hr
      have hb : (if incl = true then !f.presence || b else b) = true ↔
          (FieldSet.has S fs f = some true ∨ (incl = true ∧ f.presence = false)) := by
        rw [hh]
        cases incl <;> cases b <;> simp
      by_cases hc : (if incl = true then !f.presence || b else b) = true
      · rw [if_pos hc] at h
        split at h
        · next v hg =>
          cases h
          refine ⟨(f, v) :: xs, rfl, by simpa using h2, fun g w => ?_⟩
          constructor
          · intro hm
            rcases List.mem_cons.1 hm with hm | hm
            · cases hm
              exact ⟨⟨n, List.mem_cons_self ..⟩, hb.1 hc, hg⟩
            · obtain ⟨⟨k, h4⟩, h5⟩ := (h3 g w).1 hm
              exact ⟨⟨k, List.mem_cons_of_mem _ h4⟩, h5⟩
          · rintro ⟨⟨k, h4⟩, h5, h6⟩
            rcases List.mem_cons.1 h4 with h4 | h4
            · cases h4
              rw [hg] at h6
              cases h6
              exact List.mem_cons_self ..
            · exact List.mem_cons_of_mem _ ((h3 g w).2 ⟨⟨k, h4⟩, h5, h6⟩)
        · cases h
      · rw [if_neg hc] at h
        cases h
        refine ⟨xs, rfl, h2.trans (by simp), fun g w => ?_⟩
        rw [h3]
        constructor
        · rintro ⟨⟨k, h4⟩, h5⟩
          exact ⟨⟨k, List.mem_cons_of_mem _ h4⟩, h5⟩
        · rintro ⟨⟨k, h4⟩, h5, h6⟩
          rcases List.mem_cons.1 h4 with h4 | h4
          · cases h4
            exact absurd (hb.2 h5) hc
          · exact ⟨⟨k, h4⟩, h5, h6⟩
    · cases h

/-- The extension in an item. -/
def itemExt : Item → Option (FieldDesc × Value)
  | .ext f v => some (f, v)
  | _ => none

theorem iterExtPart_shown {S : Schema} {md : MsgDesc} : ∀ {fs : FieldSet} {its : List Item},
    iterExtPart S md fs = some its → iterExtensions S md fs = some (its.filterMap itemExt) ∧
      ∀ f v, Item.field f v ∉ its
  | [], its, h => by cases h; exact ⟨rfl, by simp⟩
  | (n, .taken) :: r, its, h => by
    simp only [iterExtPart] at h
    simp only [iterExtensions]
    exact iterExtPart_shown h
  | (n, .unknown u) :: r, its, h => by
    simp only [iterExtPart] at h
    obtain ⟨its', hr, rfl⟩ := Option.map_eq_some_iff.1 h
    obtain ⟨h1, h2⟩ := iterExtPart_shown hr
    simp only [iterExtensions]
    exact ⟨h1, fun f v hm => by
      rcases List.mem_cons.1 hm with hm | hm
      · cases hm
      · exact h2 f v hm⟩
  | (n, .val v) :: r, its, h => by
    simp only [iterExtPart] at h
    split at h
    · next hx => simp only [iterExtensions, hx]; exact iterExtPart_shown h
    · next f hx =>
      simp only [iterExtensions, hx]
      split at h
      · next its' hv hr =>
        cases h
        obtain ⟨h1, h2⟩ := iterExtPart_shown hr
        simp only [hv, h1]
        refine ⟨rfl, fun f v hm => ?_⟩
        rcases List.mem_cons.1 hm with hm | hm
        · cases hm
        · exact h2 f v hm
      · next its' hv hr =>
        cases h
        obtain ⟨h1, h2⟩ := iterExtPart_shown hr
        simp only [hv, h1]
        exact ⟨trivial, h2⟩
      · cases h

theorem pairwise_of_sorted {α : Type} {l : List (Nat × α)} (h : SMap.sorted l = true) : (l.map (·.1)).Pairwise (· < ·) := by
  have : ∀ (lo : Nat) (l : List (Nat × α)), SMap.sortedFrom lo l = true → (∀ n ∈ l.map (·.1), lo < n) ∧
      (l.map (·.1)).Pairwise (· < ·) := by
    intro lo l
    induction l generalizing lo with
    | nil => intro _; exact ⟨by simp, .nil⟩
    | cons p r ih =>
      intro h
      simp only [SMap.sortedFrom, Bool.and_eq_true, decide_eq_true_eq] at h
      obtain ⟨h1, h2⟩ := ih _ h.2
      refine ⟨?_, List.pairwise_cons.2 ⟨h1, h2⟩⟩
      intro n hn
      rcases List.mem_cons.1 hn with rfl | hn
      · exact h.1
      · exact Nat.lt_trans h.1 (h1 n hn)
  exact (this 0 l h).2

/-- The fields and extensions in the items of a message. -/
theorem iter_shown {S : Schema} (hS : S.wf = true) {o : SOpts} {d : Nat} {md : MsgDesc} {fs : FieldSet}
    (hC : Conf S ⟨d, fs⟩ md) {its : List Item} (h : iter S md (!o.skipDefault) fs = some its) :
    ∃ xs ys its', its = xs.map (fun p => Item.field p.1 p.2) ++ its' ∧ its'.filterMap itemExt = ys ∧
      (∀ f v, Item.field f v ∉ its') ∧ FieldsShown S o md ⟨d, fs⟩ xs ∧ ExtsShown S md ⟨d, fs⟩ ys := by
  have hd : S.msg? d = some md := hC.desc
  have hw := Schema.wf_msg hS hd
  unfold iter at h
  split at h
  · next a b ha hb =>
    cases h
    obtain ⟨xs, rfl, h1, h2⟩ := iterFieldPart_shown ha
    obtain ⟨h3, h4⟩ := iterExtPart_shown hb
    refine ⟨xs, _, b, rfl, rfl, h4, ⟨?_, fun f v => ?_⟩, ?_⟩
    · have hp := pairwise_of_sorted (sorted_fieldsByNumber (md := md) (fun f hf => (hw.fields f hf).num.1))
      have he : md.fieldsByNumber.map (·.1) = md.fieldsByNumber.map (·.2.number) :=
        List.map_congr_left (fun p hp => (mem_fieldsByNumber p hp).symm)
      rw [he] at hp
      exact hp.sublist h1
    · rw [h2]
      have hmem : (∃ n, (n, f) ∈ md.fieldsByNumber) ↔ f ∈ md.fields := by
        have hget := get?_fieldsByNumber (md := md) hw.nodup
        have hsort := sorted_fieldsByNumber (md := md) (fun f hf => (hw.fields f hf).num.1)
        constructor
        · rintro ⟨n, hn⟩
          have := SMap.get?_of_mem hsort hn
          rw [hget] at this
          exact (getField_mem this).1
        · intro hf
          have := getField_of_mem hw.nodup hf
          rw [← hget] at this
          exact ⟨_, SMap.mem_of_get? this⟩
      rw [hmem]
      simp only [DynMsg.hasField, DynMsg.getField, Bool.not_eq_true']
    · obtain ⟨l, hl, hp, hm⟩ := iter_class (S := S) hC.sorted getExtension_look (default_look hS hd).2
      rw [← iterExtensions_eq, h3] at hl
      cases hl
      exact ⟨hp, hm⟩
  · cases h

/-! ### Values -/

theorem pairs_get {α β : Type} {R : α → β → Prop} {as : List α} {bs : List β} (h : Text.Pairs R as bs) :
    ∀ {i : Nat} {a : α} {b : β}, as[i]? = some a → bs[i]? = some b → R a b := by
  induction h with
  | nil => intro i a b h; simp at h
  | cons h t ih =>
    intro i a b ha hb
    cases i with
    | zero => simp at ha hb; subst ha hb; exact h
    | succ i => exact ih (by simpa using ha) (by simpa using hb)

theorem pairs_map {α β γ : Type} {g : α → γ} {k : β → γ} {R : α → β → Prop} {as : List α} {bs : List β}
    (h : Text.Pairs R as bs) (hR : ∀ a b, R a b → k b = g a) : bs.map k = as.map g := by
  induction h with
  | nil => rfl
  | cons h t ih => rw [List.map_cons, List.map_cons, hR _ _ h, ih]

/-- The field in an item, with whether it is an extension. -/
def itemField : Item → Option (Bool × FieldDesc × Value)
  | .field f v => some (false, f, v)
  | .ext f v => some (true, f, v)
  | .unknown _ => none

theorem items_shown {o : SOpts} {val : Kind → Value → Except JErr Json} : ∀ {its : List Item}
    {es : List (Option (List Char × Json))}, mapE (serItem o val) its = .ok es →
    Text.Pairs (fun x e => e.1 = (if x.1 then x.2.1.jsonName else if o.protoNames then x.2.1.name else x.2.1.jsonName) ∧
      val x.2.1.kind x.2.2 = .ok e.2) (its.filterMap itemField) (es.filterMap id)
  | [], es, h => by cases h; exact .nil
  | it :: its, es, h => by
    simp only [mapE] at h
    split at h
    · cases h
    · next b hb =>
      split at h
      · cases h
      · next bs hbs =>
        cases h
        have ih := items_shown hbs
        cases it with
        | field f v =>
          simp only [serItem] at hb
          cases hv : val f.kind v with
          | error e => rw [hv] at hb; cases hb
          | ok j =>
            rw [hv] at hb
            cases hb
            exact .cons ⟨rfl, hv⟩ ih
        | ext f v =>
          simp only [serItem] at hb
          cases hv : val f.kind v with
          | error e => rw [hv] at hb; cases hb
          | ok j =>
            rw [hv] at hb
            cases hb
            exact .cons ⟨rfl, hv⟩ ih
        | unknown u =>
          simp only [serItem] at hb
          cases hb
          exact ih

theorem itemField_fields (xs : List (FieldDesc × Value)) :
    (xs.map (fun p => Item.field p.1 p.2)).filterMap itemField = xs.map (fun p => (false, p.1, p.2)) := by
  induction xs with
  | nil => rfl
  | cons p r ih => simp only [List.map_cons, List.filterMap_cons, itemField, ih]

theorem itemField_exts : ∀ {its : List Item}, (∀ f v, Item.field f v ∉ its) →
    its.filterMap itemField = (its.filterMap itemExt).map (fun p => (true, p.1, p.2))
  | [], _ => rfl
  | it :: its, h => by
    have ih := itemField_exts (its := its) (fun f v hm => h f v (List.mem_cons_of_mem _ hm))
    cases it with
    | field f v => exact absurd (List.mem_cons_self ..) (h f v)
    | ext f v => simp only [List.filterMap_cons, itemField, itemExt, List.map_cons, ih]
    | unknown u => simp only [List.filterMap_cons, itemField, itemExt, ih]

section
variable {env : JEnv} {S : Schema} {o : SOpts}

/-- Values inside are written as they should be. -/
def ValShows (env : JEnv) (S : Schema) (o : SOpts) (val : Kind → Value → Except JErr Json) : Prop :=
  ∀ f v j, kindOk S f.kind = true → confVal S f v = true → val f.kind v = .ok j → Shows env S o f.kind v j

theorem fields_shown (hS : S.wf = true) {val : Kind → Value → Except JErr Json} (hv : ValShows env S o val)
    {κ : Kind} {d : Nat} {md : MsgDesc} {fs : FieldSet} (hC : Conf S ⟨d, fs⟩ md) (hw : wkt? md.name = none)
    {es : List (List Char × Json)} (h : serFields S o val md fs = .ok es) : Shows env S o κ (.msg d fs) (.obj es) := by
  unfold serFields at h
  split at h
  · cases h
  · next its hits =>
    have hL := iter_listing hS hC hits
    have hwf := Schema.wf_msg hS hC.desc
    cases hm : mapE (serItem o val) its with
    | error e => rw [hm] at h; cases h
    | ok es0 =>
      rw [hm] at h
      cases h
      have hP := items_shown hm
      obtain ⟨xs, ys, its', rfl, hy, hno, hX, hY⟩ := iter_shown hS hC hits
      have one : ∀ p ∈ xs ++ ys, kindOk S p.1.kind = true ∧ confVal S p.1 p.2 = true := by
        intro p hp
        have : ∃ it ∈ xs.map (fun p => Item.field p.1 p.2) ++ its', ∃ e, it.ent = some e ∧ e.f = p.1 ∧ e.v = p.2 := by
          rcases List.mem_append.1 hp with hp | hp
          · exact ⟨_, List.mem_append_left _ (List.mem_map.2 ⟨p, hp, rfl⟩), _, rfl, rfl, rfl⟩
          · rw [← hy] at hp
            obtain ⟨it, hit, he⟩ := List.mem_filterMap.1 hp
            cases it with
            | field f v => cases he
            | unknown u => cases he
            | ext f v => cases he; exact ⟨_, List.mem_append_right _ hit, _, rfl, rfl, rfl⟩
        obtain ⟨it, hit, e, he, hf, hv⟩ := this
        have hmem : e ∈ (xs.map (fun p => Item.field p.1 p.2) ++ its').filterMap Item.ent :=
          List.mem_filterMap.2 ⟨it, hit, he⟩
        have hl := hL.look e hmem
        rw [← hf, ← hv]
        refine ⟨?_, hL.conf e hmem⟩
        split at hl
        · exact (hwf.exts e.f (getExtension_mem hl).1).kind
        · exact (hwf.fields e.f (getField_mem hl).1).kind
      rw [List.filterMap_append, itemField_fields, itemField_exts hno, hy] at hP
      refine .msg hC.desc hw hX hY ?_ ?_
      · rw [pairs_map hP (fun a b h => h.1)]
        simp [Function.comp_def]
      · intro i p e hp he
        have hx : (xs.map (fun p => (false, p.1, p.2)) ++ ys.map (fun p => (true, p.1, p.2)))[i]?.map (fun x => (x.2.1, x.2.2)) = some p := by
          rw [← List.getElem?_map, List.map_append, List.map_map, List.map_map]
          simpa [Function.comp_def] using hp
        obtain ⟨x, hx1, rfl⟩ := Option.map_eq_some_iff.1 hx
        have := pairs_get hP hx1 he
        have hk := one _ (List.mem_of_getElem? hp)
        exact hv _ _ _ hk.1 hk.2 this.2

theorem strOf_some {b : Bytes} {s : List Char} (h : strOf b = .ok s) : b = utf8Encode s := by
  unfold strOf at h
  split at h
  · next t ht => cases h; exact (utf8Encode_decode _ _ ht).symm
  · cases h

theorem finite32_exp {v : BitVec 32} (h : finite32 v = true) : (v >>> 23) % 256#32 ≠ 255#32 := by
  simp only [finite32, decide_eq_true_eq] at h
  intro e
  have := congrArg BitVec.toNat e
  simp only [BitVec.toNat_umod, BitVec.toNat_ushiftRight, BitVec.toNat_ofNat, Nat.shiftRight_eq_div_pow, Nat.reducePow, Nat.reduceMod] at this
  omega

theorem finite64_exp {v : BitVec 64} (h : finite64 v = true) : (v >>> 52) % 2048#64 ≠ 2047#64 := by
  simp only [finite64, expBits, bne_iff_ne] at h
  intro e
  have := congrArg BitVec.toNat e
  simp only [BitVec.toNat_umod, BitVec.toNat_ushiftRight, BitVec.toNat_ofNat, Nat.shiftRight_eq_div_pow, Nat.reducePow, Nat.reduceMod] at this
  omega

theorem scalar_shown {κ : Kind} {v : Value} {j : Json} (h : serScalar env S o κ v = .ok j) : Shows env S o κ v j := by
  cases v with
  | bool b => cases h; exact .bool b
  | i32 v => cases h; exact .i32 v
  | u32 v => cases h; exact .u32 v
  | i64 v =>
    simp only [serScalar, serI64, Except.ok.injEq] at h
    split at h
    · next ho => subst h; exact .i64s v ho
    · next ho => subst h; exact .i64 v (by simpa using ho)
  | u64 v =>
    simp only [serScalar, serU64, Except.ok.injEq] at h
    split at h
    · next ho => subst h; exact .u64s v ho
    · next ho => subst h; exact .u64 v (by simpa using ho)
  | f32 v =>
    simp only [serScalar, serF32, Except.ok.injEq] at h
    split at h
    · next hf => subst h; exact .f32 v (finite32_exp hf)
    · next hf =>
      split at h
      · next hi => subst h hi; exact .inf32
      · next hi =>
        split at h
        · next hn => subst h hn; exact .ninf32
        · next hn => subst h; exact .nan32 v (nan32_of (by simpa using hf) hi hn)
  | f64 v =>
    simp only [serScalar, serF64, Except.ok.injEq] at h
    split at h
    · next hf => subst h; exact .f64 v (finite64_exp hf)
    · next hf =>
      split at h
      · next hi => subst h hi; exact .inf64
      · next hi =>
        split at h
        · next hn => subst h hn; exact .ninf64
        · next hn => subst h; exact .nan64 v (nan64_of (by simpa using hf) hi hn)
  | str b =>
    simp only [serScalar] at h
    cases hs : strOf b with
    | error e => rw [hs] at h; cases h
    | ok s =>
      rw [hs] at h
      cases h
      rw [strOf_some hs]
      exact .str s
  | bytes b => cases h; exact .bytes b
  | enum v =>
    simp only [serScalar, serEnum] at h
    split at h
    · next e =>
      split at h
      · cases h
      · next ed he =>
        split at h
        · next hn => cases h; exact .enumNull v he hn
        · next hn =>
          split at h
          · next ho => cases h; exact .enumNumber v he hn (.inl ho)
          · next ho =>
            split at h
            · next n hn' => cases h; exact .enumName v he hn (by simpa using ho) hn'
            · next hn' => cases h; exact .enumNumber v he hn (.inr hn')
    · cases h
  | list vs => cases h
  | map kvs => cases h
  | msg d fs => cases h

theorem key_text {k : MapKey} {s : List Char} (h : serKey k = .ok s) : KeyText k s := by
  cases k with
  | bool b => cases b <;> cases h <;> constructor
  | i32 v => cases h; exact .i32 v
  | i64 v => cases h; exact .i64 v
  | u32 v => cases h; exact .u32 v
  | u64 v => cases h; exact .u64 v
  | str b => rw [strOf_some h]; exact .str s

theorem val_shown (hS : S.wf = true) : ∀ k, ValShows env S o (serVal env S o k)
  | 0, f, v, j, _, _, h => by simp [serVal] at h
  | k + 1, f, v, j, hf, hv, h => by
    have ih := val_shown hS k
    cases v with
    | msg d fs =>
      simp only [serVal, serMsg] at h
      have hm := (confMsg_of_confVal hv).2.2
      obtain ⟨md, hC⟩ := confMsg_iff.1 hm
      have hd : S.msg? d = some md := hC.desc
      rw [hd] at h
      simp only at h
      cases hw : wkt? md.name with
      | some w => exact .wkt hd hw
      | none =>
        rw [hw] at h
        simp only at h
        cases hs : serFields S o (serVal env S o k) md fs with
        | error e => rw [hs] at h; cases h
        | ok es => rw [hs] at h; cases h; exact fields_shown hS ih hC hw hs
    | list vs =>
      simp only [serVal] at h
      simp only [confVal, Bool.and_eq_true, confVals_iff] at hv
      cases hm : mapE (serVal env S o k f.kind) vs with
      | error e => rw [hm] at h; cases h
      | ok js =>
        rw [hm] at h
        cases h
        have hP := mapE_pairs hm
        refine .list hP.length (fun i v j h1 h2 => ?_)
        exact ih f.elem v j hf (hv.2 v (List.mem_of_getElem? h1)) (pairs_get hP h1 h2)
    | map kvs =>
      simp only [confVal, Bool.and_eq_true] at hv
      obtain ⟨hc, i, hi, he⟩ := isMap_iff.1 hv.1
      obtain ⟨kd, vd, hE⟩ := Schema.wf_entry hS he
      have hv2 := hv.2
      rw [hi] at hv2
      simp only [hE.kv, Bool.and_eq_true, confMap_iff] at hv2
      simp only [serVal, hi, mapKind_eq hE he] at h
      cases hm : mapE (serEntry (serVal env S o k vd.kind)) kvs with
      | error e => rw [hm] at h; cases h
      | ok es =>
        rw [hm] at h
        cases h
        have hP := mapE_pairs hm
        have entry : ∀ p e, serEntry (serVal env S o k vd.kind) p = .ok e →
            serKey p.1 = .ok e.1 ∧ serVal env S o k vd.kind p.2 = .ok e.2 := by
          intro p e h
          unfold serEntry at h
          split at h
          · cases h
          · next k hk =>
            split at h
            · cases h
            · next j hj => cases h; exact ⟨hk, hj⟩
        rw [hi]
        refine .map (mapKV_some hE.kv).2 hP.length (fun i p e h1 h2 => key_text (entry p e (pairs_get hP h1 h2)).1) ?_
        intro i p e h1 h2
        exact ih vd p.2 e.2 hE.val.1.kind (hv2.2 p (List.mem_of_getElem? h1)).2 (entry p e (pairs_get hP h1 h2)).2
    | _ => exact scalar_shown h

/-- **C81.** The JSON of a message, whatever the serialize options and the depth of the stack: an object
with an entry for each field that is present, in the order of their numbers, then for each extension that
is present; without `skip_default_fields` also for fields without presence that are not set. The keys are
JSON names, or declared names with `use_proto_field_name`; extensions always have their bracketed name.
Integers of 64 bits are strings exactly with `stringify_64_bit_integers`; enum values are names when they
have one, unless `use_enum_numbers` is set; lists follow the order of their elements, maps the order in which they are iterated. -/
theorem C81_form (hS : S.wf = true) {k : Nat} {m : DynMsg} (hm : confMsg S m = true) {j : Json}
    (h : toJson env S o k m = .ok j) : Shows env S o (.message m.desc) m.toValue j := by
  obtain ⟨md, hC⟩ := confMsg_iff.1 hm
  obtain ⟨d, fs⟩ := m
  have hd : S.msg? d = some md := hC.desc
  simp only [toJson, serMsg, hd] at h
  cases hw : wkt? md.name with
  | some w => exact .wkt hd hw
  | none =>
    rw [hw] at h
    simp only at h
    cases hs : serFields S o (serVal env S o k) md fs with
    | error e => rw [hs] at h; cases h
    | ok es => rw [hs] at h; cases h; exact fields_shown hS (val_shown hS k) hC hw hs

/-- Two lists in ascending order with the same elements are equal. -/
theorem eq_of_sorted {α : Type} {g : α → Nat} : ∀ {xs ys : List α}, (xs.map g).Pairwise (· < ·) →
    (ys.map g).Pairwise (· < ·) → (∀ a, a ∈ xs ↔ a ∈ ys) → xs = ys
  | [], [], _, _, _ => rfl
  | [], y :: ys, _, _, h => absurd ((h y).2 (List.mem_cons_self ..)) (by simp)
  | x :: xs, [], _, _, h => absurd ((h x).1 (List.mem_cons_self ..)) (by simp)
  | x :: xs, y :: ys, hx, hy, h => by
    simp only [List.map_cons, List.pairwise_cons, List.mem_map] at hx hy
    have hxy : x = y := by
      rcases List.mem_cons.1 ((h x).1 (List.mem_cons_self ..)) with e | e
      · exact e
      · rcases List.mem_cons.1 ((h y).2 (List.mem_cons_self ..)) with e' | e'
        · exact e'.symm
        · have h1 := hy.1 _ ⟨x, e, rfl⟩
          have h2 := hx.1 _ ⟨y, e', rfl⟩
          omega
    subst hxy
    congr 1
    refine eq_of_sorted hx.2 hy.2 (fun a => ?_)
    constructor
    · intro ha
      rcases List.mem_cons.1 ((h a).1 (List.mem_cons_of_mem _ ha)) with e | e
      · subst e
        exact absurd (hx.1 _ ⟨a, ha, rfl⟩) (Nat.lt_irrefl _)
      · exact e
    · intro ha
      rcases List.mem_cons.1 ((h a).2 (List.mem_cons_of_mem _ ha)) with e | e
      · subst e
        exact absurd (hy.1 _ ⟨a, ha, rfl⟩) (Nat.lt_irrefl _)
      · exact e

theorem utf8Encode_inj' {s t : List Char} (h : utf8Encode s = utf8Encode t) : s = t := by
  have h1 := utf8Decode_encode s
  rw [h, utf8Decode_encode] at h1
  exact (Option.some.inj h1).symm

theorem keyText_unique {k : MapKey} {s t : List Char} (h : KeyText k s) (h' : KeyText k t) : s = t := by
  cases h with
  | str s =>
    generalize e : MapKey.str (utf8Encode s) = w at h'
    cases h' with
    | str t => exact utf8Encode_inj' (MapKey.str.inj e)
    | _ => cases e
  | _ => cases h'; rfl

theorem isNan32_exp {v : BitVec 32} (h : isNan32 v = true) : (v >>> 23) % 256#32 = 255#32 := by
  simp only [isNan32, decide_eq_true_eq] at h
  apply BitVec.eq_of_toNat_eq
  simp only [BitVec.toNat_umod, BitVec.toNat_ushiftRight, BitVec.toNat_ofNat, Nat.shiftRight_eq_div_pow, Nat.reducePow, Nat.reduceMod]
  have := v.isLt
  omega

theorem isNan64_exp {v : BitVec 64} (h : isNan64 v = true) : (v >>> 52) % 2048#64 = 2047#64 := by
  simp only [isNan64, decide_eq_true_eq] at h
  apply BitVec.eq_of_toNat_eq
  simp only [BitVec.toNat_umod, BitVec.toNat_ushiftRight, BitVec.toNat_ofNat, Nat.shiftRight_eq_div_pow, Nat.reducePow, Nat.reduceMod]
  have := v.isLt
  omega

/-- **C81.** Nothing else is the JSON of the message: without well-known types, the form determines it. -/
theorem C81_unique (hp : ∀ d md, S.msg? d = some md → wkt? md.name = none) {κ : Kind} {v : Value} {j : Json}
    (h : Shows env S o κ v j) : ∀ {j' : Json}, Shows env S o κ v j' → j = j' := by
  induction h with
  | bool | i32 | u32 => intro j' h'; cases h'; rfl
  | i64 v h | i64s v h =>
    intro j' h'
    cases h' with
    | i64 _ h1 | i64s _ h1 => first | rfl | (rw [h] at h1; cases h1)
  | u64 v h | u64s v h =>
    intro j' h'
    cases h' with
    | u64 _ h1 | u64s _ h1 => first | rfl | (rw [h] at h1; cases h1)
  | f32 v h =>
    intro j' h'
    cases h' with
    | f32 => rfl
    | inf32 => exact absurd rfl h
    | ninf32 => exact absurd rfl h
    | nan32 _ hn => exact absurd (isNan32_exp hn) h
  | f64 v h =>
    intro j' h'
    cases h' with
    | f64 => rfl
    | inf64 => exact absurd rfl h
    | ninf64 => exact absurd rfl h
    | nan64 _ hn => exact absurd (isNan64_exp hn) h
  | inf32 =>
    intro j' h'
    cases h' with
    | f32 _ h => exact absurd rfl h
    | inf32 => rfl
    | nan32 _ hn => revert hn; decide
  | ninf32 =>
    intro j' h'
    cases h' with
    | f32 _ h => exact absurd rfl h
    | ninf32 => rfl
    | nan32 _ hn => revert hn; decide
  | nan32 v hn =>
    intro j' h'
    cases h' with
    | f32 _ h => exact absurd (isNan32_exp hn) h
    | inf32 => revert hn; decide
    | ninf32 => revert hn; decide
    | nan32 => rfl
  | inf64 =>
    intro j' h'
    cases h' with
    | f64 _ h => exact absurd rfl h
    | inf64 => rfl
    | nan64 _ hn => revert hn; decide
  | ninf64 =>
    intro j' h'
    cases h' with
    | f64 _ h => exact absurd rfl h
    | ninf64 => rfl
    | nan64 _ hn => revert hn; decide
  | nan64 v hn =>
    intro j' h'
    cases h' with
    | f64 _ h => exact absurd (isNan64_exp hn) h
    | inf64 => revert hn; decide
    | ninf64 => revert hn; decide
    | nan64 => rfl
  | str s =>
    intro j' h'
    generalize e : Value.str (utf8Encode s) = w at h'
    cases h' with
    | str t => rw [utf8Encode_inj' (Value.str.inj e)]
    | _ => cases e
  | bytes => intro j' h'; cases h'; rfl
  | enumNull v he hn =>
    intro j' h'
    cases h' with
    | enumNull => rfl
    | enumNumber _ he' hn' => rw [he] at he'; cases he'; exact absurd hn hn'
    | enumName _ he' hn' => rw [he] at he'; cases he'; exact absurd hn hn'
  | enumNumber v he hn h =>
    intro j' h'
    cases h' with
    | enumNull _ he' hn' => rw [he] at he'; cases he'; exact absurd hn' hn
    | enumNumber => rfl
    | enumName _ he' _ h1 h2 =>
      rw [he] at he'
      cases he'
      rcases h with h | h
      · rw [h] at h1; cases h1
      · rw [h] at h2; cases h2
  | enumName v he hn h1 h2 =>
    intro j' h'
    cases h' with
    | enumNull _ he' hn' => rw [he] at he'; cases he'; exact absurd hn' hn
    | enumNumber _ he' _ h =>
      rw [he] at he'
      cases he'
      rcases h with h | h
      · rw [h] at h1; cases h1
      · rw [h] at h2; cases h2
    | enumName _ he' _ _ h2' =>
      rw [he] at he'
      cases he'
      rw [h2] at h2'
      cases h2'
      rfl
  | @list κ vs js hl h ih =>
    intro j' h'
    cases h' with
    | @list _ _ js' hl' h' =>
      congr 1
      refine List.ext_getElem? fun i => ?_
      by_cases hi : i < vs.length
      · have e1 : vs[i]? = some vs[i] := List.getElem?_eq_getElem hi
        have e2 : js[i]? = some (js[i]'(by omega)) := List.getElem?_eq_getElem (by omega)
        have e3 : js'[i]? = some (js'[i]'(by omega)) := List.getElem?_eq_getElem (by omega)
        rw [e2, e3, ih i _ _ e1 e2 (h' i _ _ e1 e3)]
      · rw [List.getElem?_eq_none (by omega), List.getElem?_eq_none (by omega)]
  | @map i f kvs es hf hl hk h ih =>
    intro j' h'
    cases h' with
    | @map _ f' _ es' hf' hl' hk' h' =>
      rw [hf] at hf'
      cases hf'
      congr 1
      refine List.ext_getElem? fun i => ?_
      by_cases hi : i < kvs.length
      · have e1 : kvs[i]? = some kvs[i] := List.getElem?_eq_getElem hi
        have e2 : es[i]? = some (es[i]'(by omega)) := List.getElem?_eq_getElem (by omega)
        have e3 : es'[i]? = some (es'[i]'(by omega)) := List.getElem?_eq_getElem (by omega)
        rw [e2, e3]
        congr 1
        exact Prod.ext (keyText_unique (hk i _ _ e1 e2) (hk' i _ _ e1 e3)) (ih i _ _ e1 e2 (h' i _ _ e1 e3))
      · rw [List.getElem?_eq_none (by omega), List.getElem?_eq_none (by omega)]
  | @msg κ d fs md xs ys es hd hw hx hy hk h ih =>
    intro j' h'
    cases h' with
    | wkt hd' hw' => rw [hp _ _ hd'] at hw'; cases hw'
    | @msg _ _ _ md' xs' ys' es' hd' _ hx' hy' hk' h' =>
      rw [hd] at hd'
      cases hd'
      have e1 : xs = xs' := eq_of_sorted (g := (·.1.number)) hx.1 hx'.1
        (fun p => (hx.2 p.1 p.2).trans (hx'.2 p.1 p.2).symm)
      have e2 : ys = ys' := eq_of_sorted (g := (·.1.number)) hy.1 hy'.1
        (fun p => (hy.2 p.1 p.2).trans (hy'.2 p.1 p.2).symm)
      subst e1 e2
      have hkk : es.map (·.1) = es'.map (·.1) := hk.trans hk'.symm
      have hlen : es.length = (xs ++ ys).length := by
        have := congrArg List.length hk
        simpa using this
      have hlen' : es'.length = (xs ++ ys).length := by
        have := congrArg List.length hk'
        simpa using this
      congr 1
      refine List.ext_getElem? fun i => ?_
      by_cases hi : i < (xs ++ ys).length
      · have e1 : (xs ++ ys)[i]? = some (xs ++ ys)[i] := List.getElem?_eq_getElem hi
        have e2 : es[i]? = some (es[i]'(by omega)) := List.getElem?_eq_getElem (by omega)
        have e3 : es'[i]? = some (es'[i]'(by omega)) := List.getElem?_eq_getElem (by omega)
        have e4 := congrArg (·[i]?) hkk
        simp only [List.getElem?_map, e2, e3, Option.map_some, Option.some.injEq] at e4
        rw [e2, e3]
        congr 1
        exact Prod.ext e4 (ih i _ _ e1 e2 (h' i _ _ e1 e3))
      · rw [List.getElem?_eq_none (by omega), List.getElem?_eq_none (by omega)]
  | wkt hd hw => rw [hp _ _ hd] at hw; cases hw

end

example : Shows jToy Ex.schema .default (.message 0) Ex.small.toValue
    (.obj [("a".toList, .ofInt (-1)), ("o1".toList, .str ['x'])]) :=
  C81_form (k := 3) (m := Ex.small) (by decide) (by decide) (by decide +kernel)
/-- A message with an extension of 64 bits and an enum, as names and strings and as numbers. -/
def jsonFormEx : DynMsg := ⟨0, [(1, .val (.i32 0)), (10, .val (.enum (-1))), (100, .val (.i64 (-5)))]⟩
example : Shows jToy Ex.schema .default (.message 0) jsonFormEx.toValue
    (.obj [("e".toList, .str "NEG".toList), ("t.ext".toList, .str "-5".toList)]) :=
  C81_form (k := 3) (m := jsonFormEx) (by decide) (by decide) (by decide +kernel)
example : Shows jToy Ex.schema ⟨false, true, true, false⟩ (.message 0) jsonFormEx.toValue
    (.obj [("a".toList, .ofInt 0), ("xs".toList, .arr []), ("tags".toList, .obj []), ("ys".toList, .arr []),
      ("e".toList, .ofInt (-1)), ("d".toList, .float 0), ("t.ext".toList, .ofInt (-5))]) :=
  C81_form (k := 3) (m := jsonFormEx) (by decide) (by decide) (by decide +kernel)

end Verif.Props
