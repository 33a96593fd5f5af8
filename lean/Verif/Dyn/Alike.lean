import Verif.Dyn.AccessLemmas
/-!
"Alike": the observational relation the text and JSON round trips are stated with, and how
a message is rebuilt from the fields an iteration lists.
-/
set_option autoImplicit false
namespace Verif.Dyn
open Verif.Wire

/-- NaN, whatever the payload. -/
def isNan32 (x : BitVec 32) : Bool := decide (0x7F800000 < x.toNat % 0x80000000)
/-- NaN, whatever the payload. -/
def isNan64 (x : BitVec 64) : Bool := decide (0x7FF0000000000000 < x.toNat % 0x8000000000000000)

/-- What a message of the given type may carry as the encoding of another message: the fields of
two messages of that type, and two messages that their bytes stand for. -/
abbrev Payloads := Nat → FieldSet → FieldSet → DynMsg → DynMsg → Prop

/-- Two values a reader of text or JSON cannot tell apart: identical scalars (floats bit for
bit, but all NaNs count as one), lists with alike elements in the same order, maps with
alike values under the same keys, and messages of the same type which report the same
fields and extensions as present, with alike values.  Unknown fields are not compared.
Messages that carry others as bytes may be alike because those others are (`pay`). -/
inductive AlikeBy (S : Schema) (pay : Payloads) : Value → Value → Prop where
  | refl (v : Value) : AlikeBy S pay v v
  | nan32 {a b : BitVec 32} (ha : isNan32 a = true) (hb : isNan32 b = true) : AlikeBy S pay (.f32 a) (.f32 b)
  | nan64 {a b : BitVec 64} (ha : isNan64 a = true) (hb : isNan64 b = true) : AlikeBy S pay (.f64 a) (.f64 b)
  | list {vs ws : List Value} (hl : vs.length = ws.length)
      (h : ∀ (i : Nat) v w, vs[i]? = some v → ws[i]? = some w → AlikeBy S pay v w) :
      AlikeBy S pay (.list vs) (.list ws)
  | map {kvs kws : List (MapKey × Value)}
      (hk : ∀ k, (KMap.get? kvs k).isSome = (KMap.get? kws k).isSome)
      (hv : ∀ k v w, KMap.get? kvs k = some v → KMap.get? kws k = some w → AlikeBy S pay v w) :
      AlikeBy S pay (.map kvs) (.map kws)
  | msg {d : Nat} {fs gs : List (Nat × Slot)}
      (hh : ∀ f, Known S d f → FieldSet.has S fs f = FieldSet.has S gs f)
      (hv : ∀ f v w, Known S d f → FieldSet.has S fs f = some true →
        FieldSet.get S fs f = some v → FieldSet.get S gs f = some w → AlikeBy S pay v w) :
      AlikeBy S pay (.msg d fs) (.msg d gs)
  | pay {d : Nat} {fs gs : List (Nat × Slot)} {p p' : DynMsg} (hp : pay d fs gs p p')
      (h : AlikeBy S pay p.toValue p'.toValue) : AlikeBy S pay (.msg d fs) (.msg d gs)

/-- Bytes are just bytes. -/
def noPay : Payloads := fun _ _ _ _ _ => False

/-- Two values that are alike, with bytes compared as bytes. -/
abbrev Alike (S : Schema) : Value → Value → Prop := AlikeBy S noPay

/-- Two messages that are alike. -/
def AlikeMsg (S : Schema) (m m' : DynMsg) : Prop := Alike S m.toValue m'.toValue

/-- Two messages that are alike, up to the messages they carry as bytes. -/
def AlikeMsgBy (S : Schema) (pay : Payloads) (m m' : DynMsg) : Prop := AlikeBy S pay m.toValue m'.toValue

theorem Alike.by {S : Schema} {pay : Payloads} {v w : Value} (h : Alike S v w) : AlikeBy S pay v w := by
  induction h with
  | refl v => exact .refl v
  | nan32 ha hb => exact .nan32 ha hb
  | nan64 ha hb => exact .nan64 ha hb
  | list hl _ ih => exact .list hl ih
  | map hk _ ih => exact .map hk ih
  | msg hh _ ih => exact .msg hh ih
  | pay hp => exact hp.elim

theorem f32Eq_nan {a b : BitVec 32} (h : isNan32 a = true) : f32Eq a b = false := by
  unfold isNan32 at h
  simp [f32Eq, h]

theorem f64Eq_nan {a b : BitVec 64} (h : isNan64 a = true) : f64Eq a b = false := by
  unfold isNan64 at h
  simp [f64Eq, h]

/-- Presence does not tell alike values apart. -/
theorem hasVal_alike {S : Schema} {pay : Payloads} {f : FieldDesc} (hf : FieldWf S f) {v w : Value}
    (hc : confVal S f v = true) (h : AlikeBy S pay v w) : hasVal S f w = hasVal S f v := by
  by_cases hpr : f.presence = true
  · simp [hasVal, hpr]
  · simp only [hasVal, hpr]
    cases h with
    | refl => rfl
    | nan32 ha hb =>
      simp only [isDefault]
      cases fieldDefault S f with
      | none => rfl
      | some d => cases d <;> simp [Value.beq, f32Eq_nan ha, f32Eq_nan hb]
    | nan64 ha hb =>
      simp only [isDefault]
      cases fieldDefault S f with
      | none => rfl
      | some d => cases d <;> simp [Value.beq, f64Eq_nan ha, f64Eq_nan hb]
    | list hl h =>
      rename_i vs ws
      simp only [confVal, Bool.and_eq_true] at hc
      simp only [isDefault, fieldDefault, hc.1, if_true, Option.map_some, Value.beq]
      cases vs with
      | nil => cases ws with
        | nil => rfl
        | cons _ _ => simp at hl
      | cons _ _ => cases ws with
        | nil => simp at hl
        | cons _ _ => simp [beqVals]
    | map hk hv =>
      rename_i kvs kws
      simp only [confVal, Bool.and_eq_true] at hc
      have hl : isList S f = false := by
        have := hc.1
        unfold isList; rw [this]; simp
      have hd : fieldDefault S f = some (.map []) := by simp [fieldDefault, hl, hc.1]
      simp only [isDefault, hd, Option.map_some, Value.beq]
      cases kvs with
      | nil => cases kws with
        | nil => rfl
        | cons p r =>
          have := hk p.1
          simp [KMap.get?] at this
      | cons p r => cases kws with
        | nil =>
          have := hk p.1
          simp [KMap.get?] at this
        | cons q s => simp
    | msg hh hv =>
      obtain ⟨h1, h2, _⟩ := confMsg_of_confVal hc
      exact absurd (hf.msg h1 (by rw [h2]; rfl)) hpr
    | pay hp h =>
      obtain ⟨h1, h2, _⟩ := confMsg_of_confVal hc
      exact absurd (hf.msg h1 (by rw [h2]; rfl)) hpr

/-- The kind's own default value counts as absent without explicit presence. -/
theorem hasVal_ofDefault {S : Schema} {f : FieldDesc} (hf : FieldWf S f) (hd : f.default = none)
    {v : Value} (h : fieldDefault S f = some v) : hasVal S f v = some f.presence := by
  by_cases hpr : f.presence = true
  · simp [hasVal, hpr]
  · simp only [Bool.not_eq_true] at hpr
    have key : v.beq v = true := by
      unfold fieldDefault at h
      by_cases h1 : isList S f = true
      · rw [if_pos h1] at h
        cases h
        simp [Value.beq, beqVals]
      · rw [if_neg h1] at h
        by_cases h2 : isMap S f = true
        · rw [if_pos h2] at h
          cases h
          simp [Value.beq, beqMap]
        · rw [if_neg h2, hd] at h
          have hc : f.card ≠ .repeated := by
            intro e
            simp [isList, e] at h1
            exact h2 h1
          simp only [kindDefault] at h
          split at h
          · rename_i hk
            exact absurd (hf.msg hc (by rw [hk]; rfl)) (by simp [hpr])
          · obtain ⟨x, _, rfl⟩ := Option.map_eq_some_iff.1 h
            simp [Value.beq]
          all_goals cases h; simp [Value.beq, f64Eq, f32Eq]
    simp [hasVal, hpr, isDefault, h, key]

/-! ### Listings -/

/-- One field or extension a message is written out with. -/
structure Ent where
  ext : Bool
  f : FieldDesc
  v : Value

/-- The entry of an item that is not an unknown field. -/
def Item.ent : Item → Option Ent
  | .field f v => some ⟨false, f, v⟩
  | .ext f v => some ⟨true, f, v⟩
  | .unknown _ => none

/-- A list of entries that stands for the contents of a message: every entry is a field or
extension of the message with its value, nothing is listed twice, no two members of a oneof
are listed, and everything present is listed. -/
structure Listing (S : Schema) (d : Nat) (md : MsgDesc) (fs : FieldSet) (L : List Ent) : Prop where
  look : ∀ e ∈ L, (if e.ext then md.getExtension e.f.number else md.getField e.f.number) = some e.f
  conf : ∀ e ∈ L, confVal S e.f e.v = true
  get : ∀ e ∈ L, FieldSet.get S fs e.f = some e.v
  has : ∀ e ∈ L, FieldSet.has S fs e.f = some true ∨ e.f.presence = false
  nodup : (L.map (·.f.number)).Nodup
  oneof : ∀ e ∈ L, ∀ n ∈ siblings md e.f, ∀ e' ∈ L, e'.f.number ≠ n
  complete : ∀ f, Known S d f → FieldSet.has S fs f = some true → ∃ e ∈ L, e.f = f

theorem ents_append (a b : List Item) :
    (a ++ b).filterMap Item.ent = a.filterMap Item.ent ++ b.filterMap Item.ent :=
  List.filterMap_append

theorem iterFieldPart_ents {S : Schema} {incl : Bool} {fs : FieldSet} :
    ∀ {ds : List (Nat × FieldDesc)} {its : List Item}, iterFieldPart S incl fs ds = some its →
      (∀ e ∈ its.filterMap Item.ent, e.ext = false ∧ (∃ n, (n, e.f) ∈ ds) ∧ FieldSet.get S fs e.f = some e.v ∧
        (FieldSet.has S fs e.f = some true ∨ e.f.presence = false)) ∧
      ((its.filterMap Item.ent).map (·.f.number)).Sublist (ds.map (·.2.number)) ∧
      (∀ n f, (n, f) ∈ ds → FieldSet.has S fs f = some true → ∃ e ∈ its.filterMap Item.ent, e.f = f) := by
  intro ds
  induction ds with
  | nil => intro its h; cases h; simp
  | cons p r ih =>
    obtain ⟨n, f⟩ := p
    intro its h
    simp only [iterFieldPart] at h
    cases hh : FieldSet.has S fs f with
    | none => simp [hh] at h
    | some b =>
      cases hr : iterFieldPart S incl fs r with
      | none => simp [hh, hr] at h
      | some its' =>
        obtain ⟨h1, h2, h3⟩ := ih hr
        simp only [hh, hr] at h
        by_cases hb : (if incl = true then !f.presence || b else b) = true
        · rw [if_pos hb] at h
          cases hg : FieldSet.get S fs f with
          | none => rw [hg] at h; cases h
          | some v =>
            simp only [hg, Option.some.injEq] at h
            subst h
            have he : (Item.field f v :: its').filterMap Item.ent = ⟨false, f, v⟩ :: its'.filterMap Item.ent := rfl
            rw [he]
            refine ⟨?_, ?_, ?_⟩
            · intro e hm
              rcases List.mem_cons.1 hm with rfl | hm
              · refine ⟨rfl, ⟨n, by simp⟩, hg, ?_⟩
                simp only [hh, Option.some.injEq]
                cases incl <;> cases b <;> simp_all
              · obtain ⟨a1, ⟨m, a2⟩, a3, a4⟩ := h1 e hm
                exact ⟨a1, ⟨m, List.mem_cons_of_mem _ a2⟩, a3, a4⟩
            · simpa using h2
            · intro m g hm hg'
              rcases List.mem_cons.1 hm with hm | hm
              · cases hm
                exact ⟨_, List.mem_cons_self, rfl⟩
              · obtain ⟨e, he, hef⟩ := h3 m g hm hg'
                exact ⟨e, List.mem_cons_of_mem _ he, hef⟩
        · rw [if_neg hb] at h
          cases h
          refine ⟨?_, ?_, ?_⟩
          · intro e hm
            obtain ⟨a1, ⟨m, a2⟩, a3, a4⟩ := h1 e hm
            exact ⟨a1, ⟨m, List.mem_cons_of_mem _ a2⟩, a3, a4⟩
          · exact h2.trans (by simp)
          · intro m g hm hg'
            rcases List.mem_cons.1 hm with hm | hm
            · cases hm
              rw [hh] at hg'
              cases hg'
              cases incl <;> simp at hb
            · exact h3 m g hm hg'

theorem iterExtPart_ents {S : Schema} {md : MsgDesc} :
    ∀ {fs : FieldSet} {its : List Item}, iterExtPart S md fs = some its →
      (∀ e ∈ its.filterMap Item.ent, e.ext = true ∧ md.getExtension e.f.number = some e.f ∧
        (e.f.number, Slot.val e.v) ∈ fs ∧ hasVal S e.f e.v = some true) ∧
      ((its.filterMap Item.ent).map (·.f.number)).Sublist (fs.map (·.1)) ∧
      (∀ n f v, (n, Slot.val v) ∈ fs → md.getExtension n = some f → hasVal S f v = some true →
        ∃ e ∈ its.filterMap Item.ent, e.f = f) := by
  intro fs
  induction fs with
  | nil => intro its h; cases h; simp
  | cons p r ih =>
    obtain ⟨n, s⟩ := p
    intro its h
    cases s with
    | taken =>
      simp only [iterExtPart] at h
      obtain ⟨h1, h2, h3⟩ := ih h
      refine ⟨fun e he => ?_, h2.trans (by simp), fun m f v hm => ?_⟩
      · obtain ⟨a1, a2, a3, a4⟩ := h1 e he
        exact ⟨a1, a2, List.mem_cons_of_mem _ a3, a4⟩
      · rcases List.mem_cons.1 hm with hm | hm
        · cases hm
        · exact h3 m f v hm
    | unknown u =>
      simp only [iterExtPart] at h
      obtain ⟨its', hr, rfl⟩ := Option.map_eq_some_iff.1 h
      obtain ⟨h1, h2, h3⟩ := ih hr
      have he : (Item.unknown u :: its').filterMap Item.ent = its'.filterMap Item.ent := rfl
      rw [he]
      refine ⟨fun e he => ?_, h2.trans (by simp), fun m f v hm => ?_⟩
      · obtain ⟨a1, a2, a3, a4⟩ := h1 e he
        exact ⟨a1, a2, List.mem_cons_of_mem _ a3, a4⟩
      · rcases List.mem_cons.1 hm with hm | hm
        · cases hm
        · exact h3 m f v hm
    | val v =>
      simp only [iterExtPart] at h
      cases hx : md.getExtension n with
      | none =>
        simp only [hx] at h
        obtain ⟨h1, h2, h3⟩ := ih h
        refine ⟨fun e he => ?_, h2.trans (by simp), fun m f w hm hf => ?_⟩
        · obtain ⟨a1, a2, a3, a4⟩ := h1 e he
          exact ⟨a1, a2, List.mem_cons_of_mem _ a3, a4⟩
        · rcases List.mem_cons.1 hm with hm | hm
          · cases hm
            rw [hx] at hf
            cases hf
          · exact h3 m f w hm hf
      | some f =>
        simp only [hx] at h
        cases hr : iterExtPart S md r with
        | none =>
          cases hh : hasVal S f v with
          | none => simp [hh] at h
          | some b => cases b <;> simp [hh, hr] at h
        | some its' =>
          obtain ⟨h1, h2, h3⟩ := ih hr
          obtain ⟨hmem, hn⟩ := getExtension_mem hx
          subst hn
          cases hh : hasVal S f v with
          | none => simp [hh] at h
          | some b =>
            cases b with
            | true =>
              simp only [hh, hr, Option.some.injEq] at h
              subst h
              have he : (Item.ext f v :: its').filterMap Item.ent = ⟨true, f, v⟩ :: its'.filterMap Item.ent := rfl
              rw [he]
              refine ⟨fun e he => ?_, ?_, fun m g w hm hf hw => ?_⟩
              · rcases List.mem_cons.1 he with rfl | he
                · exact ⟨rfl, hx, by simp, hh⟩
                · obtain ⟨a1, a2, a3, a4⟩ := h1 e he
                  exact ⟨a1, a2, List.mem_cons_of_mem _ a3, a4⟩
              · simpa using h2
              · rcases List.mem_cons.1 hm with hm | hm
                · cases hm
                  rw [hx] at hf
                  cases hf
                  exact ⟨_, List.mem_cons_self, rfl⟩
                · obtain ⟨e, he, hef⟩ := h3 m g w hm hf hw
                  exact ⟨e, List.mem_cons_of_mem _ he, hef⟩
            | false =>
              simp only [hh, hr, Option.some.injEq] at h
              subst h
              refine ⟨fun e he => ?_, h2.trans (by simp), fun m g w hm hf hw => ?_⟩
              · obtain ⟨a1, a2, a3, a4⟩ := h1 e he
                exact ⟨a1, a2, List.mem_cons_of_mem _ a3, a4⟩
              · rcases List.mem_cons.1 hm with hm | hm
                · cases hm
                  rw [hx] at hf
                  cases hf
                  rw [hh] at hw
                  cases hw
                · exact h3 m g w hm hf hw

theorem nodup_keys {α : Type} : ∀ {m : SMap α} {lo : Nat}, SMap.sortedFrom lo m = true →
    (m.map (·.1)).Nodup := by
  intro m
  induction m with
  | nil => intro lo _; simp
  | cons p r ih =>
    obtain ⟨k, v⟩ := p
    intro lo h
    simp only [SMap.sortedFrom, Bool.and_eq_true] at h
    rw [List.map_cons, List.nodup_cons]
    refine ⟨?_, ih h.2⟩
    intro hm
    obtain ⟨q, hq, he⟩ := List.mem_map.1 hm
    have := SMap.mem_gt h.2 q hq
    simp only at he
    omega

/-- The order of the fields an iteration goes through. -/
structure Order (md : MsgDesc) (ds : List (Nat × FieldDesc)) : Prop where
  mem : ∀ f, f ∈ md.fields ↔ ∃ n, (n, f) ∈ ds
  nodup : (ds.map (·.2.number)).Nodup

theorem order_decl {md : MsgDesc} (h : (md.fields.map (·.number)).Nodup) :
    Order md (md.fields.map (fun f => (f.number, f))) := by
  refine ⟨fun f => ?_, ?_⟩
  · constructor
    · intro hf
      exact ⟨f.number, List.mem_map.2 ⟨f, hf, rfl⟩⟩
    · rintro ⟨n, hn⟩
      obtain ⟨g, hg, e⟩ := List.mem_map.1 hn
      cases e
      exact hg
  · rw [List.map_map]
    exact h

theorem order_num {md : MsgDesc} (h : (md.fields.map (·.number)).Nodup)
    (hp : ∀ f ∈ md.fields, 0 < f.number) : Order md md.fieldsByNumber := by
  have hs := sorted_fieldsByNumber hp
  refine ⟨fun f => ?_, ?_⟩
  · constructor
    · intro hf
      refine ⟨f.number, (SMap.mem_iff hs).2 ?_⟩
      rw [get?_fieldsByNumber h]
      exact getField_of_mem h hf
    · rintro ⟨n, hn⟩
      have := (SMap.mem_iff hs).1 hn
      rw [get?_fieldsByNumber h] at this
      exact (getField_mem this).1
  · have e : md.fieldsByNumber.map (·.2.number) = md.fieldsByNumber.map (·.1) :=
      List.map_congr_left (fun p hp => mem_fieldsByNumber p hp)
    rw [e]
    exact nodup_keys hs

/-- An iteration of a conforming message is a listing. -/
theorem listing {S : Schema} (hS : S.wf = true) {d : Nat} {fs : FieldSet} {md : MsgDesc}
    (hC : Conf S ⟨d, fs⟩ md) {ds : List (Nat × FieldDesc)} (hO : Order md ds) {incl : Bool}
    {a b : List Item} (ha : iterFieldPart S incl fs ds = some a) (hb : iterExtPart S md fs = some b) :
    Listing S d md fs ((a ++ b).filterMap Item.ent) := by
  have hm : S.msg? d = some md := hC.desc
  have hw := Schema.wf_msg hS hm
  obtain ⟨a1, a2, a3⟩ := iterFieldPart_ents ha
  obtain ⟨b1, b2, b3⟩ := iterExtPart_ents hb
  have hsort : SMap.sorted fs = true := hC.sorted
  rw [ents_append]
  have lookF : ∀ e ∈ a.filterMap Item.ent, md.getField e.f.number = some e.f := fun e he =>
    getField_of_mem hw.nodup ((hO.mem e.f).2 (a1 e he).2.1)
  have extNone : ∀ e ∈ b.filterMap Item.ent, md.getField e.f.number = none ∧ e.f.oneof = none :=
    fun e he => hw.extNew e.f (getExtension_mem (b1 e he).2.1).1
  have known : ∀ e ∈ a.filterMap Item.ent ++ b.filterMap Item.ent, Known S d e.f := by
    intro e he
    rcases List.mem_append.1 he with he | he
    · left; rw [field?_eq hm]; exact lookF e he
    · right; rw [ext?_eq hm]; exact (b1 e he).2.1
  have hget : ∀ e ∈ a.filterMap Item.ent ++ b.filterMap Item.ent, FieldSet.get S fs e.f = some e.v := by
    intro e he
    rcases List.mem_append.1 he with he | he
    · exact (a1 e he).2.2.1
    · have := (getValue_iff hsort).2 (b1 e he).2.2.1
      simp [FieldSet.get, this]
  have hhas : ∀ e ∈ a.filterMap Item.ent ++ b.filterMap Item.ent,
      FieldSet.has S fs e.f = some true ∨ e.f.presence = false := by
    intro e he
    rcases List.mem_append.1 he with he | he
    · exact (a1 e he).2.2.2
    · have := (getValue_iff hsort).2 (b1 e he).2.2.1
      left
      simp [FieldSet.has, this, (b1 e he).2.2.2]
  have hslot : ∀ f, FieldSet.has S fs f = some true → ∃ v, SMap.get? fs f.number = some (.val v) := by
    intro f hf
    unfold FieldSet.has FieldSet.getValue at hf
    cases hg : SMap.get? fs f.number with
    | none => simp [hg] at hf
    | some s => cases s with
      | val v => exact ⟨v, rfl⟩
      | taken => simp [hg] at hf
      | unknown u => simp [hg] at hf
  refine ⟨?_, ?_, hget, hhas, ?_, ?_, ?_⟩
  · intro e he
    rcases List.mem_append.1 he with he | he
    · rw [(a1 e he).1]; exact lookF e he
    · rw [(b1 e he).1]; exact (b1 e he).2.1
  · intro e he
    obtain ⟨hfw, hstored⟩ := known_conf hS hC (known e he)
    have := hget e he
    unfold FieldSet.get FieldSet.getValue at this
    split at this
    · rename_i v hv
      cases this
      split at hv
      · rename_i w hw'
        cases hv
        exact (hstored _ hw').1
      · cases hv
    · obtain ⟨v, hv, hc⟩ := fieldDefault_conf hS hfw
      rw [hv] at this
      cases this
      exact hc
  · rw [List.map_append, List.nodup_append]
    refine ⟨a2.nodup hO.nodup, b2.nodup (nodup_keys hsort), ?_⟩
    intro n hn m hm' e
    subst e
    obtain ⟨x, hx, rfl⟩ := List.mem_map.1 hn
    obtain ⟨y, hy, hxy⟩ := List.mem_map.1 hm'
    have h1 := lookF x hx
    have h2 := (extNone y hy).1
    rw [hxy, h1] at h2
    cases h2
  · intro e he n hn e' he' heq
    obtain ⟨o, ho, g, hg, hgo, hne, hgn⟩ := mem_siblings.1 hn
    rcases List.mem_append.1 he with he1 | he1
    · -- the listed members of a oneof have explicit presence, so both are stored
      have hf : e.f ∈ md.fields := (getField_mem (lookF e he1)).1
      have hpres : e.f.presence = true := by
        rcases (hw.fields _ hf).oneof with h | h
        · rw [ho] at h; cases h
        · exact h
      have h1 : FieldSet.has S fs e.f = some true := by
        rcases hhas e he with h | h
        · exact h
        · rw [hpres] at h; cases h
      obtain ⟨v, hv⟩ := hslot _ h1
      have hgl : md.getField g.number = some g := getField_of_mem hw.nodup hg
      have hge : e'.f = g := by
        rcases List.mem_append.1 he' with h | h
        · have := lookF e' h
          rw [heq, ← hgn, hgl] at this
          exact (Option.some.inj this).symm
        · have := (extNone e' h).1
          rw [heq, ← hgn, hgl] at this
          cases this
      have hgpres : g.presence = true := by
        rcases (hw.fields _ hg).oneof with h | h
        · rw [hgo] at h; cases h
        · exact h
      have h2 : FieldSet.has S fs g = some true := by
        rcases hhas e' he' with h | h
        · rw [hge] at h; exact h
        · rw [hge, hgpres] at h; cases h
      obtain ⟨w, hw'⟩ := hslot _ h2
      have := hC.oneof e.f.number e.f _ hv (lookF e he1) n hn
      rw [← hgn] at this
      simp only at this
      rw [hw'] at this
      cases this
    · have := (extNone e he1).2
      rw [ho] at this
      cases this
  · intro f hk hh
    rcases hk.cases hm with h | h
    · obtain ⟨n, hn⟩ := (hO.mem f).1 (getField_mem h).1
      obtain ⟨e, he, hef⟩ := a3 n f hn hh
      exact ⟨e, List.mem_append_left _ he, hef⟩
    · obtain ⟨v, hv⟩ := hslot f hh
      have hhv : hasVal S f v = some true := by
        simpa [FieldSet.has, FieldSet.getValue, hv] using hh
      obtain ⟨e, he, hef⟩ := b3 f.number f v (SMap.mem_of_get? hv) h hhv
      exact ⟨e, List.mem_append_right _ he, hef⟩

/-- The known field of an entry. -/
theorem Listing.known {S : Schema} {d : Nat} {fs : FieldSet} {md : MsgDesc} (hm : S.msg? d = some md)
    {L : List Ent} (h : Listing S d md fs L) {e : Ent} (he : e ∈ L) : Known S d e.f := by
  have := h.look e he
  cases hx : e.ext <;> simp only [hx, if_true, Bool.false_eq_true, if_false] at this
  · left; rw [field?_eq hm]; exact this
  · right; rw [ext?_eq hm]; exact this

theorem Listing.wf {S : Schema} (hS : S.wf = true) {d : Nat} {fs : FieldSet} {md : MsgDesc}
    (hm : S.msg? d = some md) {L : List Ent} (h : Listing S d md fs L) {e : Ent} (he : e ∈ L) :
    FieldWf S e.f := by
  have hw := Schema.wf_msg hS hm
  rcases (h.known hm he).cases hm with h | h
  · exact hw.fields _ (getField_mem h).1
  · exact hw.exts _ (getExtension_mem h).1

/-- Known fields with the same number are the same. -/
theorem Known.inj {S : Schema} (hS : S.wf = true) {d : Nat} {md : MsgDesc} (hm : S.msg? d = some md)
    {f g : FieldDesc} (hf : Known S d f) (hg : Known S d g) (h : f.number = g.number) : f = g := by
  have hw := Schema.wf_msg hS hm
  rcases hf.cases hm with h1 | h1 <;> rcases hg.cases hm with h2 | h2
  · rw [h, h2] at h1; exact (Option.some.inj h1).symm
  · have := (hw.extNew g (getExtension_mem h2).1).1
    rw [← h, h1] at this
    cases this
  · have := (hw.extNew f (getExtension_mem h1).1).1
    rw [h, h2] at this
    cases this
  · rw [h, h2] at h1; exact (Option.some.inj h1).symm

/-- Fields without explicit presence have no default of their own (proto3). -/
def plainDefaults (md : MsgDesc) : Bool :=
  (md.fields ++ md.extensions).all (fun f => f.presence || f.default.isNone)

/-- A message that holds exactly the listed fields, with alike values, is alike. -/
theorem Listing.alike {S : Schema} {pay : Payloads} (hS : S.wf = true) {d : Nat} {fs gs : FieldSet} {md : MsgDesc}
    (hC : Conf S ⟨d, fs⟩ md) (hP : plainDefaults md = true) {L : List Ent} (h : Listing S d md fs L)
    (hin : ∀ e ∈ L, ∃ w, SMap.get? gs e.f.number = some (.val w) ∧ AlikeBy S pay e.v w)
    (hout : ∀ n, (∀ e ∈ L, e.f.number ≠ n) → ∀ v, SMap.get? gs n ≠ some (.val v)) :
    AlikeBy S pay (.msg d fs) (.msg d gs) := by
  have hm : S.msg? d = some md := hC.desc
  have hw := Schema.wf_msg hS hm
  have key : ∀ e ∈ L, ∀ w, SMap.get? gs e.f.number = some (.val w) → AlikeBy S pay e.v w →
      FieldSet.has S fs e.f = FieldSet.has S gs e.f := by
    intro e he w hg ha
    have hfw := h.wf hS hm he
    have h1 : FieldSet.has S gs e.f = hasVal S e.f w := by simp [FieldSet.has, FieldSet.getValue, hg]
    rw [h1, hasVal_alike hfw (h.conf e he) ha]
    unfold FieldSet.has
    cases hv : FieldSet.getValue fs e.f.number with
    | some v =>
      have := h.get e he
      simp only [FieldSet.get, hv, Option.some.injEq] at this
      rw [this]
    | none =>
      have hd : fieldDefault S e.f = some e.v := by
        have := h.get e he
        simpa [FieldSet.get, hv] using this
      have hpr : e.f.presence = false := by
        rcases h.has e he with h | h
        · simp [FieldSet.has, hv] at h
        · exact h
      have hdn : e.f.default = none := by
        have hmem : e.f ∈ md.fields ++ md.extensions := by
          rcases (h.known hm he).cases hm with h | h
          · exact List.mem_append_left _ (getField_mem h).1
          · exact List.mem_append_right _ (getExtension_mem h).1
        have := List.all_eq_true.1 hP e.f hmem
        simpa [hpr] using this
      rw [hasVal_ofDefault hfw hdn hd, hpr]
  have absent : ∀ f, Known S d f → (∀ e ∈ L, e.f ≠ f) → FieldSet.has S fs f = some false ∧
      FieldSet.has S gs f = some false := by
    intro f hk hn
    constructor
    · obtain ⟨hfw, _⟩ := known_conf hS hC hk
      unfold FieldSet.has
      cases hv : FieldSet.getValue fs f.number with
      | none => rfl
      | some v =>
        obtain ⟨b, hb⟩ := hasVal_isSome hfw v
        cases b with
        | false => exact hb
        | true =>
          have : FieldSet.has S fs f = some true := by simp [FieldSet.has, hv, hb]
          obtain ⟨e, he, hef⟩ := h.complete f hk this
          exact absurd hef (hn e he)
    · have : FieldSet.getValue gs f.number = none := by
        unfold FieldSet.getValue
        cases hg : SMap.get? gs f.number with
        | none => rfl
        | some s => cases s with
          | val v =>
            exact absurd hg (hout f.number (fun e he hef =>
              hn e he ((h.known hm he).inj hS hm hk hef)) v)
          | taken => rfl
          | unknown u => rfl
      simp [FieldSet.has, this]
  refine .msg ?_ ?_
  · intro f hk
    by_cases hx : ∃ e ∈ L, e.f = f
    · obtain ⟨e, he, rfl⟩ := hx
      obtain ⟨w, hg, ha⟩ := hin e he
      exact key e he w hg ha
    · have := absent f hk (fun e he hef => hx ⟨e, he, hef⟩)
      rw [this.1, this.2]
  · intro f v w hk hh hv hw'
    obtain ⟨e, he, rfl⟩ := h.complete f hk hh
    obtain ⟨w', hg, ha⟩ := hin e he
    have e1 := h.get e he
    rw [hv] at e1
    cases e1
    simp only [FieldSet.get, FieldSet.getValue, hg, Option.some.injEq] at hw'
    subst hw'
    exact ha

end Verif.Dyn
