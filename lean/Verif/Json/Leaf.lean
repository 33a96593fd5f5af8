import Verif.Json.Round
import Verif.Dyn.Ren
import Verif.Props.JsonMask
import Verif.Props.JsonBytes
/-!
The well-known types in JSON: what `serStd` writes, `deStd` reads back, as messages of the
built-in descriptors.
-/
set_option autoImplicit false
namespace Verif.Json
open Verif.Wire Verif.Dyn Verif.Pool
open Verif.Text (Pairs)
open Verif.Props (except_map_ok)

/-! ### Likeness of standard messages -/

theorem std_ext (d n : Nat) : stdSchema.ext? d n = none := by
  unfold Schema.ext?
  cases h : stdSchema.msg? d with
  | none => rfl
  | some md =>
    have : ∀ md ∈ stdSchema.msgs, md.extensions = [] := by decide +kernel
    simp [MsgDesc.getExtension, this md (List.mem_of_getElem? h)]

theorem std_known {d : Nat} {md : MsgDesc} (hd : stdSchema.msg? d = some md) {f : FieldDesc}
    (h : Known stdSchema d f) : md.getField f.number = some f := by
  rcases h with h | h
  · rwa [field?_eq hd] at h
  · rw [std_ext] at h; cases h

theorem std_mapsPresent : MapsPresent stdSchema := by
  intro i kd vd h1 h2
  have hi : i < 18 := by
    cases hm : stdSchema.msg? i with
    | none => unfold Schema.isMapEntry at h1; rw [hm] at h1; cases h1
    | some md => exact (List.getElem?_eq_some_iff.1 hm).1
  have : ∀ i < 18, stdSchema.isMapEntry i = true → i = 4 := by decide +kernel
  have := this i hi h1
  subst this
  cases h2
  rfl

/-- How the entries of one field of two messages compare. -/
def Near (f : FieldDesc) : Option Value → Option Value → Prop
  | some v, some w => Alike stdSchema v w
  | none, none => True
  | none, some w => hasVal stdSchema f w = some false
  | some _, none => False

theorem near_alike {d : Nat} {md : MsgDesc} {fs gs : FieldSet} (hC : Conf stdSchema ⟨d, fs⟩ md)
    (h : ∀ f, md.getField f.number = some f → Near f (FieldSet.getValue fs f.number) (FieldSet.getValue gs f.number)) :
    Alike stdSchema (.msg d fs) (.msg d gs) := by
  have hw := Schema.wf_msg stdSchema_wf hC.desc
  refine .msg ?_ ?_
  · intro f hk
    have hf := std_known hC.desc hk
    have hn := h f hf
    unfold FieldSet.has
    cases h1 : FieldSet.getValue fs f.number with
    | none =>
      rw [h1] at hn
      cases h2 : FieldSet.getValue gs f.number with
      | none => rfl
      | some w => rw [h2] at hn; exact hn.symm
    | some v =>
      rw [h1] at hn
      cases h2 : FieldSet.getValue gs f.number with
      | none => rw [h2] at hn; exact hn.elim
      | some w =>
        rw [h2] at hn
        exact (hasVal_alike (hw.fields f (getField_mem hf).1) (std_value hC hf h1) hn).symm
  · intro f v w hk hh hv hw'
    have hn := h f (std_known hC.desc hk)
    obtain ⟨v0, h1⟩ := getValue_of_has hh
    rw [h1] at hn
    cases h2 : FieldSet.getValue gs f.number with
    | none => rw [h2] at hn; exact hn.elim
    | some w0 =>
      rw [h2] at hn
      unfold FieldSet.get at hv hw'
      rw [h1] at hv; rw [h2] at hw'
      cases hv; cases hw'
      exact hn

/-- What a standard message turns into on the way through JSON. -/
structure Mid (d : Nat) (fs gs : FieldSet) : Prop where
  alike : Alike stdSchema (.msg d fs) (.msg d gs)
  depth : depthSlots gs ≤ depthSlots fs

/-! ### Messages with scalar fields -/

theorem mid_one {d : Nat} {md : MsgDesc} {fs : FieldSet} (hC : Conf stdSchema ⟨d, fs⟩ md) {f : FieldDesc} {v : Value}
    (hf : ∀ g, md.getField g.number = some g → g = f) (hn : f.number = 1)
    (h : FieldSet.getValue fs 1 = some v ∨ FieldSet.getValue fs 1 = none ∧ hasVal stdSchema f v = some false)
    (hv : depthVal v = 0) : Mid d fs (one1 v) := by
  refine ⟨near_alike hC ?_, ?_⟩
  · intro g hg
    have := hf g hg
    subst this
    have h1 : FieldSet.getValue (one1 v) g.number = some v := by rw [hn]; rfl
    rw [h1, hn]
    rcases h with h | ⟨h, h'⟩
    · rw [h]; exact .refl _
    · rw [h]; exact h'
  · simp [one1, depthSlots, hv]

theorem wrapper_field {w : Wkt} {k : Kind} {g : FieldDesc} (h : (wrapper w k).getField g.number = some g) :
    g = stdField 1 "value" k .optional false none := by
  simp only [wrapper, MsgDesc.getField, List.find?_cons, List.find?_nil] at h
  split at h
  · exact (Option.some.inj h).symm
  · cases h

theorem hasVal_zero {k : Kind} {v : Value} (hv : kindDefault stdSchema k = some v) (hk : k.plain = true) :
    hasVal stdSchema (stdField 1 "value" k .optional false none) v = some false := by
  cases k with
  | message i => cases hk
  | enum i => cases hk
  | _ => exact Option.some.inj hv ▸ (by decide +kernel)

/-- The value of a wrapper, as it is read by the encoder of the built-in type. -/
theorem mid_wrapper {w : Wkt} {k : Kind} {fs : FieldSet} (hd : stdSchema.msg? w.std = some (wrapper w k))
    (hc : confMsg stdSchema ⟨w.std, fs⟩ = true) (hk : k.plain = true) {v dv : Value}
    (hdv : kindDefault stdSchema k = some dv)
    (h : ∀ x, FieldSet.getValue fs 1 = some x → scalarOk k x = true → v = x)
    (h0 : FieldSet.getValue fs 1 = none → v = dv) : Mid w.std fs (one1 v) := by
  obtain ⟨md, hC⟩ := confMsg_iff.1 hc
  have hd' := hC.desc
  simp only at hd'
  rw [hd] at hd'
  cases hd'
  have hsc : ∀ x, FieldSet.getValue fs 1 = some x → scalarOk k x = true := by
    intro x hx
    have := std_value hC (f := stdField 1 "value" k .optional false none) rfl hx
    refine scalarOk_of_confVal ?_ (by intro h; cases h) this
    cases k <;> first | rfl | (simp [Kind.plain] at hk; done)
  have h0' : ∀ x, scalarOk k x = true → depthVal x = 0 := by
    intro x hx
    cases x <;> first | rfl | (cases k <;> cases hx)
  refine mid_one hC (f := stdField 1 "value" k .optional false none) (fun g hg => wrapper_field hg) rfl ?_ ?_
  · cases hg : FieldSet.getValue fs 1 with
    | none => rw [h0 hg]; exact .inr ⟨rfl, hasVal_zero hdv hk⟩
    | some x => exact .inl (by rw [h x hg (hsc x hg)])
  · cases hg : FieldSet.getValue fs 1 with
    | none =>
      rw [h0 hg]
      cases k <;> first | (cases hdv; rfl) | (simp [Kind.plain] at hk; done)
    | some x => rw [h x hg (hsc x hg)]; exact h0' x (hsc x hg)

theorem mid_seconds {w : Wkt} (hw : w = .timestamp ∨ w = .duration) {fs : FieldSet}
    (hc : confMsg stdSchema ⟨w.std, fs⟩ = true) : Mid w.std fs (secNanos (stdI64 fs 1, stdI32 fs 2)) := by
  obtain ⟨md, hC⟩ := confMsg_iff.1 hc
  have hd := hC.desc
  simp only at hd
  have hfs : md.fields = [stdField 1 "seconds" .int64 .optional false none, stdField 2 "nanos" .int32 .optional false none] := by
    rcases hw with rfl | rfl <;> (cases hd; rfl)
  have hg1 : md.getField 1 = some (stdField 1 "seconds" .int64 .optional false none) := by
    simp only [MsgDesc.getField, hfs]; rfl
  have hg2 : md.getField 2 = some (stdField 2 "nanos" .int32 .optional false none) := by
    simp only [MsgDesc.getField, hfs]; rfl
  refine ⟨near_alike hC ?_, by simp [secNanos, depthSlots, depthVal]⟩
  intro g hg
  have hmem := (getField_mem hg).1
  rw [hfs] at hmem
  rcases List.mem_cons.1 hmem with rfl | hmem
  · show Near _ (FieldSet.getValue fs 1) (some (.i64 (stdI64 fs 1)))
    unfold stdI64
    cases h : FieldSet.getValue fs 1 with
    | none => exact (by decide +kernel : hasVal stdSchema (stdField 1 "seconds" .int64 .optional false none) (.i64 0) = some false)
    | some x =>
      have := std_value hC hg1 h
      cases x <;> first | exact .refl _ | (simp [confVal, scalarOk, stdField, Value.isValid, isList, isMap] at this; done)
  · rcases List.mem_cons.1 hmem with rfl | hmem
    · show Near _ (FieldSet.getValue fs 2) (some (.i32 (stdI32 fs 2)))
      unfold stdI32
      cases h : FieldSet.getValue fs 2 with
      | none => exact (by decide +kernel : hasVal stdSchema (stdField 2 "nanos" .int32 .optional false none) (.i32 0) = some false)
      | some x =>
        have := std_value hC hg2 h
        cases x <;> first | exact .refl _ | (simp [confVal, scalarOk, stdField, Value.isValid, isList, isMap] at this; done)
    · cases hmem

/-! ### Entries -/

theorem mem_putSorted_fresh {α : Type} {k : List Char} {v : α} : {l : List (List Char × α)} →
    (∀ p ∈ l, p.1 ≠ k) → ∀ p, p ∈ putSorted k v l ↔ p = (k, v) ∨ p ∈ l
  | [], _, p => by simp [putSorted]
  | (k', v') :: r, h, p => by
    have h1 : k ≠ k' := fun e => h (k', v') (by simp) e.symm
    have ih := mem_putSorted_fresh (v := v) (fun q hq => h q (List.mem_cons_of_mem _ hq)) p
    simp only [putSorted, if_neg h1]
    split
    · simp
    · simp only [List.mem_cons, ih]
      constructor <;> rintro (h | h | h) <;> simp [h]

theorem sortKeys_aux {α : Type} : (es acc : List (List Char × α)) → KeysSorted acc →
    (es.map (·.1)).Nodup → (∀ p ∈ acc, p.1 ∉ es.map (·.1)) →
    KeysSorted (es.foldl (fun acc p => putSorted p.1 p.2 acc) acc) ∧
      ∀ p, p ∈ es.foldl (fun acc p => putSorted p.1 p.2 acc) acc ↔ p ∈ acc ∨ p ∈ es
  | [], acc, h, _, _ => ⟨h, by simp⟩
  | (k, v) :: r, acc, h, hn, hd => by
    simp only [List.map_cons, List.nodup_cons] at hn
    have hf : ∀ p ∈ acc, p.1 ≠ k := fun p hp e => hd p hp (by simp [e])
    have hm := mem_putSorted_fresh (v := v) hf
    obtain ⟨h1, h2⟩ := sortKeys_aux r (putSorted k v acc) (putSorted_sorted k v h) hn.2 (by
      intro p hp
      rcases (hm p).1 hp with rfl | hp
      · exact hn.1
      · exact fun hc => hd p hp (by simp only [List.map_cons, List.mem_cons]; exact .inr hc))
    refine ⟨h1, fun p => ?_⟩
    rw [List.foldl_cons, h2, hm]
    simp only [List.mem_cons]
    constructor <;> rintro h
    · rcases h with (h | h) | h <;> simp [h]
    · rcases h with h | h | h <;> simp [h]

theorem sortKeys_mem {α : Type} {es : List (List Char × α)} (hn : (es.map (·.1)).Nodup) :
    KeysSorted (sortKeys es) ∧ ∀ p, p ∈ sortKeys es ↔ p ∈ es := by
  have := sortKeys_aux es [] .nil hn nofun
  exact ⟨this.1, fun p => (this.2 p).trans (by simp)⟩

theorem keysSorted_nodup {α : Type} {l : List (List Char × α)} (h : KeysSorted l) : (l.map (·.1)).Nodup := by
  unfold List.Nodup
  rw [List.pairwise_map]
  exact h.imp (fun hab e => by rw [e, keyLt_irrefl] at hab; cases hab)

theorem stdPairs_mem {f : Json → Except JErr Value} : (es : List (List Char × Json)) →
    (acc : List (List Char × Value)) → KeysSorted acc → (es.map (·.1)).Nodup → (∀ p ∈ acc, p.1 ∉ es.map (·.1)) →
    (∀ p ∈ es, ∃ w, f p.2 = .ok w) →
    ∃ l, stdPairs f acc es = .ok l ∧ KeysSorted l ∧
      ∀ p, p ∈ l ↔ p ∈ acc ∨ ∃ j, (p.1, j) ∈ es ∧ f j = .ok p.2
  | [], acc, h, _, _, _ => ⟨acc, rfl, h, by simp⟩
  | (k, j) :: r, acc, h, hn, hd, hf => by
    simp only [List.map_cons, List.nodup_cons] at hn
    obtain ⟨w, hw⟩ := hf (k, j) (by simp)
    simp only at hw
    have hfr : ∀ p ∈ acc, p.1 ≠ k := fun p hp e => hd p hp (by simp [e])
    have hm := mem_putSorted_fresh (v := w) hfr
    obtain ⟨l, h1, h2, h3⟩ := stdPairs_mem r (putSorted k w acc) (putSorted_sorted k w h) hn.2 (by
      intro p hp
      rcases (hm p).1 hp with rfl | hp
      · exact hn.1
      · exact fun hc => hd p hp (by simp only [List.map_cons, List.mem_cons]; exact .inr hc))
      (fun p hp => hf p (List.mem_cons_of_mem _ hp))
    refine ⟨l, by simp only [stdPairs, hw, h1], h2, fun p => ?_⟩
    rw [h3, hm]
    constructor
    · rintro ((rfl | h) | ⟨j', h, h'⟩)
      · exact .inr ⟨j, by simp, hw⟩
      · exact .inl h
      · exact .inr ⟨j', List.mem_cons_of_mem _ h, h'⟩
    · rintro (h | ⟨j', h, h'⟩)
      · exact .inl (.inr h)
      · rcases List.mem_cons.1 h with e | h
        · obtain ⟨p1, p2⟩ := p
          cases e
          rw [hw] at h'
          cases h'
          exact .inl (.inl rfl)
        · exact .inr ⟨j', h, h'⟩

theorem kmap_get_of_mem : {kvs : List (MapKey × Value)} → KMap.distinct kvs = true → {k : MapKey} → {v : Value} →
    (k, v) ∈ kvs → KMap.get? kvs k = some v
  | [], _, _, _, h => by cases h
  | (k', v') :: r, hd, k, v, h => by
    simp only [KMap.distinct, Bool.and_eq_true] at hd
    simp only [KMap.get?]
    rcases List.mem_cons.1 h with e | h
    · cases e; simp
    · have := kmap_get_of_mem hd.2 h
      split
      · rename_i e
        subst e
        rw [this] at hd
        simp at hd
      · exact this

theorem mem_strKeys {l : List (List Char × Value)} {k : MapKey} {v : Value} :
    (k, v) ∈ strKeys l ↔ ∃ s, k = .str (utf8Encode s) ∧ (s, v) ∈ l := by
  simp only [strKeys, List.mem_map]
  constructor
  · rintro ⟨⟨s, w⟩, h, e⟩
    cases e
    exact ⟨s, rfl, h⟩
  · rintro ⟨s, rfl, h⟩
    exact ⟨(s, v), h, rfl⟩

/-! ### `Struct`, `Value`, `ListValue` -/

/-- A `Value` that says what it is. -/
def KindSet (m : DynMsg) : Prop :=
  m.desc = Wkt.value.std → (∃ n v, 1 ≤ n ∧ n ≤ 6 ∧ FieldSet.getValue m.fields n = some v) ∧
    ∀ v, FieldSet.getValue m.fields 1 = some (.enum v) → v = 0

/-- Every `Value` in it says what it is. -/
def Said (v : Value) : Prop := keepVal (fun _ => True) KindSet v

/-- What is written for a value is read as a value like it. -/
def Reads (val : Value → Except JErr Json) (f : Json → Except JErr Value) : Prop :=
  ∀ v j, IsValue v → Said v → val v = .ok j →
    ∃ w, f j = .ok w ∧ Alike stdSchema v w ∧ depthVal w ≤ depthVal v

theorem getValue_keep {Q : BitVec 32 → Prop} {P : DynMsg → Prop} {fs : FieldSet} (h : keepSlots Q P fs) {n : Nat}
    {v : Value} (hg : FieldSet.getValue fs n = some v) : keepVal Q P v := by
  unfold FieldSet.getValue at hg
  split at hg
  · rename_i w hw
    cases hg
    exact keepSlots_get h hw
  · cases hg

theorem getValue_depth {fs : FieldSet} {n : Nat} {v : Value} (hg : FieldSet.getValue fs n = some v) :
    depthVal v ≤ depthSlots fs := by
  unfold FieldSet.getValue at hg
  split at hg
  · rename_i w hw
    cases hg
    exact depth_get (Nat.le_refl _) hw
  · cases hg

theorem stdEntry_ok {val : Value → Except JErr Json} {p : MapKey × Value} {e : List Char × Json}
    (h : stdEntry val p = .ok e) : p.1 = .str (utf8Encode e.1) ∧ val p.2 = .ok e.2 := by
  obtain ⟨k, v⟩ := p
  unfold stdEntry at h
  cases k with
  | str b =>
    simp only at h
    cases hs : strOf b with
    | error e => rw [hs] at h; cases h
    | ok s =>
      rw [hs] at h
      simp only at h
      cases hv : val v with
      | error e => rw [hv] at h; cases h
      | ok j =>
        rw [hv] at h
        cases h
        exact ⟨by rw [strOf_ok hs], rfl⟩
  | _ => cases h

theorem pairs_left {α β : Type} {R : α → β → Prop} {as : List α} {bs : List β} (h : Pairs R as bs) {a : α}
    (ha : a ∈ as) : ∃ b ∈ bs, R a b := by
  induction h with
  | nil => cases ha
  | cons h t ih =>
    rcases List.mem_cons.1 ha with rfl | ha
    · exact ⟨_, by simp, h⟩
    · obtain ⟨b, h1, h2⟩ := ih ha
      exact ⟨b, List.mem_cons_of_mem _ h1, h2⟩

theorem pairs_right {α β : Type} {R : α → β → Prop} {as : List α} {bs : List β} (h : Pairs R as bs) {b : β}
    (hb : b ∈ bs) : ∃ a ∈ as, R a b := by
  induction h with
  | nil => cases hb
  | cons h t ih =>
    rcases List.mem_cons.1 hb with rfl | hb
    · exact ⟨_, by simp, h⟩
    · obtain ⟨a, h1, h2⟩ := ih hb
      exact ⟨a, List.mem_cons_of_mem _ h1, h2⟩

theorem entries_nodup {val : Value → Except JErr Json} {kvs : List (MapKey × Value)} {es : List (List Char × Json)}
    (h : Pairs (fun p e => stdEntry val p = .ok e) kvs es) (hd : KMap.distinct kvs = true) :
    (es.map (·.1)).Nodup := by
  induction h with
  | nil => simp
  | @cons p e kvs es h t ih =>
    obtain ⟨k, v⟩ := p
    simp only [KMap.distinct, Bool.and_eq_true] at hd
    simp only [List.map_cons, List.nodup_cons]
    refine ⟨?_, ih hd.2⟩
    intro hm
    obtain ⟨e', h1, h2⟩ := List.mem_map.1 hm
    obtain ⟨⟨k', v'⟩, h3, h4⟩ := pairs_right t h1
    have e1 := (stdEntry_ok h).1
    have e2 := (stdEntry_ok h4).1
    simp only at e1 e2
    rw [h2, ← e1] at e2
    subst e2
    have := kmap_get_of_mem hd.2 h3
    rw [this] at hd
    simp at hd

theorem struct_reads {val : Value → Except JErr Json} {f : Json → Except JErr Value} (hv : Reads val f)
    {fs : FieldSet} (hc : confMsg stdSchema ⟨Wkt.struct.std, fs⟩ = true)
    (hk : keepSlots (fun _ => True) KindSet fs) {j : Json} (h : serStruct val fs = .ok j) :
    ∃ gs es, j = .obj es ∧ deStruct f j = .ok gs ∧ Mid Wkt.struct.std fs gs := by
  obtain ⟨md, hC⟩ := confMsg_iff.1 hc
  have hd := hC.desc
  cases hd
  have only : ∀ g : FieldDesc, MsgDesc.getField { name := Wkt.struct.name, mapEntry := false, extensions := [], fields := [
        stdField 1 "fields" (.message 4) .repeated false none] } g.number = some g →
      g = stdField 1 "fields" (.message 4) .repeated false none := by
    intro g hg
    simpa using (getField_mem hg).1
  have h0 : hasVal stdSchema (stdField 1 "fields" (.message 4) .repeated false none) (.map []) = some false := by
    decide +kernel
  unfold serStruct at h
  cases hg : FieldSet.getValue fs 1 with
  | none =>
    rw [hg] at h
    cases h
    refine ⟨_, [], rfl, rfl, near_alike hC ?_, by simp [depthSlots, depthVal, depthMap]⟩
    intro g hg'
    have := only g hg'
    subst this
    show Near _ (FieldSet.getValue fs 1) (some (.map []))
    rw [hg]
    exact h0
  | some x =>
    rw [hg] at h
    have hx := std_value hC (f := stdField 1 "fields" (.message 4) .repeated false none) rfl hg
    cases x with
    | map kvs =>
      simp only at h
      obtain ⟨es, hes, rfl⟩ := except_map_ok.1 h
      have hkv : stdSchema.mapKV 4 = some (stdField 1 "key" .string .optional false none,
        stdField 2 "value" (.message 5) .optional true none) := rfl
      simp only [confVal, Bool.and_eq_true] at hx
      have hx2 := hx.2
      simp only [stdField] at hx2 hkv
      rw [hkv] at hx2
      simp only [Bool.and_eq_true, confMap_iff] at hx2
      have hP := mapE_pairs hes
      have hsaid : ∀ p ∈ kvs, Said p.2 := by
        have := getValue_keep hk hg
        exact fun p hp => keepMap_mem this hp
      have hone : ∀ p ∈ kvs, ∀ e, stdEntry val p = .ok e →
          ∃ w, f e.2 = .ok w ∧ Alike stdSchema p.2 w ∧ depthVal w ≤ depthVal p.2 := fun p hp e he =>
        hv p.2 e.2 (isValue_of rfl (by intro h; cases h) (hx2.2 p hp).2) (hsaid p hp) (stdEntry_ok he).2
      obtain ⟨hs1, hs2⟩ := sortKeys_mem (entries_nodup hP hx2.1)
      obtain ⟨l, hl1, hl2, hl3⟩ := stdPairs_mem (f := f) (sortKeys es) [] .nil (keysSorted_nodup hs1) nofun (by
        intro e he
        obtain ⟨p, hp, hpe⟩ := pairs_right hP ((hs2 e).1 he)
        obtain ⟨w, hw, -⟩ := hone p hp e hpe
        exact ⟨w, hw⟩)
      have hmem : ∀ k w, (k, w) ∈ strKeys l → ∃ v, (k, v) ∈ kvs ∧ Alike stdSchema v w ∧ depthVal w ≤ depthVal v := by
        intro k w hw
        obtain ⟨s, rfl, hs⟩ := mem_strKeys.1 hw
        rcases (hl3 _).1 hs with h | ⟨j, hj, hjw⟩
        · cases h
        · obtain ⟨⟨k, v⟩, hp, hpe⟩ := pairs_right hP ((hs2 _).1 hj)
          obtain ⟨w', hw', h1, h2⟩ := hone _ hp _ hpe
          simp only at hw' hjw
          rw [hjw] at hw'
          cases hw'
          have := (stdEntry_ok hpe).1
          simp only at this
          subst this
          exact ⟨v, hp, h1, h2⟩
      have hmem' : ∀ k v, (k, v) ∈ kvs → ∃ w, (k, w) ∈ strKeys l := by
        intro k v hkv'
        obtain ⟨e, he, hpe⟩ := pairs_left hP hkv'
        obtain ⟨w, hw, -⟩ := hone _ hkv' e hpe
        have := (stdEntry_ok hpe).1
        simp only at this
        subst this
        exact ⟨w, mem_strKeys.2 ⟨e.1, rfl, (hl3 (e.1, w)).2 (.inr ⟨e.2, (hs2 _).2 he, hw⟩)⟩⟩
      have hdl := strKeys_distinct hl2
      have hA : Alike stdSchema (.map kvs) (.map (strKeys l)) := by
        refine .map (fun k => ?_) (fun k v w h1 h2 => ?_)
        · rw [Bool.eq_iff_iff, Option.isSome_iff_exists, Option.isSome_iff_exists]
          constructor
          · rintro ⟨v, h⟩
            obtain ⟨w, hw⟩ := hmem' k v (KMap.mem_of_get? h)
            exact ⟨w, kmap_get_of_mem hdl hw⟩
          · rintro ⟨w, h⟩
            obtain ⟨v, hv, -⟩ := hmem k w (KMap.mem_of_get? h)
            exact ⟨v, kmap_get_of_mem hx2.1 hv⟩
        · obtain ⟨v', hv', hA, -⟩ := hmem k w (KMap.mem_of_get? h2)
          have := kmap_get_of_mem hx2.1 hv'
          rw [h1] at this
          cases this
          exact hA
      refine ⟨[(1, .val (.map (strKeys l)))], sortKeys es, rfl, ?_, near_alike hC ?_, ?_⟩
      · simp only [deStruct, hl1]
        rfl
      · intro g hg'
        have := only g hg'
        subst this
        show Near _ (FieldSet.getValue fs 1) (some (.map (strKeys l)))
        rw [hg]
        exact hA
      · have h1 := getValue_depth hg
        simp only [depthVal] at h1
        simp only [depthSlots, depthVal]
        refine Nat.max_le.2 ⟨Nat.le_trans ((depthMap_le _).2 ?_) h1, Nat.zero_le _⟩
        rintro ⟨k, w⟩ hw
        obtain ⟨v, hv, -, h2⟩ := hmem k w hw
        exact Nat.le_trans h2 ((depthMap_le _).1 (Nat.le_refl _) _ hv)
    | list vs =>
      exfalso
      simp only [confVal, Bool.and_eq_true] at hx
      have : isList stdSchema (stdField 1 "fields" (.message 4) .repeated false none) = false := by decide +kernel
      rw [this] at hx
      exact Bool.noConfusion hx.1
    | _ => exact absurd hx (by simp [confVal, scalarOk, stdField])

theorem mapE_ex {α β : Type} {f : α → Except JErr β} : {xs : List α} → (∀ x ∈ xs, ∃ y, f x = .ok y) →
    ∃ ys, mapE f xs = .ok ys
  | [], _ => ⟨[], rfl⟩
  | x :: r, h => by
    obtain ⟨y, hy⟩ := h x (by simp)
    obtain ⟨ys, hys⟩ := mapE_ex (xs := r) (fun z hz => h z (List.mem_cons_of_mem _ hz))
    exact ⟨y :: ys, by simp only [mapE, hy, hys]⟩

theorem list_reads {val : Value → Except JErr Json} {f : Json → Except JErr Value} (hv : Reads val f)
    {fs : FieldSet} (hc : confMsg stdSchema ⟨Wkt.list.std, fs⟩ = true)
    (hk : keepSlots (fun _ => True) KindSet fs) {j : Json} (h : serList val fs = .ok j) :
    ∃ gs xs, j = .arr xs ∧ deList f j = .ok gs ∧ Mid Wkt.list.std fs gs := by
  obtain ⟨md, hC⟩ := confMsg_iff.1 hc
  have hd := hC.desc
  cases hd
  have only : ∀ g : FieldDesc, MsgDesc.getField { name := Wkt.list.name, mapEntry := false, extensions := [], fields := [
        stdField 1 "values" (.message 5) .repeated false none] } g.number = some g →
      g = stdField 1 "values" (.message 5) .repeated false none := by
    intro g hg
    simpa using (getField_mem hg).1
  have h0 : hasVal stdSchema (stdField 1 "values" (.message 5) .repeated false none) (.list []) = some false := by
    decide +kernel
  unfold serList at h
  cases hg : FieldSet.getValue fs 1 with
  | none =>
    rw [hg] at h
    cases h
    refine ⟨_, [], rfl, rfl, near_alike hC ?_, by simp [depthSlots, depthVal, depthVals]⟩
    intro g hg'
    have := only g hg'
    subst this
    show Near _ (FieldSet.getValue fs 1) (some (.list []))
    rw [hg]
    exact h0
  | some x =>
    rw [hg] at h
    have hx := std_value hC (f := stdField 1 "values" (.message 5) .repeated false none) rfl hg
    cases x with
    | list vs =>
      simp only at h
      obtain ⟨xs, hxs, rfl⟩ := except_map_ok.1 h
      simp only [confVal, Bool.and_eq_true, confVals_iff] at hx
      have hP := mapE_pairs hxs
      have hsaid : ∀ v ∈ vs, Said v := by
        have := getValue_keep hk hg
        exact fun v hv => keepVals_mem this hv
      have hone : ∀ v ∈ vs, ∀ j, val v = .ok j → ∃ w, f j = .ok w ∧ Alike stdSchema v w ∧ depthVal w ≤ depthVal v :=
        fun v hm j hj => hv v j (isValue_of rfl elem_card (hx.2 v hm)) (hsaid v hm) hj
      obtain ⟨ws, hws⟩ := mapE_ex (f := f) (xs := xs) (by
        intro j hj
        obtain ⟨v, h1, h2⟩ := pairs_right hP hj
        obtain ⟨w, hw, -⟩ := hone v h1 j h2
        exact ⟨w, hw⟩)
      have hQ := mapE_pairs hws
      have hl : vs.length = ws.length := hP.length.trans hQ.length
      have hget : ∀ (i : Nat) v w, vs[i]? = some v → ws[i]? = some w →
          Alike stdSchema v w ∧ depthVal w ≤ depthVal v := by
        intro i v w h1 h2
        have hi : i < xs.length := by
          rw [← hP.length]
          exact (List.getElem?_eq_some_iff.1 h1).1
        have h3 : xs[i]? = some xs[i] := List.getElem?_eq_getElem hi
        have h4 := hP.get i _ _ h1 h3
        have h5 := hQ.get i _ _ h3 h2
        obtain ⟨w', h6, h7⟩ := hone v (List.mem_of_getElem? h1) _ h4
        rw [h5] at h6
        cases h6
        exact h7
      refine ⟨[(1, .val (.list ws))], xs, rfl, ?_, near_alike hC ?_, ?_⟩
      · simp only [deList, hws]
        rfl
      · intro g hg'
        have := only g hg'
        subst this
        show Near _ (FieldSet.getValue fs 1) (some (.list ws))
        rw [hg]
        exact AlikeBy.list hl (fun i v w h1 h2 => (hget i v w h1 h2).1)
      · have h1 := getValue_depth hg
        simp only [depthVal] at h1
        simp only [depthSlots, depthVal]
        refine Nat.max_le.2 ⟨Nat.le_trans ((depthVals_le _).2 ?_) h1, Nat.zero_le _⟩
        intro w hw
        obtain ⟨i, hi⟩ := List.getElem?_of_mem hw
        have hi' : i < vs.length := by
          rw [hl]
          exact (List.getElem?_eq_some_iff.1 hi).1
        exact Nat.le_trans (hget i _ w (List.getElem?_eq_getElem hi') hi).2
          ((depthVals_le _).1 (Nat.le_refl _) _ (List.getElem_mem hi'))
    | map vs =>
      exfalso
      simp only [confVal, Bool.and_eq_true] at hx
      have : isMap stdSchema (stdField 1 "values" (.message 5) .repeated false none) = false := by decide +kernel
      rw [this] at hx
      exact Bool.noConfusion hx.1
    | _ => exact absurd hx (by simp [confVal, scalarOk, stdField])

/-- A `Value` with one member set, which is like the one in the message. -/
theorem mid_value {fs : FieldSet} {md : MsgDesc} (hC : Conf stdSchema ⟨Wkt.value.std, fs⟩ md) {n : Nat} {v w : Value}
    (hn : 1 ≤ n ∧ n ≤ 6) (hg : FieldSet.getValue fs n = some v) (hA : Alike stdSchema v w) (hdp : depthVal w ≤ depthVal v) :
    Mid Wkt.value.std fs [(n, .val w)] := by
  refine ⟨near_alike hC ?_, ?_⟩
  · intro g hgf
    by_cases e : g.number = n
    · have : FieldSet.getValue [(n, Slot.val w)] g.number = some w := by
        simp [FieldSet.getValue, SMap.get?, e]
      rw [this, e, hg]
      exact hA
    · have h1 : FieldSet.getValue [(n, Slot.val w)] g.number = none := by
        simp [FieldSet.getValue, SMap.get?, show ¬ n = g.number from fun h => e h.symm]
      have hs : ∃ s, SMap.get? fs n = some s := by
        unfold FieldSet.getValue at hg
        split at hg
        · exact ⟨_, by assumption⟩
        · cases hg
      obtain ⟨s, hs⟩ := hs
      have hd := hC.desc
      cases hd
      have hsib : ∀ n, 1 ≤ n → n ≤ 6 → ∀ g ∈ ((stdSchema.msgs[5]?).map (·.fields)).getD [], g.number ≠ n →
          ∃ f, ((stdSchema.msgs[5]?).bind (·.getField n)) = some f ∧
            ((stdSchema.msgs[5]?).map (fun md => decide (g.number ∈ siblings md f))) = some true := by
        intro n h1 h2
        have : n = 1 ∨ n = 2 ∨ n = 3 ∨ n = 4 ∨ n = 5 ∨ n = 6 := by omega
        rcases this with rfl | rfl | rfl | rfl | rfl | rfl <;> exact
          fun g hg hne => ⟨_, rfl, by revert hne; revert g; decide +kernel⟩
      obtain ⟨f, hf1, hf2⟩ := hsib n hn.1 hn.2 g (getField_mem hgf).1 e
      have := hC.oneof n f s hs hf1 g.number (of_decide_eq_true (Option.some.inj hf2))
      have h2 : FieldSet.getValue fs g.number = none := by
        unfold FieldSet.getValue
        simp only at this
        rw [this]
      rw [h1, h2]
      trivial
  · simp only [depthSlots]
    exact Nat.max_le.2 ⟨Nat.le_trans hdp (getValue_depth hg), Nat.zero_le _⟩

theorem value_done {fs : FieldSet} {md : MsgDesc} (hC : Conf stdSchema ⟨Wkt.value.std, fs⟩ md) {n : Nat} {v w : Value}
    (hn : 1 ≤ n ∧ n ≤ 6) (hg : FieldSet.getValue fs n = some v) (hA : Alike stdSchema v w) (hdp : depthVal w ≤ depthVal v) :
    Alike stdSchema (.msg Wkt.value.std fs) (stdValue n w) ∧
      depthVal (stdValue n w) ≤ depthVal (.msg Wkt.value.std fs) := by
  have := mid_value hC hn hg hA hdp
  refine ⟨this.alike, ?_⟩
  have := this.depth
  simp only [stdValue, depthVal] at this ⊢
  omega

theorem value_reads (env : JEnv) : (k K : Nat) → k ≤ K → Reads (serValue k) (deValue env K)
  | 0, _, _ => fun v j _ _ h => by cases h
  | k + 1, 0, h => absurd h (by omega)
  | k + 1, K + 1, hkK => by
    intro x j hx hs h
    obtain ⟨fs, rfl, hc⟩ := hx
    obtain ⟨md, hC⟩ := confMsg_iff.1 hc
    have hd := hC.desc
    cases hd
    obtain ⟨hset, hks⟩ := hs
    obtain ⟨⟨n, y, hn1, hn6, hn⟩, hzero⟩ := hset rfl
    have ih := value_reads env k K (by omega)
    unfold serValue at h
    split at h
    · split at h
      · cases h
        exact ⟨_, rfl, value_done hC (by decide) (by assumption) (.refl _) (Nat.le_refl _)⟩
      · cases h
    · obtain ⟨s, hs, rfl⟩ := except_map_ok.1 h
      rename_i b hb _
      refine ⟨_, rfl, value_done hC (n := 3) (by decide) hb ?_ (Nat.le_refl _)⟩
      rw [strOf_ok hs]
      exact .refl _
    · cases h
      exact ⟨_, rfl, value_done hC (by decide) (by assumption) (.refl _) (Nat.le_refl _)⟩
    · rename_i d gs hg _ _ _
      have hcv := std_value hC (n := 5) (f := stdField 5 "struct_value" (.message 3) .optional true (some 0)) rfl hg
      obtain ⟨-, hk, hc'⟩ := confMsg_of_confVal hcv
      cases hk
      obtain ⟨hs, es, rfl, h1, h2⟩ := struct_reads ih hc' (getValue_keep hks hg).2 h
      refine ⟨stdValue 5 (.msg Wkt.struct.std hs), ?_, value_done hC (by decide) hg h2.alike ?_⟩
      · simp only [deValue, h1]
        rfl
      · have := h2.depth
        simp only [depthVal]
        omega
    · rename_i d gs hg _ _ _ _
      have hcv := std_value hC (n := 6) (f := stdField 6 "list_value" (.message 6) .optional true (some 0)) rfl hg
      obtain ⟨-, hk, hc'⟩ := confMsg_of_confVal hcv
      cases hk
      obtain ⟨hs, es, rfl, h1, h2⟩ := list_reads ih hc' (getValue_keep hks hg).2 h
      refine ⟨stdValue 6 (.msg Wkt.list.std hs), ?_, value_done hC (by decide) hg h2.alike ?_⟩
      · simp only [deValue, h1]
        rfl
      · have := h2.depth
        simp only [depthVal]
        omega
    · rename_i n2 n3 n4 n5 n6
      cases h
      have h1 : n = 1 := by
        have : n = 1 ∨ n = 2 ∨ n = 3 ∨ n = 4 ∨ n = 5 ∨ n = 6 := by omega
        rcases this with rfl | rfl | rfl | rfl | rfl | rfl
        · rfl
        · exfalso
          have := scalarOk_of_confVal rfl (by intro h; cases h) (std_value hC (n := 2) rfl hn)
          cases y <;> first | exact n2 _ hn | cases this
        · exfalso
          have := scalarOk_of_confVal rfl (by intro h; cases h) (std_value hC (n := 3) rfl hn)
          cases y <;> first | exact n3 _ hn | cases this
        · exfalso
          have := scalarOk_of_confVal rfl (by intro h; cases h) (std_value hC (n := 4) rfl hn)
          cases y <;> first | exact n4 _ hn | cases this
        · exfalso
          obtain ⟨gs, rfl, -⟩ := msg_of_confVal (f := stdField 5 "struct_value" (.message 3) .optional true (some 0)) rfl
            (by intro h; cases h) (std_value hC (n := 5) rfl hn)
          exact n5 _ _ hn
        · exfalso
          obtain ⟨gs, rfl, -⟩ := msg_of_confVal (f := stdField 6 "list_value" (.message 6) .optional true (some 0)) rfl
            (by intro h; cases h) (std_value hC (n := 6) rfl hn)
          exact n6 _ _ hn
      subst h1
      have := scalarOk_of_confVal rfl (by intro h; cases h) (std_value hC (n := 1) rfl hn)
      cases y with
      | enum e =>
        have := hzero e hn
        subst this
        exact ⟨_, rfl, value_done hC (by decide) hn (.refl _) (Nat.le_refl _)⟩
      | _ => cases this

/-! ### All of them -/

/-- What is assumed of the text forms of timestamps and durations (`Display` and `FromStr` in
`prost_types`): what is written for one that is normalized reads back, and a timestamp is
written in the strict form. -/
structure JTimeSpec (env : JEnv) : Prop where
  time : ∀ s n, checkTimestamp s n = true → 0 ≤ n.toInt → n.toInt < 1000000000 →
    env.parseTime (env.showTime s n) = some (s, n) ∧ rfc3339 (utf8Encode (env.showTime s n)) = true
  dur : ∀ s n, checkDuration s n = true → (0 ≤ s.toInt ∧ 0 ≤ n.toInt ∨ s.toInt ≤ 0 ∧ n.toInt ≤ 0) →
    env.parseDur (env.showDur s n) = some (s, n)

/-- The standard messages that JSON keeps. -/
def Keeps (w : Wkt) (fs : FieldSet) : Prop :=
  match w with
  | .any => False
  | .timestamp => 0 ≤ (stdI32 fs 2).toInt ∧ (stdI32 fs 2).toInt < 1000000000
  | .duration => 0 ≤ (stdI64 fs 1).toInt ∧ 0 ≤ (stdI32 fs 2).toInt ∨ (stdI64 fs 1).toInt ≤ 0 ∧ (stdI32 fs 2).toInt ≤ 0
  | .float => finite32 (stdF32 fs 1) = true ∧ f32Ok (stdF32 fs 1)
  | .double => finite64 (stdF64 fs 1) = true
  | .fieldMask => ∀ ps, mapE strVal (stdList fs 1) = .ok ps → ∀ p ∈ ps, Props.Survives p
  | .struct | .list | .value => Said (.msg w.std fs)
  | _ => True

theorem strVals_ok : {vs : List Value} → {ps : List (List Char)} → mapE strVal vs = .ok ps →
    ps.map (fun p => Value.str (utf8Encode p)) = vs
  | [], _, h => by cases h; rfl
  | v :: r, ps, h => by
    simp only [mapE] at h
    cases hv : strVal v with
    | error e => rw [hv] at h; cases h
    | ok p =>
      rw [hv] at h
      simp only at h
      cases hr : mapE strVal r with
      | error e => rw [hr] at h; cases h
      | ok qs =>
        rw [hr] at h
        cases h
        have ih := strVals_ok hr
        have : Value.str (utf8Encode p) = v := by
          cases v with
          | str b => rw [strOf_ok hv]
          | _ => cases hv
        simp only [List.map_cons, ih, this]

theorem depthVals_str (ps : List (List Char)) : depthVals (ps.map (fun p => Value.str (utf8Encode p))) = 0 := by
  induction ps with
  | nil => rfl
  | cons p r ih => simp only [List.map_cons, depthVals, ih]; rfl

theorem std_reads {env : JEnv} (hF : JFloatSpec env) (hT : JTimeSpec env) {so : SOpts} {w : Wkt} {fs : FieldSet}
    (hc : confMsg stdSchema ⟨w.std, fs⟩ = true) (hg : Keeps w fs) {k K : Nat} (hk : k ≤ K) {j : Json}
    (h : serStd env so k fs w = .ok j) : ∃ gs, deStd env K j w = .ok gs ∧ Mid w.std fs gs := by
  cases w with
  | any => exact hg.elim
  | timestamp =>
    simp only [serStd] at h
    split at h
    · rename_i hch
      cases h
      obtain ⟨h1, h2⟩ := hT.time _ _ hch hg.1 hg.2
      refine ⟨_, by simp only [deStd, h1, h2, hch, if_true], mid_seconds (.inl rfl) hc⟩
    · cases h
  | duration =>
    simp only [serStd] at h
    split at h
    · rename_i hch
      cases h
      have h1 := hT.dur _ _ hch hg
      refine ⟨_, by simp only [deStd, h1, hch, if_true], mid_seconds (.inr rfl) hc⟩
    · cases h
  | float =>
    cases h
    obtain ⟨h1, h2⟩ := hF.fin32 _ hg.1 hg.2
    refine ⟨one1 (.f32 (stdF32 fs 1)), by simp [deStd, rawF32, hg.1, visitFloat, h1, h2, Except.map], ?_⟩
    refine mid_wrapper (k := .float) rfl hc rfl rfl (fun x hx hs => ?_) (fun h0 => by simp [stdF32, h0])
    cases x <;> first | (cases hs; done) | simp [stdF32, hx]
  | double =>
    cases h
    refine ⟨one1 (.f64 (stdF64 fs 1)), by simp [deStd, rawF64, show finite64 (stdF64 fs 1) = true from hg, visitDouble, Except.map], ?_⟩
    refine mid_wrapper (k := .double) rfl hc rfl rfl (fun x hx hs => ?_) (fun h0 => by simp [stdF64, h0])
    cases x <;> first | (cases hs; done) | simp [stdF64, hx]
  | int32 =>
    cases h
    refine ⟨one1 (.i32 (stdI32 fs 1)), by simp [deStd, visitI32_ser, Except.map], ?_⟩
    refine mid_wrapper (k := .int32) rfl hc rfl rfl (fun x hx hs => ?_) (fun h0 => by simp [stdI32, h0])
    cases x <;> first | (cases hs; done) | simp [stdI32, hx]
  | int64 =>
    cases h
    refine ⟨one1 (.i64 (stdI64 fs 1)), by simp [deStd, visitI64_ser, Except.map], ?_⟩
    refine mid_wrapper (k := .int64) rfl hc rfl rfl (fun x hx hs => ?_) (fun h0 => by simp [stdI64, h0])
    cases x <;> first | (cases hs; done) | simp [stdI64, hx]
  | uint32 =>
    cases h
    refine ⟨one1 (.u32 (stdU32 fs 1)), by simp [deStd, visitU32_ser, Except.map], ?_⟩
    refine mid_wrapper (k := .uint32) rfl hc rfl rfl (fun x hx hs => ?_) (fun h0 => by simp [stdU32, h0])
    cases x <;> first | (cases hs; done) | simp [stdU32, hx]
  | uint64 =>
    cases h
    refine ⟨one1 (.u64 (stdU64 fs 1)), by simp [deStd, visitU64_ser, Except.map], ?_⟩
    refine mid_wrapper (k := .uint64) rfl hc rfl rfl (fun x hx hs => ?_) (fun h0 => by simp [stdU64, h0])
    cases x <;> first | (cases hs; done) | simp [stdU64, hx]
  | bool =>
    cases h
    refine ⟨one1 (.bool (stdBool fs 1)), by simp [deStd, visitBool, Except.map], ?_⟩
    refine mid_wrapper (k := .bool) rfl hc rfl rfl (fun x hx hs => ?_) (fun h0 => by simp [stdBool, h0])
    cases x <;> first | (cases hs; done) | simp [stdBool, hx]
  | string =>
    obtain ⟨s, hs, rfl⟩ := except_map_ok.1 h
    refine ⟨one1 (.str (stdStr fs 1)), by simp [deStd, visitString, strOf_ok hs, Except.map], ?_⟩
    refine mid_wrapper (k := .string) rfl hc rfl rfl (fun x hx hs => ?_) (fun h0 => by simp [stdStr, h0])
    cases x <;> first | (cases hs; done) | simp [stdStr, hx]
  | bytes =>
    cases h
    refine ⟨one1 (.bytes (stdBytes fs 1)), by simp [deStd, visitBytes, Props.C42_roundtrip, Except.map], ?_⟩
    refine mid_wrapper (k := .bytes) rfl hc rfl rfl (fun x hx hs => ?_) (fun h0 => by simp [stdBytes, h0])
    cases x <;> first | (cases hs; done) | simp [stdBytes, hx]
  | fieldMask =>
    simp only [serStd] at h
    cases hp : mapE strVal (stdList fs 1) with
    | error e => rw [hp] at h; cases h
    | ok ps =>
      rw [hp] at h
      simp only at h
      cases hm : serMask ps with
      | none => rw [hm] at h; cases h
      | some s =>
        rw [hm] at h
        cases h
        have hr := (Props.C38_survives ps s hm).2 (hg ps hp)
        refine ⟨one1 (.list (ps.map (fun p => .str (utf8Encode p)))), by simp only [deStd, hr], ?_⟩
        obtain ⟨md, hC⟩ := confMsg_iff.1 hc
        have hd := hC.desc
        cases hd
        refine mid_one hC (f := stdField 1 "paths" .string .repeated false none) (fun g hg' => ?_) rfl ?_ ?_
        · simpa using (getField_mem hg').1
        · have := strVals_ok hp
          rw [this]
          unfold stdList
          cases hgv : FieldSet.getValue fs 1 with
          | none => exact .inr ⟨rfl, by decide +kernel⟩
          | some x =>
            have hx := std_value hC (n := 1) (f := stdField 1 "paths" .string .repeated false none) rfl hgv
            cases x with
            | list vs => exact .inl rfl
            | map kvs => simp [confVal, isMap, stdField, Kind.isMessage] at hx
            | _ => exact absurd hx (by simp [confVal, scalarOk, stdField])
        · simp only [depthVal, depthVals_str]
  | empty =>
    cases h
    obtain ⟨md, hC⟩ := confMsg_iff.1 hc
    have hd := hC.desc
    cases hd
    refine ⟨[], rfl, near_alike hC (fun g hg' => ?_), by simp [depthSlots]⟩
    have := (getField_mem hg').1
    cases this
  | struct =>
    obtain ⟨gs, es, rfl, h1, h2⟩ := struct_reads (value_reads env k K hk) hc hg.2 h
    exact ⟨gs, h1, h2⟩
  | list =>
    obtain ⟨gs, es, rfl, h1, h2⟩ := list_reads (value_reads env k K hk) hc hg.2 h
    exact ⟨gs, h1, h2⟩
  | value =>
    obtain ⟨y, h1, h2, h3⟩ := value_reads env (k + 1) (K + 1) (by omega) _ _ ⟨fs, rfl, hc⟩ hg h
    obtain ⟨gs, rfl, -⟩ := (deValue_sound (st := false) env (K + 1) j nofun).ok h1
    refine ⟨gs, by simp only [deStd, h1, fieldsOf], h2, ?_⟩
    simp only [depthVal] at h3
    omega

/-! ### Depth of the canonical form -/

mutual
theorem depthVal_canon {S : Schema} (hP : MapsPresent S) : (v : Value) → (f : FieldDesc) → confVal S f v = true →
    depthVal (canonVal S f v) ≤ depthVal v
  | .msg d fs, f, h => by
    simp only [confVal, Bool.and_eq_true] at h
    have := depthSlots_canon hP fs d h.2.2
    simp only [canonVal, depthVal]
    omega
  | .list vs, f, h => by
    simp only [confVal, Bool.and_eq_true] at h
    simp only [canonVal, depthVal]
    exact depthVals_canon hP vs f.elem h.2
  | .map kvs, f, h => by
    simp only [confVal, Bool.and_eq_true] at h
    cases hk : f.kind with
    | message i =>
      cases hkv : S.mapKV i with
      | none => simp [canonVal, hk, hkv]
      | some p =>
        obtain ⟨kd, vd⟩ := p
        have h2 := h.2
        have h1 := h.1
        simp only [hk, hkv, Bool.and_eq_true] at h2
        simp only [isMap, hk, Bool.and_eq_true] at h1
        simp only [canonVal, hk, hkv, depthVal]
        exact depthMap_canon hP kvs kd vd (hP h1.2 hkv) h2.2
    | _ => simp [canonVal, hk]
  | .bool _, _, _ => by simp only [canonVal]; exact Nat.le_refl _
  | .i32 _, _, _ => by simp only [canonVal]; exact Nat.le_refl _
  | .i64 _, _, _ => by simp only [canonVal]; exact Nat.le_refl _
  | .u32 _, _, _ => by simp only [canonVal]; exact Nat.le_refl _
  | .u64 _, _, _ => by simp only [canonVal]; exact Nat.le_refl _
  | .f32 _, _, _ => by simp only [canonVal]; exact Nat.le_refl _
  | .f64 _, _, _ => by simp only [canonVal]; exact Nat.le_refl _
  | .str _, _, _ => by simp only [canonVal]; exact Nat.le_refl _
  | .bytes _, _, _ => by simp only [canonVal]; exact Nat.le_refl _
  | .enum _, _, _ => by simp only [canonVal]; exact Nat.le_refl _
theorem depthVals_canon {S : Schema} (hP : MapsPresent S) : (vs : List Value) → (f : FieldDesc) →
    confVals S f vs = true → depthVals (canonVals S f vs) ≤ depthVals vs
  | [], _, _ => Nat.le_refl _
  | v :: r, f, h => by
    simp only [confVals, Bool.and_eq_true] at h
    have h1 := depthVal_canon hP v f h.1
    have h2 := depthVals_canon hP r f h.2
    simp only [canonVals, depthVals]
    omega
theorem depthMap_canon {S : Schema} (hP : MapsPresent S) : (kvs : List (MapKey × Value)) → (kd vd : FieldDesc) →
    vd.presence = true → confMap S kd vd kvs = true → depthMap (canonMap S vd kvs) ≤ depthMap kvs
  | [], _, _, _, _ => Nat.le_refl _
  | (k, v) :: r, kd, vd, hp, h => by
    simp only [confMap, Bool.and_eq_true] at h
    have h1 := depthVal_canon hP v vd h.1.2
    have h2 := depthMap_canon hP r kd vd hp h.2
    have h3 : hasVal S vd v = some true := by simp [hasVal, hp]
    simp only [canonMap, depthMap, h3, if_true]
    omega
theorem depthSlots_canon {S : Schema} (hP : MapsPresent S) : (fs : List (Nat × Slot)) → (d : Nat) →
    confSlots S d fs = true → depthSlots (canonSlots S d fs) ≤ depthSlots fs
  | [], _, _ => Nat.le_refl _
  | (n, .taken) :: r, d, h => by
    simp only [confSlots] at h
    have := depthSlots_canon hP r d h
    simpa only [canonSlots, depthSlots] using this
  | (n, .unknown u) :: r, d, h => by
    simp only [confSlots, Bool.and_eq_true] at h
    have := depthSlots_canon hP r d h.2
    simp only [canonSlots, depthSlots]
    omega
  | (n, .val v) :: r, d, h => by
    simp only [confSlots, Bool.and_eq_true] at h
    have ih := depthSlots_canon hP r d h.2
    have hv := depthVal_canon hP v
    have h1 := h.1
    simp only [canonSlots, depthSlots]
    split
    · rename_i f hf
      rw [hf] at h1
      have := hv f h1
      split
      · simp only [depthSlots]; omega
      · omega
    · rename_i hf
      rw [hf] at h1
      split
      · rename_i f hfe
        rw [hfe] at h1
        have := hv f h1
        split
        · simp only [depthSlots]; omega
        · omega
      · omega
end

/-! ### Levels of the canonical form -/

mutual
theorem levelsVal_canon {S : Schema} (hP : MapsPresent S) : (v : Value) → (f : FieldDesc) → confVal S f v = true →
    levelsVal (canonVal S f v) ≤ levelsVal v
  | .msg d fs, f, h => by
    simp only [confVal, Bool.and_eq_true] at h
    have := levelsSlots_canon hP fs d h.2.2
    simp only [canonVal, levelsVal]
    omega
  | .list vs, f, h => by
    simp only [confVal, Bool.and_eq_true] at h
    simp only [canonVal, levelsVal]
    exact levelsVals_canon hP vs f.elem h.2
  | .map kvs, f, h => by
    simp only [confVal, Bool.and_eq_true] at h
    cases hk : f.kind with
    | message i =>
      cases hkv : S.mapKV i with
      | none => simp [canonVal, hk, hkv]
      | some p =>
        obtain ⟨kd, vd⟩ := p
        have h2 := h.2
        have h1 := h.1
        simp only [hk, hkv, Bool.and_eq_true] at h2
        simp only [isMap, hk, Bool.and_eq_true] at h1
        simp only [canonVal, hk, hkv, levelsVal]
        exact levelsMap_canon hP kvs kd vd (hP h1.2 hkv) h2.2
    | _ => simp [canonVal, hk]
  | .bool _, _, _ => by simp only [canonVal]; exact Nat.le_refl _
  | .i32 _, _, _ => by simp only [canonVal]; exact Nat.le_refl _
  | .i64 _, _, _ => by simp only [canonVal]; exact Nat.le_refl _
  | .u32 _, _, _ => by simp only [canonVal]; exact Nat.le_refl _
  | .u64 _, _, _ => by simp only [canonVal]; exact Nat.le_refl _
  | .f32 _, _, _ => by simp only [canonVal]; exact Nat.le_refl _
  | .f64 _, _, _ => by simp only [canonVal]; exact Nat.le_refl _
  | .str _, _, _ => by simp only [canonVal]; exact Nat.le_refl _
  | .bytes _, _, _ => by simp only [canonVal]; exact Nat.le_refl _
  | .enum _, _, _ => by simp only [canonVal]; exact Nat.le_refl _
theorem levelsVals_canon {S : Schema} (hP : MapsPresent S) : (vs : List Value) → (f : FieldDesc) →
    confVals S f vs = true → levelsVals (canonVals S f vs) ≤ levelsVals vs
  | [], _, _ => Nat.le_refl _
  | v :: r, f, h => by
    simp only [confVals, Bool.and_eq_true] at h
    have h1 := levelsVal_canon hP v f h.1
    have h2 := levelsVals_canon hP r f h.2
    simp only [canonVals, levelsVals]
    omega
theorem levelsMap_canon {S : Schema} (hP : MapsPresent S) : (kvs : List (MapKey × Value)) → (kd vd : FieldDesc) →
    vd.presence = true → confMap S kd vd kvs = true → levelsMap (canonMap S vd kvs) ≤ levelsMap kvs
  | [], _, _, _, _ => Nat.le_refl _
  | (k, v) :: r, kd, vd, hp, h => by
    simp only [confMap, Bool.and_eq_true] at h
    have h1 := levelsVal_canon hP v vd h.1.2
    have h2 := levelsMap_canon hP r kd vd hp h.2
    have h3 : hasVal S vd v = some true := by simp [hasVal, hp]
    simp only [canonMap, levelsMap, h3, if_true]
    omega
theorem levelsSlots_canon {S : Schema} (hP : MapsPresent S) : (fs : List (Nat × Slot)) → (d : Nat) →
    confSlots S d fs = true → levelsSlots (canonSlots S d fs) ≤ levelsSlots fs
  | [], _, _ => Nat.le_refl _
  | (n, .taken) :: r, d, h => by
    simp only [confSlots] at h
    have := levelsSlots_canon hP r d h
    simpa only [canonSlots, levelsSlots] using this
  | (n, .unknown u) :: r, d, h => by
    simp only [confSlots, Bool.and_eq_true] at h
    have := levelsSlots_canon hP r d h.2
    simp only [canonSlots, levelsSlots]
    omega
  | (n, .val v) :: r, d, h => by
    simp only [confSlots, Bool.and_eq_true] at h
    have ih := levelsSlots_canon hP r d h.2
    have hv := levelsVal_canon hP v
    have h1 := h.1
    simp only [canonSlots, levelsSlots]
    split
    · rename_i f hf
      rw [hf] at h1
      have := hv f h1
      split
      · simp only [levelsSlots]; omega
      · omega
    · rename_i hf
      rw [hf] at h1
      split
      · rename_i f hfe
        rw [hfe] at h1
        have := hv f h1
        split
        · simp only [levelsSlots]; omega
        · omega
      · omega
end

/-! ### Levels -/

mutual
theorem levelsVal_ren (ρ : Nat → Nat) : (v : Value) → levelsVal (renVal ρ v) = levelsVal v
  | .msg d fs => by simp only [renVal, levelsVal, levelsSlots_ren ρ fs]
  | .list vs => by simp only [renVal, levelsVal, levelsVals_ren ρ vs]
  | .map kvs => by simp only [renVal, levelsVal, levelsMap_ren ρ kvs]
  | .bool _ | .i32 _ | .i64 _ | .u32 _ | .u64 _ | .f32 _ | .f64 _ | .str _ | .bytes _ | .enum _ => by
    simp only [renVal]
theorem levelsVals_ren (ρ : Nat → Nat) : (vs : List Value) → levelsVals (renVals ρ vs) = levelsVals vs
  | [] => rfl
  | v :: r => by simp only [renVals, levelsVals, levelsVal_ren ρ v, levelsVals_ren ρ r]
theorem levelsMap_ren (ρ : Nat → Nat) : (kvs : List (MapKey × Value)) → levelsMap (renMap ρ kvs) = levelsMap kvs
  | [] => rfl
  | (k, v) :: r => by simp only [renMap, levelsMap, levelsVal_ren ρ v, levelsMap_ren ρ r]
theorem levelsSlots_ren (ρ : Nat → Nat) : (fs : List (Nat × Slot)) → levelsSlots (renSlots ρ fs) = levelsSlots fs
  | [] => rfl
  | (_, .taken) :: r => by simp only [renSlots, levelsSlots, levelsSlots_ren ρ r]
  | (_, .unknown _) :: r => by simp only [renSlots, levelsSlots, levelsSlots_ren ρ r]
  | (_, .val v) :: r => by simp only [renSlots, levelsSlots, levelsVal_ren ρ v, levelsSlots_ren ρ r]
end

/-! ### Levels are no fewer than the nesting of messages -/

mutual
theorem depthVal_levels : (v : Value) → depthVal v ≤ levelsVal v
  | .msg d fs => by have := depthSlots_levels fs; simp only [depthVal, levelsVal]; omega
  | .list vs => by simp only [depthVal, levelsVal]; exact depthVals_levels vs
  | .map kvs => by simp only [depthVal, levelsVal]; exact depthMap_levels kvs
  | .bool _ | .i32 _ | .i64 _ | .u32 _ | .u64 _ | .f32 _ | .f64 _ | .str _ | .bytes _ | .enum _ => Nat.le_refl _
theorem depthVals_levels : (vs : List Value) → depthVals vs ≤ levelsVals vs
  | [] => Nat.le_refl _
  | v :: r => by
    have h1 := depthVal_levels v
    have h2 := depthVals_levels r
    simp only [depthVals, levelsVals]; omega
theorem depthMap_levels : (kvs : List (MapKey × Value)) → depthMap kvs ≤ levelsMap kvs
  | [] => Nat.le_refl _
  | (k, v) :: r => by
    have h1 := depthVal_levels v
    have h2 := depthMap_levels r
    simp only [depthMap, levelsMap]; omega
theorem depthSlots_levels : (fs : List (Nat × Slot)) → depthSlots fs ≤ levelsSlots fs
  | [] => Nat.le_refl _
  | (_, .taken) :: r => by simp only [depthSlots, levelsSlots]; exact depthSlots_levels r
  | (_, .unknown _) :: r => by have := depthSlots_levels r; simp only [depthSlots, levelsSlots]; omega
  | (_, .val v) :: r => by
    have h1 := depthVal_levels v
    have h2 := depthSlots_levels r
    simp only [depthSlots, levelsSlots]; omega
end

/-! ### Through the built-in types and back -/

/-- The well-known types of the schema are declared as the built-in ones are. -/
def StdLike (S : Schema) : Prop :=
  ∀ d md w, S.msg? d = some md → wkt? md.name = some w →
    ∃ (ρ σ : Nat → Nat) (I J : Nat → Prop), Emb S stdSchema ρ I ∧ Emb stdSchema S σ J ∧ I d ∧ ρ d = w.std ∧
      J w.std ∧ ∀ d, I d → σ (ρ d) = d

/-- What is asked of a message of a well-known type: it nests within the decoder's limit, its
encoding and the one of the message read have a size, and JSON keeps it. -/
structure WktOk (env : JEnv) (S : Schema) (so : SOpts) (m : DynMsg) : Prop where
  depth : ∀ md w, S.msg? m.desc = some md → wkt? md.name = some w → levelsSlots m.fields ≤ recursionLimit
  size : ∀ md w b, S.msg? m.desc = some md → wkt? md.name = some w → encMsg S m = some b → b.length < 2 ^ 64
  keeps : ∀ md w fs, S.msg? m.desc = some md → wkt? md.name = some w → transcodeTo S w m = .ok fs → Keeps w fs
  size' : ∀ md w fs, S.msg? m.desc = some md → wkt? md.name = some w → transcodeTo S w m = .ok fs →
    ∀ k K j gs b, serStd env so k fs w = .ok j → deStd env K j w = .ok gs →
      encMsg stdSchema ⟨w.std, gs⟩ = some b → b.length < 2 ^ 64

theorem conf_encodes {S : Schema} (hS : S.wf = true) {m : DynMsg} (h : confMsg S m = true) :
    ∃ b, encMsg S m = some b := (encMsg_total hS m (confMsg_accepted hS h)).1

theorem inside_msg {S : Schema} {I : Nat → Prop} {m : DynMsg} (hd : I m.desc) (h : confMsg S m = true) :
    Inside S I m.toValue :=
  ⟨plainField (.message m.desc), fun i hi => by cases hi; exact hd, confVal_msg (m := m) nofun rfl h⟩

/-- A message of a well-known type reads back. -/
theorem leaf_one {env : JEnv} {S : Schema} {so : SOpts} (o : DOpts) (hS : S.wf = true) (hL : StdLike S)
    (hF : JFloatSpec env) (hT : JTimeSpec env) {m : DynMsg} {md : MsgDesc} {k K : Nat} {j : Json}
    (hmd : S.msg? m.desc = some md) (hw : (wkt? md.name).isSome = true) (hc : confMsg S m = true)
    (hP : WktOk env S so m) (hkK : k ≤ K) (hj : toJson env S so k m = .ok j) :
    ∃ m', fromJson env S o K m.desc j = .ok m' ∧ m'.desc = m.desc ∧ AlikeMsg S m m' ∧ confMsg S m' = true := by
  obtain ⟨w, hw⟩ := Option.isSome_iff_exists.1 hw
  obtain ⟨b, hb⟩ := conf_encodes hS hc
  have hsz := hP.size md w b hmd hw hb
  have hlev := hP.depth md w hmd hw
  have hdep : depthMsg m ≤ recursionLimit := Nat.le_trans (depthSlots_levels _) hlev
  by_cases hany : w = .any
  · subst hany
    simp only [toJson, serMsg, hmd, hw, serAny] at hj
    cases ht : transcodeTo S .any m with
    | error e => rw [ht] at hj; cases hj
    | ok fs => exact (hP.keeps md .any fs hmd hw ht).elim
  obtain ⟨ρ, σ, I, J, hρ, hσ, hI, hd, hJ, hback⟩ := hL m.desc md w hmd hw
  have hc1 := confMsg_ren hρ hI hc
  have hb1 := encMsg_ren hρ hI hc
  have hdep1 : depthMsg (renMsg ρ m) = depthMsg m := by
    simp only [depthMsg, renMsg, depthSlots_ren]
  obtain ⟨hdec, hc2⟩ := decode_encMsg stdSchema_wf hc1 (by omega) (hb1.trans hb) hsz
  have hdesc1 : (renMsg ρ m).desc = w.std := hd
  rw [hdesc1] at hdec
  have htr : transcodeTo S w m = .ok (canonMsg stdSchema (renMsg ρ m)).fields := by
    have hl : levelsSlots (canonMsg stdSchema (renMsg ρ m)).fields ≤ recursionLimit := by
      have hc1' := hc1
      simp only [confMsg, Bool.and_eq_true] at hc1'
      refine Nat.le_trans (levelsSlots_canon std_mapsPresent _ _ hc1'.2) ?_
      simp only [renMsg, levelsSlots_ren]
      exact hlev
    simp only [transcodeTo, hb, hdec, ofDecode, if_pos hl]
  have hfs : canonMsg stdSchema (renMsg ρ m) = ⟨w.std, (canonMsg stdSchema (renMsg ρ m)).fields⟩ := by
    rw [← hd]; rfl
  generalize hg : (canonMsg stdSchema (renMsg ρ m)).fields = fs at htr hfs
  have hser : serStd env so k fs w = .ok j := by
    simp only [toJson, serMsg, hmd, hw] at hj
    cases w <;> first | exact absurd rfl hany | (simpa only [htr] using hj) | exact hj
  rw [hfs] at hc2
  obtain ⟨gs, hde, hmid⟩ := std_reads hF hT hc2 (hP.keeps md w fs hmd hw htr) hkK hser
  have hc3 : confMsg stdSchema ⟨w.std, gs⟩ = true := (deStd_sound (st := false) env K j nofun w hany).ok hde
  obtain ⟨b', hb'⟩ := conf_encodes stdSchema_wf hc3
  have hsz' := hP.size' md w fs hmd hw htr k K j gs b' hser hde hb'
  have hb2 := encMsg_ren hσ (m := ⟨w.std, gs⟩) hJ hc3
  have hc4 := confMsg_ren hσ (m := ⟨w.std, gs⟩) hJ hc3
  have hdep2 : depthMsg (renMsg σ ⟨w.std, gs⟩) ≤ recursionLimit := by
    have h1 := hmid.depth
    have h2 : depthSlots fs ≤ depthSlots (renMsg ρ m).fields := by
      rw [← hg]
      simp only [confMsg, Bool.and_eq_true] at hc1
      exact depthSlots_canon std_mapsPresent _ _ hc1.2
    simp only [depthMsg, renMsg, depthSlots_ren] at hdep hdep1 h2 ⊢
    omega
  obtain ⟨hdec', hc5⟩ := decode_encMsg hS hc4 hdep2 (hb2.trans hb') hsz'
  have hdesc2 : (renMsg σ ⟨w.std, gs⟩).desc = m.desc := by
    show σ w.std = m.desc
    rw [← hd]
    exact hback _ hI
  rw [hdesc2] at hdec'
  refine ⟨canonMsg S (renMsg σ ⟨w.std, gs⟩), ?_, hdesc2, ?_, hc5⟩
  · have hmake : makeMsg S m.desc w gs = .ok (canonMsg S (renMsg σ ⟨w.std, gs⟩)) := by
      simp only [makeMsg, hb', hdec']
      rfl
    simp only [fromJson, deMsg, hmd, hw]
    cases w <;> first | exact absurd rfl hany | simp only [hde, hmake]
  · have h1 : Alike stdSchema (renMsg ρ m).toValue (.msg w.std fs) := by
      have := alikeMsg_canon stdSchema_wf std_mapsPresent hc1
      rw [hfs] at this
      exact this
    have h2 : Alike stdSchema (.msg w.std gs) (canonMsg stdSchema ⟨w.std, gs⟩).toValue :=
      alikeMsg_canon stdSchema_wf std_mapsPresent (m := ⟨w.std, gs⟩) hc3
    have h3 := (h1.trans hmid.alike).trans h2
    obtain ⟨bc, hbc⟩ := decode_encMsg stdSchema_wf hc3 (by
      have h1 := hdep2
      simp only [depthMsg, renMsg, depthSlots_ren] at h1 ⊢
      exact h1) hb' hsz'
    have h4 := alike_ren hσ h3 (inside_msg (by rw [hdesc1]; exact hJ) hc1) (inside_msg hJ hbc)
    have e1 : renVal σ (renMsg ρ m).toValue = m.toValue := by
      have := renMsg_back hρ hback hI hc
      rw [← congrArg DynMsg.toValue this]
      simp only [DynMsg.toValue, renMsg, renVal]
    have e2 : renVal σ (canonMsg stdSchema ⟨w.std, gs⟩).toValue = (canonMsg S (renMsg σ ⟨w.std, gs⟩)).toValue := by
      rw [canonMsg_ren hσ (m := ⟨w.std, gs⟩) hJ hc3]
      simp only [DynMsg.toValue, renMsg, renVal]
    rw [e1, e2] at h4
    exact h4

theorem leaf_std {env : JEnv} {S : Schema} {so : SOpts} {pay : Payloads} (o : DOpts) (hS : S.wf = true) (hL : StdLike S)
    (hF : JFloatSpec env) (hT : JTimeSpec env) : LeafOk env S so o (WktOk env S so) pay := by
  intro m md k K j hmd hw hc hP _ hkK hj
  obtain ⟨m', h1, h2, h3, h4⟩ := leaf_one o hS hL hF hT hmd hw hc hP hkK hj
  exact ⟨m', h1, h2, h3.by, h4⟩

end Verif.Json
