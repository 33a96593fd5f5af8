import Verif.Json.RoundScalar
import Verif.Json.SerSafe
import Verif.Text.RoundMsg
import Verif.Dyn.DecEq
/-!
Written JSON reads back alike: values, maps and messages, by induction on the depth.  The
well-known types enter through `LeafOk`.
-/
set_option autoImplicit false
namespace Verif.Json
open Verif.Wire Verif.Dyn Verif.Pool
open Verif.Text (Pairs Upd Free anyHas oneofMembers alike_map keyKind)
open Verif.Props (except_map_ok)

instance (md : MsgDesc) : Decidable (UniqueNames md) := by unfold UniqueNames; infer_instance
instance (md : MsgDesc) : Decidable (NoCross md) := by unfold NoCross; infer_instance

/-- Not of type `google.protobuf.NullValue`. -/
def plainKind (S : Schema) : Kind → Bool
  | .enum e =>
    match S.enums[e]? with
    | some ed => ed.name != nullName
    | none => false
  | _ => true

/-- The names of the extensions are told apart from each other and from the fields. -/
def extNames (md : MsgDesc) : Bool :=
  decide (md.extensions.map (·.jsonName)).Nodup &&
    md.extensions.all (fun e => md.fields.all (fun f => f.name != e.jsonName && f.jsonName != e.jsonName))

/-- What the JSON round trip needs of an ordinary message type. -/
def jsonMsg (S : Schema) (md : MsgDesc) : Bool :=
  decide (UniqueNames md) && extNames md && plainDefaults md &&
    (md.fields ++ md.extensions).all (fun f => plainKind S f.kind)

/-- What the JSON round trip needs of a schema: names that can be told apart, no field
without presence that has a default value of its own, no field of type `NullValue`. -/
def jsonWf (S : Schema) : Bool :=
  S.enums.all (fun ed => decide (ed.values.map (·.1)).Nodup) &&
    S.msgs.all (fun md =>
      if (wkt? md.name).isSome then !md.mapEntry else jsonMsg S md)

/-- What writing the declared names of fields needs besides: none of them is the JSON name of another
field. -/
def namesApart (S : Schema) : Bool := S.msgs.all (fun md => (wkt? md.name).isSome || decide (NoCross md))

structure JsonMsg (S : Schema) (md : MsgDesc) : Prop where
  unique : UniqueNames md
  extNodup : (md.extensions.map (·.jsonName)).Nodup
  extNew : ∀ e ∈ md.extensions, ∀ f ∈ md.fields, f.name ≠ e.jsonName ∧ f.jsonName ≠ e.jsonName
  plain : plainDefaults md = true
  kinds : ∀ f, f ∈ md.fields ∨ f ∈ md.extensions → plainKind S f.kind = true

theorem jsonMsg_iff {S : Schema} {md : MsgDesc} (h : jsonMsg S md = true) : JsonMsg S md := by
  simp only [jsonMsg, extNames, Bool.and_eq_true, decide_eq_true_eq, List.all_eq_true, bne_iff_ne] at h
  exact ⟨h.1.1.1, h.1.1.2.1, h.1.1.2.2, h.1.2, fun f hf => h.2 f (List.mem_append.2 hf)⟩

theorem jsonWf_msg {S : Schema} (h : jsonWf S = true) {d : Nat} {md : MsgDesc} (hd : S.msg? d = some md)
    (hw : wkt? md.name = none) : JsonMsg S md := by
  simp only [jsonWf, Bool.and_eq_true] at h
  have := List.all_eq_true.1 h.2 md (List.mem_of_getElem? hd)
  simp only [hw] at this
  exact jsonMsg_iff this

theorem jsonWf_entry {S : Schema} (h : jsonWf S = true) {d : Nat} {md : MsgDesc} (hd : S.msg? d = some md)
    (hm : md.mapEntry = true) : wkt? md.name = none := by
  simp only [jsonWf, Bool.and_eq_true] at h
  have := List.all_eq_true.1 h.2 md (List.mem_of_getElem? hd)
  rw [hm] at this
  cases hw : wkt? md.name with
  | none => rfl
  | some w => rw [hw] at this; cases this

theorem jsonWf_enum {S : Schema} (h : jsonWf S = true) {e : Nat} {ed : EnumDesc}
    (he : S.enums[e]? = some ed) : (ed.values.map (·.1)).Nodup := by
  simp only [jsonWf, Bool.and_eq_true] at h
  have := List.all_eq_true.1 h.1 ed (List.mem_of_getElem? he)
  simpa using this

/-! ### What is asked of the values -/

theorem scalarKeep_of {P : DynMsg → Prop} {v : Value} (h : keepVal f32Ok P v) : scalarKeep v := by
  cases v <;> first | exact h | trivial

theorem mapE_pairs {α β : Type} {f : α → Except JErr β} : ∀ {xs : List α} {ys : List β},
    mapE f xs = .ok ys → Pairs (fun a b => f a = .ok b) xs ys := by
  intro xs
  induction xs with
  | nil => intro ys h; cases h; exact .nil
  | cons a r ih =>
    intro ys h
    simp only [mapE] at h
    cases ha : f a with
    | error e => simp [ha] at h
    | ok b =>
      cases hr : mapE f r with
      | error e => simp [ha, hr] at h
      | ok bs =>
        simp only [ha, hr, Except.ok.injEq] at h
        subst h
        exact .cons ha (ih hr)

/-- Elements that read back are read in order. -/
theorem mapE_reads {α β γ : Type} {R : α → β → Prop} {Q : α → γ → Prop} {g : β → Except JErr (Option γ)}
    {xs : List α} {ys : List β} (h : Pairs R xs ys)
    (hr : ∀ a ∈ xs, ∀ b, R a b → ∃ c, g b = .ok (some c) ∧ Q a c) :
    ∃ zs, mapE g ys = .ok (zs.map some) ∧ Pairs Q xs zs := by
  induction h with
  | nil => exact ⟨[], rfl, .nil⟩
  | cons h t ih =>
    obtain ⟨zs, h1, h2⟩ := ih (fun a ha => hr a (List.mem_cons_of_mem _ ha))
    obtain ⟨c, h3, h4⟩ := hr _ (by simp) _ h
    exact ⟨c :: zs, by simp only [mapE, h3, h1, List.map_cons], .cons h4 h2⟩

theorem filterMap_somes {α : Type} (xs : List α) : (xs.map some).filterMap id = xs := by
  induction xs with
  | nil => rfl
  | cons a r ih => simp

theorem distinct_ne {k : MapKey} {kvs : List (MapKey × Value)} (h : KMap.get? kvs k = none) :
    ∀ p ∈ kvs, p.1 ≠ k := by
  induction kvs with
  | nil => intro p hp; cases hp
  | cons q l ih =>
    obtain ⟨qk, qv⟩ := q
    simp only [KMap.get?] at h
    split at h
    · cases h
    · rename_i hq
      intro p hp
      rcases List.mem_cons.1 hp with rfl | hp
      · exact hq
      · exact ih h p hp

/-- Map entries that read back are stored in order. -/
theorem deMap_reads {key : List Char → Except JErr MapKey} {val : Json → Except JErr (Option Value)}
    {Q : Value → Value → Prop} {kvs : List (MapKey × Value)} {es : List (List Char × Json)}
    (h : Pairs (fun p e => key e.1 = .ok p.1 ∧ ∃ w, val e.2 = .ok (some w) ∧ Q p.2 w) kvs es) :
    KMap.distinct kvs = true → ∀ (acc : List (MapKey × Value)), (∀ p ∈ kvs, KMap.get? acc p.1 = none) →
      ∃ kws, deMap key val acc es = .ok (acc ++ kws) ∧ Pairs (fun p q => p.1 = q.1 ∧ Q p.2 q.2) kvs kws := by
  induction h with
  | nil => intro _ acc _; exact ⟨[], by simp [deMap], .nil⟩
  | cons ha t ih =>
    rename_i p e kvs es
    intro hd acc hf
    obtain ⟨k, v⟩ := p
    obtain ⟨s, j⟩ := e
    obtain ⟨h1, w, h2, h3⟩ := ha
    simp only at h1 h2 h3
    simp only [KMap.distinct, Bool.and_eq_true, Option.isNone_iff_eq_none] at hd
    have hk : KMap.get? acc k = none := hf (k, v) (by simp)
    have hne := distinct_ne hd.1
    obtain ⟨kws, h4, h5⟩ := ih hd.2 (acc ++ [(k, w)]) (fun p hp => by
      rw [KMap.get?_append, hf p (List.mem_cons_of_mem _ hp)]
      simp [KMap.get?, (hne p hp).symm])
    refine ⟨(k, w) :: kws, ?_, .cons ⟨rfl, h3⟩ h5⟩
    simp only [deMap, h1, h2, KMap.insert_fresh hk, h4]
    simp

theorem pairs_distinct {Q : Value → Value → Prop} {kvs kws : List (MapKey × Value)}
    (h : Pairs (fun p q => p.1 = q.1 ∧ Q p.2 q.2) kvs kws) :
    (∀ k, (KMap.get? kws k).isNone = (KMap.get? kvs k).isNone) ∧ KMap.distinct kws = KMap.distinct kvs := by
  induction h with
  | nil => exact ⟨fun _ => rfl, rfl⟩
  | cons h t ih =>
    rename_i p q _ _
    obtain ⟨pk, pv⟩ := p
    obtain ⟨qk, qv⟩ := q
    obtain ⟨rfl, -⟩ := h
    refine ⟨fun k => ?_, ?_⟩
    · simp only [KMap.get?]
      split
      · rfl
      · exact ih.1 k
    · simp only [KMap.distinct, ih.1, ih.2]

theorem pairs_conf {S : Schema} {kd vd : FieldDesc} {Q : Value → Value → Prop} {kvs kws : List (MapKey × Value)}
    (h : Pairs (fun p q => p.1 = q.1 ∧ (Q p.2 q.2 ∧ confVal S vd q.2 = true)) kvs kws) :
    confMap S kd vd kvs = true → confMap S kd vd kws = true := by
  induction h with
  | nil => exact id
  | cons h t ih =>
    rename_i p q _ _
    obtain ⟨pk, pv⟩ := p
    obtain ⟨qk, qv⟩ := q
    obtain ⟨rfl, -, h2⟩ := h
    simp only [confMap, Bool.and_eq_true]
    exact fun hc => ⟨⟨hc.1.1, h2⟩, ih hc.2⟩

/-! ### The induction -/

section
variable {env : JEnv} {S : Schema} {so : SOpts} {o : DOpts} {P : DynMsg → Prop} {pay : Payloads}

/-- Well-known types that satisfy `P` read back. -/
def LeafOk (env : JEnv) (S : Schema) (so : SOpts) (o : DOpts) (P : DynMsg → Prop) (pay : Payloads) : Prop :=
  ∀ (m : DynMsg) (md : MsgDesc) (k K : Nat) (j : Json), S.msg? m.desc = some md → (wkt? md.name).isSome = true →
    confMsg S m = true → P m → keepSlots f32Ok P m.fields → k ≤ K → toJson env S so k m = .ok j →
    ∃ m', fromJson env S o K m.desc j = .ok m' ∧ m'.desc = m.desc ∧ AlikeMsgBy S pay m m' ∧ confMsg S m' = true

/-- Under what conditions JSON round-trips. -/
structure JCtx (env : JEnv) (S : Schema) (so : SOpts) (o : DOpts) (P : DynMsg → Prop) (pay : Payloads) : Prop where
  wf : S.wf = true
  names : jsonWf S = true
  apart : so.protoNames = true → namesApart S = true
  floats : JFloatSpec env
  enums : JNamesEnums env
  leaf : LeafOk env S so o P pay

/-- Values of singular fields written at depth `k` read back. -/
def JValOk (env : JEnv) (S : Schema) (so : SOpts) (o : DOpts) (P : DynMsg → Prop) (pay : Payloads) (k : Nat) : Prop :=
  ∀ (f : FieldDesc) (v : Value) (j : Json), f.card ≠ .repeated → kindOk S f.kind = true →
    plainKind S f.kind = true → confVal S f v = true → keepVal f32Ok P v → serVal env S so k f.kind v = .ok j →
    ∀ K, k ≤ K + 1 → ∃ w, deKind env S o K (deVal env S o K) f.kind j = .ok (some w) ∧ AlikeBy S pay v w ∧
      confVal S f w = true

theorem deVal_single {K : Nat} {f : FieldDesc} (hc : f.card ≠ .repeated) (j : Json) :
    deVal env S o (K + 1) f j = deKind env S o K (deVal env S o K) f.kind j := by
  unfold deVal
  rw [if_neg (by rw [isList_of_ne hc]; decide), if_neg (by rw [isMap_of_ne hc]; decide)]

/-- A value of a field of any cardinality reads back. -/
theorem field_reads (hX : JCtx env S so o P pay) {k : Nat} (hV : ∀ j ≤ k, JValOk env S so o P pay j)
    {f : FieldDesc} (hf : FieldWf S f) (hp : plainKind S f.kind = true) {v : Value}
    (hc : confVal S f v = true) (hk : keepVal f32Ok P v) {j : Json} (hs : serVal env S so k f.kind v = .ok j)
    {K : Nat} (hK : k ≤ K) :
    ∃ w, deVal env S o K f j = .ok (some w) ∧ AlikeBy S pay v w ∧ confVal S f w = true := by
  cases k with
  | zero => cases hs
  | succ k =>
  cases K with
  | zero => omega
  | succ K =>
  by_cases hcard : f.card = .repeated
  · cases v with
    | list vs =>
      simp only [confVal, Bool.and_eq_true] at hc
      simp only [serVal] at hs
      obtain ⟨ys, hys, rfl⟩ := except_map_ok.1 hs
      obtain ⟨zs, h1, h2⟩ := mapE_reads (g := deKind env S o K (deVal env S o K) f.kind)
        (Q := fun v w => AlikeBy S pay v w ∧ confVal S f.elem w = true) (mapE_pairs hys) (fun a ha b hb =>
          hV k (by omega) f.elem a b elem_card hf.kind hp ((confVals_iff vs).1 hc.2 a ha)
            (keepVals_mem hk ha) hb K (by omega))
      refine ⟨.list zs, ?_, .list h2.length (fun i v w a b => (h2.get i v w a b).1), ?_⟩
      · unfold deVal
        rw [if_pos hc.1]
        simp only [h1, Except.map, filterMap_somes]
      · simp only [confVal, Bool.and_eq_true]
        refine ⟨hc.1, (confVals_iff zs).2 (fun w hw => ?_)⟩
        obtain ⟨i, hi⟩ := List.mem_iff_getElem?.1 hw
        have hlt : i < vs.length := by
          rw [h2.length]; exact (List.getElem?_eq_some_iff.1 hi).1
        exact (h2.get i _ w (List.getElem?_eq_getElem hlt) hi).2
    | map kvs =>
      have hc0 := hc
      simp only [confVal, Bool.and_eq_true] at hc
      obtain ⟨-, i, hki, hme⟩ := isMap_iff.1 hc.1
      obtain ⟨kd, vd, hE⟩ := Schema.wf_entry hX.wf hme
      have hc2 := hc.2
      simp only [hki, hE.kv, Bool.and_eq_true] at hc2
      simp only [serVal, hki, mapKind_eq hE hme] at hs
      obtain ⟨es, hes, rfl⟩ := except_map_ok.1 hs
      have hmd : ∃ md, S.msg? i = some md ∧ md.mapEntry = true := by
        unfold Schema.isMapEntry at hme
        cases hmd : S.msg? i with
        | none => rw [hmd] at hme; cases hme
        | some md => rw [hmd] at hme; exact ⟨md, rfl, hme⟩
      obtain ⟨md, hmd, hme'⟩ := hmd
      have hJ := jsonWf_msg hX.names hmd (jsonWf_entry hX.names hmd hme')
      have hvd : vd ∈ md.fields := by
        have := (mapKV_some hE.kv).2
        rw [field?_eq hmd] at this; exact (getField_mem this).1
      obtain ⟨hvw, -, hvc⟩ := hE.val
      cases K with
      | zero =>
        have : k = 0 := by omega
        subst this
        cases kvs with
        | nil =>
          cases hes
          refine ⟨.map [], ?_, .refl _, hc0⟩
          unfold deVal
          rw [if_neg (by rw [isList, hc.1]; simp), if_pos hc.1]
          simp only [hki, hE.kv]
          rfl
        | cons p r =>
          exfalso
          simp only [mapE, serEntry, serVal] at hes
          cases hk0 : serKey p.1 <;> simp [hk0] at hes
      | succ K =>
      have hp2 : Pairs (fun p e => deKey kd.kind e.1 = .ok p.1 ∧ ∃ w, deVal env S o (K + 1) vd e.2 = .ok (some w) ∧
          (AlikeBy S pay p.2 w ∧ confVal S vd w = true)) kvs es := by
        refine (mapE_pairs hes).imp (fun p hp e he => ?_)
        obtain ⟨c1, c2⟩ := (confMap_iff kvs).1 hc2.2 p hp
        unfold serEntry at he
        cases hk1 : serKey p.1 with
        | error x => simp [hk1] at he
        | ok s =>
          cases hv1 : serVal env S so k vd.kind p.2 with
          | error x => simp [hk1, hv1] at he
          | ok j1 =>
            simp only [hk1, hv1, Except.ok.injEq] at he
            subst he
            refine ⟨deKey_ser c1 hk1, ?_⟩
            simp only [deVal_single hvc]
            exact hV k (by omega) vd p.2 j1 hvc hvw.kind (hJ.kinds vd (.inl hvd)) c2 (keepMap_mem hk hp) hv1 K
              (by omega)
      obtain ⟨kws, h1, h2⟩ := deMap_reads (Q := fun v w => AlikeBy S pay v w ∧ confVal S vd w = true) hp2 hc2.1 []
        (fun _ _ => rfl)
      refine ⟨.map kws, ?_, alike_map (h2.imp (fun a _ b h => ⟨h.1, h.2.1⟩)), ?_⟩
      · unfold deVal
        rw [if_neg (by rw [isList, hc.1]; simp), if_pos hc.1]
        simp only [hki, hE.kv, h1]
        rfl
      · have hd := pairs_distinct (Q := fun v w => AlikeBy S pay v w ∧ confVal S vd w = true) h2
        simp only [confVal, hki, hE.kv, Bool.and_eq_true]
        exact ⟨hc.1, by rw [hd.2]; exact hc2.1, pairs_conf h2 hc2.2⟩
    | _ => simp [confVal, hcard] at hc
  · rw [deVal_single hcard]
    exact hV (k + 1) (Nat.le_refl _) f v j hcard hf.kind hp hc hk hs K (by omega)

/-- The key and value `e` of an object are read and stored for the entry `x`. -/
def EntReads (pay : Payloads) (env : JEnv) (S : Schema) (o : DOpts) (K : Nat) (md : MsgDesc) (x : Ent) (e : Name × Json) : Prop :=
  (if x.ext then md.getExtension x.f.number = some x.f ∧ keyField md e.1 = none ∧ keyExt md e.1 = some x.f
    else md.getField x.f.number = some x.f ∧ keyField md e.1 = some x.f) ∧
  ∃ w, deOpt S (deVal env S o K) x.f e.2 = .ok (some w) ∧ AlikeBy S pay x.v w ∧ confVal S x.f w = true

/-- Entries one after the other. -/
theorem entries_read (hS : S.wf = true) {K : Nat} {md : MsgDesc} {L : List Ent} {es : List (Name × Json)}
    (h : Pairs (EntReads pay env S o K md) L es) :
    (L.map (·.f.number)).Nodup → (∀ e ∈ L, ∀ n ∈ siblings md e.f, ∀ e' ∈ L, e'.f.number ≠ n) →
    ∀ m, Conf S m md → (∀ e ∈ L, SMap.get? m.fields e.f.number = none) →
      (∀ e ∈ L, ∀ n ∈ siblings md e.f, SMap.get? m.fields n = none) →
      ∃ m', deEntries S o (deVal env S o K) md m es = .ok m' ∧ m'.desc = m.desc ∧ Conf S m' md ∧
        (∀ e ∈ L, ∃ w, SMap.get? m'.fields e.f.number = some (.val w) ∧ AlikeBy S pay e.v w) ∧
        (∀ n, (∀ e ∈ L, e.f.number ≠ n) → SMap.get? m'.fields n = SMap.get? m.fields n) := by
  induction h with
  | nil =>
    intro _ _ m hC _ _
    exact ⟨m, rfl, rfl, hC, (fun e he => by cases he), fun _ _ => rfl⟩
  | cons ha t ih =>
    rename_i x e L es
    intro hnd hone m hC hfree hsib
    obtain ⟨key, j⟩ := e
    rw [List.map_cons, List.nodup_cons] at hnd
    have hnum : ∀ e' ∈ L, e'.f.number ≠ x.f.number := by
      intro e' he' heq
      exact hnd.1 (heq ▸ List.mem_map_of_mem (f := fun x : Ent => x.f.number) he')
    have hone' : ∀ e ∈ L, ∀ n ∈ siblings md e.f, ∀ e' ∈ L, e'.f.number ≠ n := fun a ha n hn b hb =>
      hone a (List.mem_cons_of_mem _ ha) n hn b (List.mem_cons_of_mem _ hb)
    have hw := Schema.wf_msg hS hC.desc
    obtain ⟨hlook, w, hv, hA, hcw⟩ := ha
    simp only at hlook hv
    have step : ∃ m1, deEntry S o (deVal env S o K) md m key j = .ok m1 ∧ m1.desc = m.desc ∧ Conf S m1 md ∧
        Upd m.fields x.f w m1.fields := by
      by_cases hx : x.ext = true
      · rw [if_pos hx] at hlook
        have hpos := (hw.exts _ (getExtension_mem hlook.1).1).num.1
        refine ⟨DynMsg.setExt m x.f w, ?_, rfl, ?_, ?_⟩
        · simp only [deEntry, hlook.2.1, hlook.2.2, hv]
        · exact hC.insert_ext hS hlook.1 hcw
        · exact Free.upd (sib := []) (mem := []) ⟨hC.sorted, hfree x (by simp), fun _ h => (by cases h),
            fun _ h => (by cases h)⟩ hpos w
      · rw [if_neg hx] at hlook
        have hmem := (getField_mem hlook.1).1
        have hpos := (hw.fields _ hmem).num.1
        have hF : Free m.fields (siblings md x.f) (oneofMembers md x.f) x.f := by
          refine ⟨hC.sorted, hfree x (by simp), hsib x (by simp), fun g hg => ?_⟩
          unfold oneofMembers at hg
          cases ho : x.f.oneof with
          | none => rw [ho] at hg; cases hg
          | some o' =>
            rw [ho] at hg
            simp only [List.mem_filter, beq_iff_eq] at hg
            by_cases hn : g.number = x.f.number
            · rw [hn]; exact hfree x (by simp)
            · exact hsib x (by simp) _ (mem_siblings.2 ⟨o', ho, g, hg.1, hg.2, hn, rfl⟩)
        refine ⟨⟨m.desc, FieldSet.set (siblings md x.f) m.fields x.f w⟩, ?_, rfl, ?_, hF.upd hpos w⟩
        · simp only [deEntry, hlook.2, hv, Free.noHas hF.mem, DynMsg.setField, DynMsg.trySetField,
            (conf_accepted hS w x.f hcw).1]
        · exact hC.insert_field hS hlook.1 hcw
    obtain ⟨m1, h1, hd1, hC1, hu⟩ := step
    obtain ⟨m', h2, hd2, hC2, h3, h4⟩ := ih hnd.2 hone' m1 hC1
      (fun e' he' => by
        rw [hu.get, if_neg (hnum e' he')]
        exact hfree e' (List.mem_cons_of_mem _ he'))
      (fun e' he' n hn => by
        rw [hu.get, if_neg (fun h => hone e' (List.mem_cons_of_mem _ he') n hn x (by simp) h.symm)]
        exact hsib e' (List.mem_cons_of_mem _ he') n hn)
    refine ⟨m', by simp only [deEntries, h1, h2], hd2.trans hd1, hC2, ?_, ?_⟩
    · intro e' he'
      rcases List.mem_cons.1 he' with rfl | he'
      · exact ⟨w, by rw [h4 _ hnum, hu.get, if_pos rfl], hA⟩
      · exact h3 e' he'
    · intro n hn
      rw [h4 n (fun e' he' => hn e' (List.mem_cons_of_mem _ he')), hu.get,
        if_neg (fun h => hn x (by simp) h.symm)]

/-- `null` is only ever read where it stands for a value. -/
theorem null_read {K : Nat} {f : FieldDesc} {w : Value} (h : deVal env S o K f .null = .ok (some w)) :
    deNull S f = .ok (some w) := by
  cases K with
  | zero => cases h
  | succ K =>
    unfold deVal at h
    split at h
    · cases h
    · split at h
      · cases h
      · unfold deKind at h
        split at h
        · rename_i d hk
          obtain ⟨m, hm, hw⟩ := except_map_ok.1 h
          cases hw
          unfold deMsg at hm
          cases hmd : S.msg? d with
          | none => simp [hmd] at hm
          | some md =>
            simp only [hmd] at hm
            split at hm
            · cases hm
            · rename_i x hx hw
              cases x with
              | value =>
                have hn : md.name = Wkt.value.name := by
                  have := List.find?_some hw
                  exact (beq_iff_eq.1 this).symm
                simp only [deStd, deValue, stdValue, fieldsOf] at hm
                simp only [deNull, hk, hmd, hn, if_true]
                unfold one1
                rw [hm]
                rfl
              | _ => cases hm
            · cases hm
        · rename_i e hk
          unfold deEnum at h
          cases he : S.enums[e]? with
          | none => simp [he] at h
          | some ed =>
            simp only [he] at h
            simp only [deNull, hk, he]
            split at h
            · rename_i hn
              cases h
              rw [if_pos hn]
            · cases h
        · cases hk : f.kind <;> rw [hk] at h <;> cases h

theorem deOpt_read {K : Nat} {f : FieldDesc} {j : Json} {w : Value} (h : deVal env S o K f j = .ok (some w)) :
    deOpt S (deVal env S o K) f j = .ok (some w) := by
  cases j with
  | null => exact null_read h
  | _ => exact h

theorem find_self {α : Type} (g : α → Name) {l : List α} (hn : (l.map g).Nodup) {a : α} (ha : a ∈ l) :
    l.find? (fun x => g x == g a) = some a := by
  induction l with
  | nil => cases ha
  | cons x r ih =>
    rw [List.map_cons, List.nodup_cons] at hn
    rw [List.find?_cons]
    rcases List.mem_cons.1 ha with rfl | ha
    · simp
    · have : (g x == g a) = false := by
        simp only [beq_eq_false_iff_ne]
        exact fun e => hn.1 (e ▸ List.mem_map_of_mem ha)
      rw [this]
      exact ih hn.2 ha

theorem keyExt_self {md : MsgDesc} (hJ : JsonMsg S md) {f : FieldDesc} (hf : f ∈ md.extensions) :
    keyField md f.jsonName = none ∧ keyExt md f.jsonName = some f := by
  constructor
  · cases h : keyField md f.jsonName with
    | none => rfl
    | some g =>
      obtain ⟨h1, h2⟩ := (keyField_iff hJ.unique).1 h
      have := hJ.extNew f hf g h1
      rcases h2 with h2 | h2
      · exact absurd h2 this.2
      · exact absurd h2.1 this.1
  · exact find_self (fun f : FieldDesc => f.jsonName) hJ.extNodup hf

theorem keyField_self {md : MsgDesc} (hJ : JsonMsg S md) {so : SOpts} (hx : so.protoNames = true → NoCross md)
    {f : FieldDesc} (hf : f ∈ md.fields) : keyField md (fieldKey so f) = some f := by
  refine (keyField_iff hJ.unique).2 ?_
  unfold fieldKey
  split
  · next h => exact .of_name (hx h) hf
  · exact ⟨hf, .inl rfl⟩

/-- The items and the entries written for them. -/
theorem items_pairs {val : Kind → Value → Except JErr Json} {its : List Item}
    {es : List (Option (List Char × Json))} (h : mapE (serItem so val) its = .ok es) :
    Pairs (fun (x : Ent) (e : List Char × Json) =>
      e.1 = (if x.ext then x.f.jsonName else fieldKey so x.f) ∧ val x.f.kind x.v = .ok e.2)
      (its.filterMap Item.ent) (es.filterMap id) := by
  replace h := mapE_pairs h
  induction h with
  | nil => exact .nil
  | cons h t ih =>
    rename_i it e its es
    cases it with
    | unknown u => cases h; exact ih
    | field f v =>
      obtain ⟨j, hj, rfl⟩ := except_map_ok.1 h
      exact .cons ⟨rfl, hj⟩ ih
    | ext f v =>
      obtain ⟨j, hj, rfl⟩ := except_map_ok.1 h
      exact .cons ⟨rfl, hj⟩ ih

/-- The fields of an ordinary message read back. -/
theorem fields_read (hX : JCtx env S so o P pay) {k : Nat} (hV : ∀ j ≤ k, JValOk env S so o P pay j) {d : Nat}
    {md : MsgDesc} {fs : FieldSet} (hC : Conf S ⟨d, fs⟩ md) (hn : wkt? md.name = none) (hk : keepSlots f32Ok P fs)
    {es : List (List Char × Json)} (hs : serFields S so (serVal env S so k) md fs = .ok es) {K : Nat}
    (hK : k ≤ K) :
    ∃ m', deEntries S o (deVal env S o K) md (DynMsg.empty d) es = .ok m' ∧ m'.desc = d ∧
      AlikeMsgBy S pay ⟨d, fs⟩ m' ∧ confMsg S m' = true := by
  have hJ := jsonWf_msg hX.names hC.desc hn
  have hcross : so.protoNames = true → NoCross md := fun h => by
    have := List.all_eq_true.1 (hX.apart h) md (List.mem_of_getElem? hC.desc)
    simpa [hn] using this
  have hw := Schema.wf_msg hX.wf hC.desc
  unfold serFields at hs
  cases hi : iter S md (!so.skipDefault) fs with
  | none => rw [hi] at hs; cases hs
  | some its =>
    rw [hi] at hs
    obtain ⟨os, hos, rfl⟩ := except_map_ok.1 hs
    have hL := iter_listing hX.wf hC hi
    have hp : Pairs (EntReads pay env S o K md) (its.filterMap Item.ent) (os.filterMap id) := by
      refine (items_pairs hos).imp (fun x hx e he => ?_)
      have hl := hL.look x hx
      have hmem : x.f ∈ md.fields ∨ x.f ∈ md.extensions := by
        split at hl
        · exact .inr (getExtension_mem hl).1
        · exact .inl (getField_mem hl).1
      obtain ⟨w, h1, h2, h3⟩ := field_reads hX hV (hL.wf hX.wf hC.desc hx) (hJ.kinds _ hmem) (hL.conf x hx)
        (listing_keep (Q := f32Ok) (by decide) hX.wf hC.desc hJ.plain hL hk hx) he.2 hK
      refine ⟨?_, w, deOpt_read h1, h2, h3⟩
      by_cases hxt : x.ext = true
      · rw [if_pos hxt] at hl ⊢
        rw [he.1, if_pos hxt]
        exact ⟨hl, keyExt_self hJ (getExtension_mem hl).1⟩
      · rw [if_neg hxt] at hl ⊢
        rw [he.1, if_neg hxt]
        exact ⟨hl, keyField_self hJ hcross (getField_mem hl).1⟩
    obtain ⟨m', h1, h2, h3, h4, h5⟩ := entries_read hX.wf hp hL.nodup hL.oneof (DynMsg.empty d)
      (Conf.empty hC.desc) (fun _ _ => rfl) (fun _ _ _ _ => rfl)
    obtain ⟨d', gs⟩ := m'
    cases h2
    refine ⟨_, h1, rfl, ?_, confMsg_iff.2 ⟨md, h3⟩⟩
    exact hL.alike hX.wf hC hJ.plain h4 (fun n hn v h => by
      rw [h5 n hn] at h
      cases h)

/-- A written message reads back. -/
theorem msg_reads (hX : JCtx env S so o P pay) {k : Nat} (hV : ∀ j ≤ k, JValOk env S so o P pay j) {m : DynMsg}
    (hm : confMsg S m = true) (hp : P m) (hk : keepSlots f32Ok P m.fields) {j : Json}
    (hs : toJson env S so k m = .ok j) {K : Nat} (hK : k ≤ K) :
    ∃ m', fromJson env S o K m.desc j = .ok m' ∧ m'.desc = m.desc ∧ AlikeMsgBy S pay m m' ∧ confMsg S m' = true := by
  obtain ⟨md, hC⟩ := confMsg_iff.1 hm
  have hmd : S.msg? m.desc = some md := hC.desc
  cases hw : wkt? md.name with
  | some w => exact hX.leaf m md k K j hmd (by rw [hw]; rfl) hm hp hk hK hs
  | none =>
    simp only [toJson, serMsg, hmd, hw] at hs
    obtain ⟨es, hes, rfl⟩ := except_map_ok.1 hs
    simp only [fromJson, deMsg, hmd, hw]
    exact fields_read hX hV hC hw hk hes hK

/-- Values of every depth read back. -/
theorem jvalOk (hX : JCtx env S so o P pay) (k : Nat) : ∀ j ≤ k, JValOk env S so o P pay j := by
  induction k with
  | zero =>
    intro j hj f v x _ _ _ _ _ hs
    have : j = 0 := by omega
    subst this
    cases hs
  | succ k ih =>
    intro j hj
    by_cases hjk : j ≤ k
    · exact ih j hjk
    · have : j = k + 1 := by omega
      subst this
      intro f v x hc hkind hpl hv hk hs K hK
      cases v with
      | msg d fs =>
        obtain ⟨-, hkd, hm⟩ := confMsg_of_confVal hv
        simp only [keepVal] at hk
        obtain ⟨m', h1, h2, h3, h4⟩ := msg_reads hX ih (m := ⟨d, fs⟩) hm hk.1 hk.2 hs (K := K) (by omega)
        refine ⟨m'.toValue, ?_, h3, ?_⟩
        · rw [hkd]
          show Except.map _ (fromJson env S o K d x) = _
          rw [h1]
          rfl
        · exact confVal_msg hc (by rw [hkd, h2]) h4
      | list vs => simp [confVal, isList_of_ne hc] at hv
      | map kvs => simp [confVal, isMap_of_ne hc] at hv
      | enum n =>
        simp only [confVal, Bool.and_eq_true] at hv
        cases hkd : f.kind with
        | enum e =>
          rw [hkd] at hs hkind hpl
          obtain ⟨ed, hed⟩ := enum_some hkind
          have hnn : ed.name ≠ nullName := by
            simp only [plainKind, hed, bne_iff_ne] at hpl
            exact hpl
          refine ⟨.enum n, ?_, .refl _, ?_⟩
          · exact deEnum_ser hX.enums o hed (jsonWf_enum hX.names hed) hnn hs
          · simp only [confVal, Bool.and_eq_true]
            exact hv
        | _ => rw [hkd] at hv; simp [scalarOk, Value.isValid] at hv
      | _ =>
        simp only [confVal, Bool.and_eq_true] at hv
        have hne : ∀ e, f.kind ≠ .enum e := by
          intro e he
          rw [he] at hv
          simp [scalarOk, Value.isValid] at hv
        have hnm : ∀ d, f.kind ≠ .message d := by
          intro e he
          rw [he] at hv
          simp [scalarOk] at hv
        obtain ⟨w, h1, h2, h3⟩ := deScalar_ser hX.floats (S := S) (so := so) hv.2 hne (scalarKeep_of hk) hs
        refine ⟨w, ?_, h2, confVal_scalar hc h3⟩
        unfold deKind
        split
        · rename_i d hd; exact absurd hd (hnm d)
        · rename_i d hd; exact absurd hd (hne d)
        · rw [h1]; rfl

/-- A written message reads back alike. -/
theorem json_reads (hX : JCtx env S so o P pay) {k K : Nat} (hK : k ≤ K) {m : DynMsg} (hm : confMsg S m = true)
    (hp : P m) (hk : keepSlots f32Ok P m.fields) {j : Json} (hs : toJson env S so k m = .ok j) :
    ∃ m', fromJson env S o K m.desc j = .ok m' ∧ m'.desc = m.desc ∧ AlikeMsgBy S pay m m' ∧ confMsg S m' = true :=
  msg_reads hX (jvalOk hX k) hm hp hk hs hK

end

end Verif.Json
