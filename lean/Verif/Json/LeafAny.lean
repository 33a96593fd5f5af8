import Verif.Json.Make
import Verif.Json.Sound
/-!
`google.protobuf.Any` in JSON: the message in it is decoded, written out, read back and encoded
again.
-/
set_option autoImplicit false
namespace Verif.Json
open Verif.Wire Verif.Dyn Verif.Pool
open Verif.Props (except_map_ok)

/-- What the fields of an `Any` say: the type URL and the bytes (`get_field_by_number`). -/
structure AnySays (S : Schema) (m : DynMsg) (url : List Char) (b : Bytes) : Prop where
  type : ∃ md, S.msg? m.desc = some md ∧ wkt? md.name = some .any ∧
    DynMsg.getByNumber S md m 1 = some (some (.str (utf8Encode url))) ∧
    DynMsg.getByNumber S md m 2 = some (some (.bytes b))

/-- Two messages of the type `google.protobuf.Any` with the same type URL, which names a message type
of the schema: the bytes of the first decode as `p`, the bytes of the second are the encoding of `p'`. -/
def anyPay (S : Schema) : Payloads := fun d fs gs p p' =>
  ∃ url n b b', AnySays S ⟨d, fs⟩ url b ∧ AnySays S ⟨d, gs⟩ url b' ∧ Text.urlName url = some n ∧
    Text.Schema.msgByName S n = some p.desc ∧ p'.desc = p.desc ∧ decode S p.desc b = .ok p ∧
    confMsg S p' = true ∧ encMsg S p' = some b'

/-- What is asked of an `Any`: sizes and nesting within the decoder's limits, a type URL
with the full name itself (no leading dot), and `P` of the message in it and all
messages in that. -/
structure CarriesOk (env : JEnv) (S : Schema) (so : SOpts) (o : DOpts) (P : DynMsg → Prop) (m : DynMsg) : Prop where
  depth : levelsSlots m.fields ≤ recursionLimit
  size : ∀ b, encMsg S m = some b → b.length < 2 ^ 64
  payload : ∀ url b n p pd, AnySays S m url b → Text.urlName url = some n →
    Text.Schema.msgByName S n = some p.desc → decode S p.desc b = .ok p → S.msg? p.desc = some pd →
    wkt? n = wkt? pd.name ∧ P p ∧ keepSlots f32Ok P p.fields
  size' : ∀ k K j gs b, toJson env S so k m = .ok j → deAny env S o (deVal env S o K) j = .ok gs →
    encMsg stdSchema ⟨Wkt.any.std, gs⟩ = some b → b.length < 2 ^ 64

/-- What is asked of a message, with an `Any` in an `Any` up to `n` levels deep. -/
def AnyOk (env : JEnv) (S : Schema) (so : SOpts) (o : DOpts) : Nat → DynMsg → Prop
  | 0, m => WktOk env S so m
  | n + 1, m =>
    (∀ md, S.msg? m.desc = some md → wkt? md.name ≠ some .any → WktOk env S so m) ∧
    (∀ md, S.msg? m.desc = some md → wkt? md.name = some .any → CarriesOk env S so o (AnyOk env S so o n) m)

theorem plusZero_str (v : Bytes) : plusZero (.str v) = .str v := rfl

/-- The two fields of the built-in `Any`. -/
theorem any_get {fs : FieldSet} (hc : confMsg stdSchema ⟨Wkt.any.std, fs⟩ = true) {sd : MsgDesc}
    (hsd : stdSchema.msg? Wkt.any.std = some sd) :
    DynMsg.getByNumber stdSchema sd ⟨Wkt.any.std, fs⟩ 1 = some (some (.str (stdStr fs 1))) ∧
    DynMsg.getByNumber stdSchema sd ⟨Wkt.any.std, fs⟩ 2 = some (some (.bytes (stdBytes fs 2))) := by
  obtain ⟨sd', hC⟩ := confMsg_iff.1 hc
  have hsd' : stdSchema.msg? Wkt.any.std = some sd' := hC.desc
  rw [hsd] at hsd'
  cases hsd'
  have h0 : stdSchema.msg? Wkt.any.std = some ⟨Wkt.any.name, [stdField 1 "type_url" .string .optional false none,
      stdField 2 "value" .bytes .optional false none], false, []⟩ := rfl
  have key : ∀ n f, sd.getField n = some f → ∀ v, FieldSet.getValue fs n = some v → confVal stdSchema f v = true := by
    intro n f hf v hv
    have hn := (getField_mem hf).2
    have := hC.slots _ ((getValue_iff hC.sorted).1 hv)
    have hfd : stdSchema.field? Wkt.any.std n = some f := by rw [field?_eq hsd]; exact hf
    simp only [confSlot, hfd] at this
    exact this
  rw [hsd] at h0
  cases h0
  constructor
  · have := key 1 _ rfl
    simp only [DynMsg.getByNumber, MsgDesc.getField, stdField, List.find?, DynMsg.getField, FieldSet.get, stdStr]
    cases hg : FieldSet.getValue fs 1 with
    | none => simp [hg]; rfl
    | some v =>
      have := this v hg
      simp [hg]
      cases v <;> first | rfl | simp [confVal, stdField, scalarOk, isList, isMap, Value.isValid] at this
  · have := key 2 _ rfl
    simp only [DynMsg.getByNumber, MsgDesc.getField, stdField, List.find?, DynMsg.getField, FieldSet.get, stdBytes]
    cases hg : FieldSet.getValue fs 2 with
    | none => simp [hg]; rfl
    | some v =>
      have := this v hg
      simp [hg]
      cases v <;> first | rfl | simp [confVal, stdField, scalarOk, isList, isMap, Value.isValid] at this


/-- The payload reads back. -/
theorem payload_reads {env : JEnv} {S : Schema} {so : SOpts} {o : DOpts} {P : DynMsg → Prop} {pay : Payloads}
    (hX : JCtx env S so o P pay) (hO : OrderOk env) {k K : Nat} (hkK : k ≤ K) {n : Name} {p : DynMsg} {pd : MsgDesc}
    (hpd : S.msg? p.desc = some pd) (hn : wkt? n = wkt? pd.name) (hm : confMsg S p = true) (hp : P p)
    (hk : keepSlots f32Ok P p.fields) {url : List Char} {j : Json}
    (hj : (if (wkt? n).isSome then
        (serVal env S so k (.message p.desc) p.toValue).map (fun j => .obj [(typeKey, .str url), (valueKey, j)])
      else
        match S.msg? p.desc with
        | none => .error .panic
        | some md => (serFields S so (serVal env S so k) md p.fields).map (fun es => .obj ((typeKey, .str url) :: es))) =
      .ok j) :
    ∃ rest p', j = .obj ((typeKey, .str url) :: rest) ∧
      anyPayload env S o (deVal env S o K) n p.desc [] rest = .ok p' ∧ p'.desc = p.desc ∧ AlikeMsgBy S pay p p' ∧
      confMsg S p' = true := by
  by_cases hw : (wkt? n).isSome = true
  · rw [if_pos hw] at hj
    obtain ⟨x, hx, rfl⟩ := except_map_ok.1 hj
    cases k with
    | zero => cases hx
    | succ k =>
    cases K with
    | zero => omega
    | succ K =>
    have hx' : toJson env S so k p = .ok x := hx
    obtain ⟨p', h1, h2, h3, h4⟩ := json_reads hX (K := K) (by omega) hm hp hk hx'
    refine ⟨_, p', rfl, ?_, h2, h3, h4⟩
    have hv : deVal env S o (K + 1) (plainField (.message p.desc)) x = .ok (some p'.toValue) := by
      rw [deVal_single (by simp [plainField])]
      show Except.map _ (fromJson env S o K p.desc x) = _
      rw [h1]
      rfl
    have hf : findKey valueKey [] [(valueKey, x)] = some ([], x, []) := rfl
    have hl : lookup valueKey ([] : List (List Char × Json)) = none := rfl
    simp only [anyPayload, if_pos hw, hl, hf, hv]
    simp [asMsg, DynMsg.toValue]
  · rw [if_neg hw] at hj
    simp only [hpd] at hj
    obtain ⟨es, hes, rfl⟩ := except_map_ok.1 hj
    have hw' : wkt? pd.name = none := by
      rw [← hn]; simpa using hw
    have hx' : toJson env S so k p = .ok (.obj es) := by
      simp only [toJson, serMsg, hpd, hw', hes]
      rfl
    obtain ⟨p', h1, h2, h3, h4⟩ := json_reads hX hkK hm hp hk hx'
    refine ⟨es, p', rfl, ?_, h2, h3, h4⟩
    have ho : env.order [] = [] := List.perm_nil.1 (hO [])
    simp only [fromJson, deMsg, hpd, hw'] at h1
    simp only [anyPayload, if_neg hw, hpd, ho, deEntries]
    exact h1

/-- An `Any` reads back. -/
theorem any_one {env : JEnv} {S : Schema} {so : SOpts} {o : DOpts} {P : DynMsg → Prop}
    (hX : JCtx env S so o P (anyPay S)) (hL : StdLike S) (hO : OrderOk env) {m : DynMsg} {md : MsgDesc} {k K : Nat} {j : Json}
    (hmd : S.msg? m.desc = some md) (hw : wkt? md.name = some .any) (hc : confMsg S m = true)
    (hP : CarriesOk env S so o P m) (hkK : k ≤ K) (hj : toJson env S so k m = .ok j) :
    ∃ m', fromJson env S o K m.desc j = .ok m' ∧ m'.desc = m.desc ∧ AlikeMsgBy S (anyPay S) m m' ∧ confMsg S m' = true := by
  obtain ⟨raw, ht, hcr, hget⟩ := to_get hX.wf hL hmd hw hc hP.depth hP.size
  have hj0 := hj
  simp only [toJson, serMsg, hmd, hw, serAny, ht] at hj
  cases hu : strOf (stdStr raw 1) with
  | error e => rw [hu] at hj; cases hj
  | ok url =>
  rw [hu] at hj
  simp only at hj
  cases hun : Text.urlName url with
  | none => rw [hun] at hj; cases hj
  | some n =>
  rw [hun] at hj
  simp only at hj
  cases hmn : Text.Schema.msgByName S n with
  | none => rw [hmn] at hj; cases hj
  | some d =>
  rw [hmn] at hj
  simp only at hj
  cases hdec : decode S d (stdBytes raw 2) with
  | error e => rw [hdec] at hj; cases e <;> cases hj
  | ok p =>
  rw [hdec] at hj
  simp only [ofDecode] at hj
  have hsd : ∃ sd, stdSchema.msg? Wkt.any.std = some sd := ⟨_, rfl⟩
  obtain ⟨sd, hsd⟩ := hsd
  have plain : ∀ f ∈ [stdField 1 "type_url" .string .optional false none, stdField 2 "value" .bytes .optional false none],
      PlainField f := by
    intro f hf
    simp only [List.mem_cons, List.not_mem_nil, or_false] at hf
    rcases hf with rfl | rfl <;> exact ⟨rfl, nofun, rfl, rfl⟩
  have h0 : stdSchema.msg? Wkt.any.std = some ⟨Wkt.any.name, [stdField 1 "type_url" .string .optional false none,
      stdField 2 "value" .bytes .optional false none], false, []⟩ := rfl
  have hg1 : sd.getField 1 = some (stdField 1 "type_url" .string .optional false none) := by
    rw [hsd] at h0; cases h0; rfl
  have hg2 : sd.getField 2 = some (stdField 2 "value" .bytes .optional false none) := by
    rw [hsd] at h0; cases h0; rfl
  have hp1 := plain _ List.mem_cons_self
  have hp2 := plain _ (List.mem_cons_of_mem _ List.mem_cons_self)
  have unplus : ∀ (x : Option (Option Value)) (v : Value), (∀ w, plusZero w = v → w = v) →
      some (some v) = x.map (Option.map plusZero) → x = some (some v) := by
    intro x v hv hx
    cases x with
    | none => cases hx
    | some y => cases y with
      | none => cases hx
      | some w =>
        simp only [Option.map_some, Option.some.injEq] at hx
        rw [hv w hx.symm]
  have hstr : ∀ (b : Bytes) w, plusZero w = .str b → w = .str b := by
    intro b w h; cases w <;> first | exact h | cases h
  have hbts : ∀ (b : Bytes) w, plusZero w = .bytes b → w = .bytes b := by
    intro b w h; cases w <;> first | exact h | cases h
  obtain ⟨ga, gb⟩ := any_get hcr hsd
  have hm1 := hget sd 1 _ hsd hg1 hp1
  have hm2 := hget sd 2 _ hsd hg2 hp2
  rw [ga] at hm1
  rw [gb] at hm2
  have hsays : AnySays S m url (stdBytes raw 2) := by
    refine ⟨md, hmd, hw, ?_, unplus _ _ (hbts _) hm2⟩
    rw [strOf_ok hu]
    exact unplus _ _ (hstr _) hm1
  obtain ⟨pd, hpd⟩ : ∃ pd, S.msg? d = some pd := by
    have := (List.findIdx?_eq_some_iff_getElem.1 hmn).1
    exact ⟨S.msgs[d], by simp [Schema.msg?, this]⟩
  obtain ⟨hpc, hpdesc⟩ := (merge_ok hX.wf (confMsg_iff.2 ⟨pd, Conf.empty hpd⟩) (stdBytes raw 2)).2 p hdec
  have hpdesc : p.desc = d := hpdesc
  subst hpdesc
  obtain ⟨hn, hPp, hkp⟩ := hP.payload url _ n p pd hsays hun hmn hdec hpd
  obtain ⟨rest, p', hje, hap, hd', hA, hc'⟩ := payload_reads hX hO hkK hpd hn hpc hPp hkp hj
  obtain ⟨b', hb'⟩ := conf_encodes hX.wf hc'
  have hde : deAny env S o (deVal env S o K) j = .ok [(1, .val (.str (utf8Encode url))), (2, .val (.bytes b'))] := by
    have hf : findKey typeKey [] ((typeKey, Json.str url) :: rest) = some ([], .str url, rest) := by
      simp [findKey]
    simp only [hje, deAny, hf, hun, hmn, hap, hb']
  have hcs := std_any (utf8Valid_encode url) b'
  obtain ⟨m', h1, h2, h3, h4⟩ := make_get hX.wf hL hmd hw hcs (by simp [depthMsg, depthSlots, depthVal, recursionLimit])
    (fun b hb => hP.size' k K j _ b hj0 hde hb)
  refine ⟨m', ?_, h2, ?_, h3⟩
  · simp only [fromJson, deMsg, hmd, hw, hde, h1]
  · obtain ⟨d', gs⟩ := m'
    cases h2
    refine .pay (p := p) (p' := p') ⟨url, n, _, b', hsays, ⟨md, hmd, hw, ?_, ?_⟩, hun, hmn, hd', hdec, hc', hb'⟩ hA
    · have := h4 sd 1 _ hsd hg1 hp1
      rw [(any_get hcs hsd).1] at this
      exact this
    · have := h4 sd 2 _ hsd hg2 hp2
      rw [(any_get hcs hsd).2] at this
      exact this

/-- Well-known types read back, with an `Any` in an `Any` up to `n` levels deep. -/
theorem leaf_any {env : JEnv} {S : Schema} {so : SOpts} (o : DOpts) (hS : S.wf = true) (hnames : jsonWf S = true)
    (hcross : so.protoNames = true → namesApart S = true) (hL : StdLike S) (hF : JFloatSpec env) (hT : JTimeSpec env)
    (hE : JNamesEnums env) (hO : OrderOk env) (n : Nat) : LeafOk env S so o (AnyOk env S so o n) (anyPay S) := by
  induction n with
  | zero => exact leaf_std o hS hL hF hT
  | succ n ih =>
    intro m md k K j hmd hw hc hP _ hkK hj
    by_cases hany : wkt? md.name = some .any
    · exact any_one ⟨hS, hnames, hcross, hF, hE, ih⟩ hL hO hmd hany hc (hP.2 md hmd hany) hkK hj
    · obtain ⟨m', h1, h2, h3, h4⟩ := leaf_one o hS hL hF hT hmd hw hc (hP.1 md hmd hany) hkK hj
      exact ⟨m', h1, h2, h3.by, h4⟩

end Verif.Json
