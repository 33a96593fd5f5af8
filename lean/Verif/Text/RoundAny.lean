import Verif.Text.RoundMsg
import Verif.Text.Safe
import Verif.Text.PrintTotal
import Verif.Dyn.DepthBound
import Verif.Json.LeafAny
/-!
An expanded `google.protobuf.Any` in text: `[type.url/full.Name] { … }` reads back as an `Any` with
the same URL and the encoding of an alike message.
-/
set_option autoImplicit false
namespace Verif.Text
open Verif.Wire Verif.Dyn Verif.Pool
open Verif.Json (AnySays anyPay PlainField plusZero ren_get canon_get conf_encodes wkt?)

/-- A field like the two of `prost_types::Any`. -/
def anyField (n : Nat) (k : Kind) (f : FieldDesc) : Bool :=
  f.number == n && f.kind == k && f.card == .optional && !f.presence && !f.packed && !f.group &&
    f.default.isNone && f.oneof.isNone

/-- A message called `google.protobuf.Any` has the fields of `any.proto`. -/
def anyLike (md : MsgDesc) : Bool :=
  md.name != anyName || (!md.mapEntry && md.extensions.isEmpty &&
    match md.fields with
    | [f, g] => anyField 1 .string f && anyField 2 .bytes g
    | _ => false)

/-- Any message called `google.protobuf.Any` has the fields of `any.proto`. -/
def anysLike (S : Schema) : Bool := S.msgs.all anyLike

/-- What is asked of an `Any` to be printed: sizes and nesting within the decoder's limits; if
it is expanded, a type URL made of two dotted names with one slash between, and `P` of the
message in it and all messages in that. -/
structure TextCarries (S : Schema) (P : DynMsg → Prop) (m : DynMsg) : Prop where
  depth : depthMsg m ≤ recursionLimit
  size : ∀ b, encMsg S m = some b → b.length < 2 ^ 64
  payload : ∀ url b n p, AnySays S m url b → urlName url = some n →
    Schema.msgByName S n = some p.desc → decode S p.desc b = .ok p →
    (∃ dom, url = dom ++ '/' :: n ∧ dotted dom = true ∧ dotted n = true) ∧ P p ∧ keepSlots textF32 P p.fields

/-- What is asked of a message, with an `Any` in an `Any` up to `n` levels deep. -/
def TextAnyOk (S : Schema) : Nat → DynMsg → Prop
  | 0, m => ∀ md, S.msg? m.desc = some md → md.name ≠ anyName
  | n + 1, m => ∀ md, S.msg? m.desc = some md → md.name = anyName → TextCarries S (TextAnyOk S n) m

theorem anySchema_wf : anySchema.wf = true := by decide +kernel

theorem anyField_iff {n : Nat} {k : Kind} {f : FieldDesc} : anyField n k f = true ↔
    f.number = n ∧ f.kind = k ∧ f.card = .optional ∧ f.presence = false ∧ f.packed = false ∧ f.group = false ∧
      f.default = none ∧ f.oneof = none := by
  simp [anyField, and_assoc]

theorem anyField.plain {n : Nat} {k : Kind} {f : FieldDesc} (h : anyField n k f = true) (hk : k.plain = true) :
    PlainField f := by
  obtain ⟨-, h2, h3, h4, -, -, h7, -⟩ := anyField_iff.1 h
  exact ⟨h4, by rw [h3]; decide, by rw [h2]; exact hk, h7⟩

/-- The two fields. -/
theorem anyLike_fields {md : MsgDesc} (h : anyLike md = true) (hn : md.name = anyName) :
    md.mapEntry = false ∧ md.extensions = [] ∧ ∃ f g, md.fields = [f, g] ∧ anyField 1 .string f = true ∧
      anyField 2 .bytes g = true := by
  simp only [anyLike, hn, bne_self_eq_false, Bool.false_or, Bool.and_eq_true, Bool.not_eq_true',
    List.isEmpty_iff] at h
  refine ⟨h.1.1, h.1.2, ?_⟩
  have h2 := h.2
  split at h2
  · rename_i f g hfg
    exact ⟨f, g, hfg, (Bool.and_eq_true _ _ ▸ h2).1, (Bool.and_eq_true _ _ ▸ h2).2⟩
  · cases h2

theorem any_emb {S : Schema} {d : Nat} {md : MsgDesc} (hd : S.msg? d = some md) (h : anyLike md = true)
    (hn : md.name = anyName) : Emb S anySchema (fun _ => 0) (· = d) := by
  obtain ⟨h1, h2, f, g, hfg, hf, hg⟩ := anyLike_fields h hn
  obtain ⟨f1, f2, f3, f4, f5, f6, f7, f8⟩ := anyField_iff.1 hf
  obtain ⟨g1, g2, g3, g4, g5, g6, g7, g8⟩ := anyField_iff.1 hg
  refine ⟨fun i hi => ?_⟩
  subst hi
  refine ⟨md, _, hd, rfl, h1.symm, h2, rfl, fun n => ?_⟩
  by_cases e1 : n = 1
  · subst e1
    refine .inr ⟨f, _, by simp [MsgDesc.getField, hfg, f1], rfl, ⟨f1.symm, f3.symm, f4.symm, f5.symm, f6.symm, f7, rfl, ?_, ?_⟩, ?_⟩
    · rw [f2]; rfl
    · intro _ _; rw [f2]; rfl
    · intro k; simp [siblings, f8]
  by_cases e2 : n = 2
  · subst e2
    refine .inr ⟨g, _, by simp [MsgDesc.getField, hfg, f1, g1], rfl, ⟨g1.symm, g3.symm, g4.symm, g5.symm, g6.symm, g7, rfl, ?_, ?_⟩, ?_⟩
    · rw [g2]; rfl
    · intro _ _; rw [g2]; rfl
    · intro k; simp [siblings, g8]
  · refine .inl ⟨?_, ?_⟩
    · simp only [MsgDesc.getField, hfg, List.find?, f1, g1]
      simp [show (1 == n) = false by simp; omega, show (2 == n) = false by simp; omega]
    · simp only [MsgDesc.getField, List.find?]
      simp [show (1 == n) = false by simp; omega, show (2 == n) = false by simp; omega]

/-- What the transcoded message says is what the message says. -/
theorem transcode_says {S : Schema} (hS : S.wf = true) {m : DynMsg} {md : MsgDesc} (hm : confMsg S m = true)
    (hmd : S.msg? m.desc = some md) (hl : anyLike md = true) (hn : md.name = anyName)
    (hdep : depthMsg m ≤ recursionLimit) (hsz : ∀ b, encMsg S m = some b → b.length < 2 ^ 64) {u v : Bytes}
    (h : transcodeAny S m = some (some (u, v))) :
    DynMsg.getByNumber S md m 1 = some (some (.str u)) ∧ DynMsg.getByNumber S md m 2 = some (some (.bytes v)) := by
  have hE := any_emb hmd hl hn
  obtain ⟨b, hb⟩ := conf_encodes hS hm
  have hc1 := confMsg_ren hE (m := m) rfl hm
  have hb1 := encMsg_ren hE (m := m) rfl hm
  have hdep1 : depthMsg (renMsg (fun _ => 0) m) = depthMsg m := by
    simp only [depthMsg, renMsg, depthSlots_ren]
  obtain ⟨hdec, hc2⟩ := decode_encMsg anySchema_wf hc1 (by omega) (hb1.trans hb) (hsz b hb)
  have hdec : decode anySchema 0 b = .ok (canonMsg anySchema (renMsg (fun _ => 0) m)) := hdec
  obtain ⟨md', hC⟩ := confMsg_iff.1 hm
  have : S.msg? m.desc = some md' := hC.desc
  rw [hmd] at this
  cases this
  obtain ⟨ad, had⟩ : ∃ ad, anySchema.msg? 0 = some ad := ⟨_, rfl⟩
  obtain ⟨ad', hC1⟩ := confMsg_iff.1 hc1
  have : anySchema.msg? 0 = some ad' := hC1.desc
  rw [had] at this
  cases this
  obtain ⟨ad', hC2⟩ := confMsg_iff.1 hc2
  have : anySchema.msg? 0 = some ad' := hC2.desc
  rw [had] at this
  cases this
  obtain ⟨-, -, f, g, hfg, hf, hg⟩ := anyLike_fields hl hn
  obtain ⟨f1, f2, -⟩ := anyField_iff.1 hf
  obtain ⟨g1, g2, -⟩ := anyField_iff.1 hg
  obtain ⟨f', a1, a2, a3, a4⟩ := ren_get hS hE (d := m.desc) (fs := m.fields) rfl had hC (n := 1) (f := f)
    (by simp [MsgDesc.getField, hfg, f1]) (anyField.plain hf rfl)
  obtain ⟨g', b1, b2, b3, b4⟩ := ren_get hS hE (d := m.desc) (fs := m.fields) rfl had hC (n := 2) (f := g)
    (by simp [MsgDesc.getField, hfg, f1, g1]) (anyField.plain hg rfl)
  have c1 := canon_get anySchema_wf hC1 a1 a2
  have c2 := canon_get anySchema_wf hC1 b1 b2
  rw [f2] at a3
  rw [g2] at b3
  have n1 := (getField_mem a1).2
  have n2 := (getField_mem b1).2
  have key : ∀ n (fd : FieldDesc), ad.getField n = some fd → ∀ w,
      FieldSet.getValue (canonMsg anySchema (renMsg (fun _ => 0) m)).fields n = some w → confVal anySchema fd w = true := by
    intro n fd hfd w hw
    have := hC2.slots _ ((getValue_iff hC2.sorted).1 hw)
    have hfd' : anySchema.field? (canonMsg anySchema (renMsg (fun _ => 0) m)).desc n = some fd := by
      rw [field?_eq hC2.desc]; exact hfd
    simp only [confSlot, hfd'] at this
    exact this
  have e1 := key 1 f' a1
  have e2 := key 2 g' b1
  have unplus : ∀ (x : Option (Option Value)) (v : Value), (∀ w, plusZero w = v → w = v) →
      some (some v) = x.map (Option.map plusZero) → x = some (some v) := by
    intro x v hv hx
    cases x with
    | none => cases hx
    | some y => cases y with
      | none => cases hx
      | some w =>
        simp only [Option.map_some, Option.some.injEq] at hx
        rw [hv w hx.symm]
  have hstr : ∀ (b : Bytes) w, plusZero w = .str b → w = .str b := by
    intro b w h; cases w <;> first | exact h | cases h
  have hbts : ∀ (b : Bytes) w, plusZero w = .bytes b → w = .bytes b := by
    intro b w h; cases w <;> first | exact h | cases h
  have d1 : DynMsg.getByNumber anySchema ad (canonMsg anySchema (renMsg (fun _ => 0) m)) 1 = some (some (.str u)) ∧
      DynMsg.getByNumber anySchema ad (canonMsg anySchema (renMsg (fun _ => 0) m)) 2 = some (some (.bytes v)) := by
    have s1 : ∀ w, FieldSet.getValue (canonMsg anySchema (renMsg (fun _ => 0) m)).fields 1 = some w → ∃ x, w = .str x := by
      intro w hw
      have := scalarOk_of_confVal a2.isMessage a2.card (e1 w hw)
      rw [a3] at this
      cases w <;> first | exact ⟨_, rfl⟩ | cases this
    have s2 : ∀ w, FieldSet.getValue (canonMsg anySchema (renMsg (fun _ => 0) m)).fields 2 = some w → ∃ x, w = .bytes x := by
      intro w hw
      have := scalarOk_of_confVal b2.isMessage b2.card (e2 w hw)
      rw [b3] at this
      cases w <;> first | exact ⟨_, rfl⟩ | cases this
    simp only [transcodeAny, hb, hdec] at h
    simp only [DynMsg.getByNumber, a1, b1, DynMsg.getField, FieldSet.get, n1, n2, a2.get, b2.get, a3, b3]
    cases h1 : FieldSet.getValue (canonMsg anySchema (renMsg (fun _ => 0) m)).fields 1 with
    | none =>
      rw [h1] at h
      cases h2 : FieldSet.getValue (canonMsg anySchema (renMsg (fun _ => 0) m)).fields 2 with
      | none => rw [h2] at h; cases h; exact ⟨rfl, rfl⟩
      | some y => obtain ⟨y, rfl⟩ := s2 y h2; rw [h2] at h; cases h; exact ⟨rfl, rfl⟩
    | some x =>
      obtain ⟨x, rfl⟩ := s1 x h1
      rw [h1] at h
      cases h2 : FieldSet.getValue (canonMsg anySchema (renMsg (fun _ => 0) m)).fields 2 with
      | none => rw [h2] at h; cases h; exact ⟨rfl, rfl⟩
      | some y => obtain ⟨y, rfl⟩ := s2 y h2; rw [h2] at h; cases h; exact ⟨rfl, rfl⟩
  have c1 : DynMsg.getByNumber anySchema ad (canonMsg anySchema (renMsg (fun _ => 0) m)) 1 = _ := c1
  have c2 : DynMsg.getByNumber anySchema ad (canonMsg anySchema (renMsg (fun _ => 0) m)) 2 = _ := c2
  rw [d1.1] at c1
  rw [d1.2] at c2
  exact ⟨a4.symm.trans (unplus _ _ (hstr _) c1), b4.symm.trans (unplus _ _ (hbts _) c2)⟩

/-- A bracketed type URL. -/
theorem parse_anyName {fp : List Char → Option (BitVec 64)} {dom n : List Char} (hd : dotted dom = true)
    (h : dotted n = true) (r : List Char) :
    ∃ ts, lex fp ('[' :: (dom ++ '/' :: n ++ (']' :: r))) = .tok .lbracket :: ts ∧
      parseFieldName (.tok .lbracket :: ts) = .ok (.any dom n, lex fp r) := by
  obtain ⟨h1, h2⟩ := segs_join n
  obtain ⟨d1, d2⟩ := segs_join dom
  simp only [dotted, List.all_eq_true, decide_eq_true_eq] at h hd
  cases hs : segs n with
  | nil => exact absurd hs h2
  | cons s ss =>
  cases ds : segs dom with
  | nil => exact absurd ds d2
  | cons t tt =>
    rw [hs] at h h1
    rw [ds] at hd d1
    obtain ⟨ts, h3, h4⟩ := fullIdent_segs (fp := fp) (terms := [.rbracket]) (t := .rbracket)
      (c := ']') rfl (by decide) (by decide) (by decide) (by decide) (r := r) [] s h
    obtain ⟨us, d3, d4⟩ := fullIdent_segs (fp := fp) (terms := [.rbracket, .slash]) (t := .slash)
      (c := '/') rfl (by decide) (by decide) (by decide) (by decide) (r := n ++ (']' :: r)) [] t hd
    rw [h1] at h3 h4
    rw [d1] at d3 d4
    refine ⟨_, lex_punct (t := .lbracket) rfl (by decide), ?_⟩
    rw [show dom ++ '/' :: n ++ (']' :: r) = dom ++ ('/' :: (n ++ (']' :: r))) by simp, d3]
    simp only [List.nil_append] at h4 d4
    simp only [parseFieldName, parseFullIdent, d4, h3, h4]

theorem getByNumber_set {S : Schema} {md : MsgDesc} {d : Nat} {fs : FieldSet} {f : FieldDesc} {v : Value}
    (hf : md.getField f.number = some f) : ∀ n, DynMsg.getByNumber S md ⟨d, SMap.insert f.number (.val v) fs⟩ n =
      if n = f.number then some (some v) else DynMsg.getByNumber S md ⟨d, fs⟩ n := by
  intro n
  by_cases hn : n = f.number
  · subst hn
    simp [DynMsg.getByNumber, hf, DynMsg.getField, FieldSet.get, FieldSet.getValue, SMap.get?_insert]
  · rw [if_neg hn]
    simp only [DynMsg.getByNumber]
    cases hg : md.getField n with
    | none => rfl
    | some g =>
      have := (getField_mem hg).2
      simp only [DynMsg.getField, FieldSet.get, FieldSet.getValue]
      rw [SMap.get?_insert, if_neg (by omega)]

/-- What an `Any` that is expanded says. -/
theorem asAny_says {S : Schema} {P : DynMsg → Prop} (hS : S.wf = true) (hlike : anysLike S = true) {md : MsgDesc}
    {d : Nat} {fs : FieldSet} {url : List Char} {body : DynMsg} (hC : Conf S ⟨d, fs⟩ md)
    (hQ : md.name = anyName → TextCarries S P ⟨d, fs⟩) (ha : asAny S md ⟨d, fs⟩ = some (some (url, body))) :
    ∃ dom n v, md.name = anyName ∧ AnySays S ⟨d, fs⟩ url v ∧ urlName url = some n ∧
      Schema.msgByName S n = some body.desc ∧ decode S body.desc v = .ok body ∧ confMsg S body = true ∧
      url = dom ++ '/' :: n ∧ dotted dom = true ∧ dotted n = true ∧ P body ∧ keepSlots textF32 P body.fields := by
  have hmd : S.msg? d = some md := hC.desc
  have hl : anyLike md = true := List.all_eq_true.1 hlike md (List.mem_of_getElem? hmd)
  unfold asAny at ha
  split at ha
  · cases ha
  rename_i hname
  have hname : md.name = anyName := Classical.not_not.1 hname
  have hP := hQ hname
  have hc : confMsg S ⟨d, fs⟩ = true := confMsg_iff.2 ⟨md, hC⟩
  cases ht : transcodeAny S ⟨d, fs⟩ with
  | none => rw [ht] at ha; cases ha
  | some t =>
  cases t with
  | none => rw [ht] at ha; cases ha
  | some uv =>
  obtain ⟨u, v⟩ := uv
  rw [ht] at ha
  simp only at ha
  cases hu : utf8Decode u with
  | none => rw [hu] at ha; cases ha
  | some url' =>
  rw [hu] at ha
  simp only at ha
  cases hun : urlName url' with
  | none => rw [hun] at ha; cases ha
  | some n =>
  rw [hun] at ha
  simp only at ha
  cases hmn : Schema.msgByName S n with
  | none => rw [hmn] at ha; cases ha
  | some i =>
  rw [hmn] at ha
  simp only at ha
  cases hdec : decode S i v with
  | error e => rw [hdec] at ha; cases ha
  | ok p =>
  rw [hdec] at ha
  cases ha
  obtain ⟨g1, g2⟩ := transcode_says hS hc hmd hl hname hP.depth hP.size ht
  rw [← utf8Encode_decode u url hu] at g1
  have hw : wkt? md.name = some .any := by rw [hname]; decide +kernel
  have hsays : AnySays S ⟨d, fs⟩ url v := ⟨md, hmd, hw, g1, g2⟩
  obtain ⟨pd, hpd⟩ : ∃ pd, S.msg? i = some pd := by
    have := (List.findIdx?_eq_some_iff_getElem.1 hmn).1
    exact ⟨S.msgs[i], by simp [Schema.msg?, this]⟩
  obtain ⟨hpc, hpdesc⟩ := (merge_ok hS (confMsg_iff.2 ⟨pd, Conf.empty hpd⟩) v).2 body hdec
  have hpdesc : body.desc = i := hpdesc
  subst hpdesc
  obtain ⟨⟨dom, hurl, hdom, hn⟩, hPp, hkp⟩ := hP.payload url v n body hsays hun hmn hdec
  exact ⟨dom, n, v, hname, hsays, hun, hmn, hdec, hpc, hurl, hdom, hn, hPp, hkp⟩

/-- An expanded `Any` reads back, if the messages in it do. -/
theorem anyReads_succ {env : TEnv} {S : Schema} {o : FOpts} {P : DynMsg → Prop} (hX : TextCtx env S o P (anyPay S))
    (hfp : ParsesFloats env.parse64) (hsafe : textSafe S = true) (hlike : anysLike S = true) {Q : DynMsg → Prop}
    (hQ : ∀ m md, Q m → S.msg? m.desc = some md → md.name = anyName → TextCarries S P m) :
    AnyReads env S o Q (anyPay S) := by
  intro md d fs url body k ind K s r _ hC hq ha hs hK hr
  have hmd : S.msg? d = some md := hC.desc
  have hl : anyLike md = true := List.all_eq_true.1 hlike md (List.mem_of_getElem? hmd)
  obtain ⟨dom, n, v, hname, hsays, hun, hmn, hdec, hpc, hurl, hdom, hn, hPp, hkp⟩ :=
    asAny_says hX.wf hlike hC (hQ _ _ hq hmd) ha
  have hw : wkt? md.name = some .any := by rw [hname]; decide +kernel
  obtain ⟨pd, hpC⟩ := confMsg_iff.1 hpc
  have hpd : S.msg? body.desc = some pd := hpC.desc
  -- the message in it
  have hval : fmtVal env S o k ind body.toValue (some (Kind.message body.desc)) = some s := by
    cases k with
    | zero => simp [fmtVal] at hs
    | succ k => exact hs
  obtain ⟨w, hw1, hA⟩ := valOk hX k k (Nat.le_refl k) ind (Json.plainField (.message body.desc)) body.toValue s
    (by simp [Json.plainField]) (confVal_msg (by simp [Json.plainField]) rfl hpc) ⟨hPp, hkp⟩ hval K hK r hr.tail
  simp only [Json.plainField, parseVal] at hw1
  cases hsub : parseMsg env S K body.desc (lex env.parse64 (s ++ r)) with
  | error e => rw [hsub] at hw1; cases hw1
  | ok br =>
  obtain ⟨bfs, r'⟩ := br
  rw [hsub] at hw1
  simp only [mapP, Except.ok.injEq, Prod.mk.injEq] at hw1
  obtain ⟨rfl, rfl⟩ := hw1
  have hsound := parseMsg_sound (env := env) (st := false) hX.wf hsafe K body.desc pd (lex env.parse64 (s ++ r)) hpd
    ⟨lex_ok hfp _, nofun⟩
  rw [hsub] at hsound
  have hbc : confMsg S ⟨body.desc, bfs⟩ = true := confMsg_iff.2 ⟨pd, hsound⟩
  obtain ⟨b', hb'⟩ := conf_encodes hX.wf hbc
  -- the two fields
  obtain ⟨-, -, f, g, hfg, hf, hg⟩ := anyLike_fields hl hname
  obtain ⟨f1, f2, f3, -, -, -, -, f8⟩ := anyField_iff.1 hf
  obtain ⟨e1, e2, e3, -, -, -, -, e8⟩ := anyField_iff.1 hg
  have hfl : md.getField f.number = some f := by simp [MsgDesc.getField, hfg]
  have hgl : md.getField g.number = some g := by simp [MsgDesc.getField, hfg, f1, e1]
  have hset1 : ∀ (m : DynMsg) (x : Bytes), DynMsg.trySetByNumber S md m 1 (.str x) =
      some (⟨m.desc, SMap.insert f.number (.val (.str x)) m.fields⟩, .ok ()) := by
    intro m x
    rw [f1] at hfl
    simp [DynMsg.trySetByNumber, hfl, DynMsg.trySetField, validFor, FieldSet.set, siblings, f8, f2, FieldSet.clearAll,
      Value.isValid]
  have hset2 : ∀ (m : DynMsg) (x : Bytes), DynMsg.trySetByNumber S md m 2 (.bytes x) =
      some (⟨m.desc, SMap.insert g.number (.val (.bytes x)) m.fields⟩, .ok ()) := by
    intro m x
    rw [e1] at hgl
    simp [DynMsg.trySetByNumber, hgl, DynMsg.trySetField, validFor, FieldSet.set, siblings, e8, e2, FieldSet.clearAll,
      Value.isValid]
  obtain ⟨ts, hl1, hl2⟩ := parse_anyName (fp := env.parse64) hdom hn (fieldValue o body.toValue s ++ r)
  have hb : ∀ d fs, body.toValue = .msg d fs → ∃ t, s = '{' :: t := by
    intro d fs h
    rw [h] at hs
    exact fmtVal_msg_brace hs
  let gs := SMap.insert g.number (Slot.val (.bytes b')) (SMap.insert f.number (.val (.str (utf8Encode url))) [])
  have hpf : parseField env S (parseMsg env S K) md d [] (.tok .lbracket :: ts) = .ok (gs, lex env.parse64 r) := by
    simp only [parseField, hl2, parse_colon hb, parseNamed, parseAny, hmn, hsub, hb', hset1, hset2, hname, ← hurl]
    exact hr.sep _
  refine ⟨gs, ?_, ?_⟩
  · rw [show ('[' :: (url ++ (']' :: fieldValue o body.toValue s)) ++ r) =
      '[' :: (dom ++ '/' :: n ++ (']' :: (fieldValue o body.toValue s ++ r))) by rw [hurl]; simp, hl1]
    exact .cons rfl hpf .nil
  · refine .pay (p := body) (p' := ⟨body.desc, bfs⟩) ⟨url, n, v, b', hsays, ⟨md, hmd, hw, ?_, ?_⟩, hun, hmn, rfl, hdec,
      hbc, hb'⟩ hA
    · rw [getByNumber_set hgl, if_neg (by omega), getByNumber_set hfl, if_pos (by omega)]
    · rw [getByNumber_set hgl, if_pos (by omega)]

/-- Text reads back, with an `Any` in an `Any` up to `n` levels deep. -/
theorem textAny_ctx {env : TEnv} {S : Schema} {o : FOpts} (hS : S.wf = true) (hnames : textWf S = true)
    (hF : FloatSpec env) (hfp : ParsesFloats env.parse64) (hE : NamesEnums env) (hskip : o.skipUnknown = true)
    (hsafe : textSafe S = true) (hlike : anysLike S = true) (n : Nat) : TextCtx env S o (TextAnyOk S n) (anyPay S) := by
  induction n with
  | zero =>
    refine ⟨hS, hnames, hF, hE, hskip, ?_⟩
    intro md d fs url body k ind K s r _ hC hp ha
    unfold asAny at ha
    rw [if_pos (hp md hC.desc)] at ha
    cases ha
  | succ n ih =>
    exact ⟨hS, hnames, hF, hE, hskip, anyReads_succ ih hfp hsafe hlike (fun m md hq hmd hn => hq md hmd hn)⟩

/-- Messages print, with an `Any` in an `Any` up to `n` levels deep. -/
theorem textAny_prints {env : TEnv} {S : Schema} {o : FOpts} (hS : S.wf = true) (hnames : textWf S = true)
    (hskip : o.skipUnknown = true) (hlike : anysLike S = true) (n : Nat) :
    PrintCtx env S o (TextAnyOk S n) (205 * n) := by
  induction n with
  | zero =>
    refine ⟨hS, hnames, hskip, ?_⟩
    intro md d fs url body k ind _ hC hp ha
    unfold asAny at ha
    rw [if_pos (hp md hC.desc)] at ha
    cases ha
  | succ n ih =>
    refine ⟨hS, hnames, hskip, ?_⟩
    intro md d fs url body k ind _ hC hp ha hk
    obtain ⟨dom, n', v, -, -, -, -, hdec, hpc, -, -, -, hPp, hkp⟩ := asAny_says hS hlike hC (hp md hC.desc) ha
    have hdep : depthMsg body ≤ 101 := by
      have := merge_depth hS (m := DynMsg.empty body.desc) hdec
      simpa [DynMsg.empty, depthMsg, depthSlots, recursionLimit] using this
    obtain ⟨pd, hpC⟩ := confMsg_iff.1 hpc
    have hpd : S.msg? body.desc = some pd := hpC.desc
    have hkind : kindOk S (.message body.desc) = true := by
      simp [kindOk, hpd]
    obtain ⟨s, hs⟩ := fmtVal_total ih k ind (Json.plainField (.message body.desc)) body.toValue hkind
      (confVal_msg (by simp [Json.plainField]) rfl hpc) ⟨hPp, hkp⟩ (by
        rw [if_neg (by simp [Json.plainField])]
        simp only [DynMsg.toValue, depthVal]
        unfold depthMsg at hdep
        omega)
    cases k with
    | zero => simp [fmtVal] at hs
    | succ k => exact ⟨s, hs⟩

end Verif.Text
