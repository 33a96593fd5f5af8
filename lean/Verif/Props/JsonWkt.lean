import Verif.Json.Leaf
import Verif.Props.JsonRound
import Verif.Props.JsonTime
/-!
The JSON round-trip with well-known types (C43).
-/
set_option autoImplicit false
namespace Verif.Props
open Verif.Wire Verif.Dyn Verif.Pool Verif.Json

/-- C43 with well-known types: whatever a conforming message is written as, with any options, is
read with any options and the same descriptor as a message of the same type that is alike: the same
fields and extensions are present, with alike values.  `StdLike`: the schema declares the
well-known types as the published files do.  `WktOk` is asked of the message and every
message in it; it asks something of messages of well-known types only: a `Timestamp` or `Duration`
is normalized (`C40_nanos_false` shows that others are written too), a `FloatValue` or
`DoubleValue` is finite (`C43_wrapper_false`), a `FieldMask` has paths that survive
(`C38_false`), a `Value` has a kind (`C43_value_false`).
With `google.protobuf.Any`: `C43_any_partial`. -/
theorem C43_wkt_partial {env : JEnv} {S : Schema} (hwf : S.wf = true) (hnames : jsonWf S = true) (hstd : StdLike S)
    {so : SOpts} (hcross : so.protoNames = true → namesApart S = true) (hfloats : JFloatSpec env) (htimes : JTimeSpec env) (henums : JNamesEnums env) (o : DOpts)
    {m : DynMsg} (hm : confMsg S m = true) (ho : WktOk env S so m) (hk : keepSlots f32Ok (WktOk env S so) m.fields)
    {k K : Nat} (hK : k ≤ K) {j : Json} (hj : toJson env S so k m = .ok j) :
    ∃ m', fromJson env S o K m.desc j = .ok m' ∧ m'.desc = m.desc ∧ AlikeMsg S m m' ∧ confMsg S m' = true :=
  json_reads ⟨hwf, hnames, hcross, hfloats, henums, leaf_std o hwf hstd hfloats htimes⟩ hK hm ho hk hj

/-! ### The hypotheses can be met -/

theorem emb_std {S T : Schema} (hS : ∀ d < 18, S.msg? d = stdSchema.msg? d) (hT : ∀ d < 18, T.msg? d = stdSchema.msg? d) :
    Emb S T id (fun d => d < 18) where
  desc d hd := by
    have hlen : stdSchema.msgs.length = 18 := by decide
    have hmd : ∃ md, stdSchema.msg? d = some md := ⟨_, List.getElem?_eq_getElem (by rw [hlen]; exact hd)⟩
    obtain ⟨md, hmd⟩ := hmd
    have hall : ∀ md ∈ stdSchema.msgs, md.extensions = [] ∧ ∀ f ∈ md.fields, f.default = none ∧
        (match f.kind with | .message i => decide (i < 18) | _ => true) = true ∧
        (f.presence = false → f.card ≠ .repeated → f.kind.plain = true) := by decide +kernel
    obtain ⟨h1, h2⟩ := hall md (List.mem_of_getElem? hmd)
    refine ⟨md, md, (hS d hd).trans hmd, (hT d hd).trans hmd, rfl, h1, h1, fun n => ?_⟩
    cases hf : md.getField n with
    | none => exact .inl ⟨rfl, rfl⟩
    | some f =>
      obtain ⟨h3, h4, h5⟩ := h2 f (getField_mem hf).1
      refine .inr ⟨f, f, rfl, rfl, ⟨rfl, rfl, rfl, rfl, rfl, h3, h3, ?_, h5⟩, fun _ => Iff.rfl⟩
      cases hk : f.kind with
      | message i =>
        rw [hk] at h4
        exact ⟨of_decide_eq_true h4, rfl⟩
      | enum e => exact ⟨e, rfl⟩
      | _ => rfl

/-- A schema that begins with the well-known types and declares no others. -/
theorem stdLike_append {S : Schema} (h : ∀ d < 18, S.msg? d = stdSchema.msg? d)
    (h' : ∀ d md, 18 ≤ d → S.msg? d = some md → wkt? md.name = none) : StdLike S := by
  intro d md w hmd hw
  have hd : d < 18 := by
    rcases Nat.lt_or_ge d 18 with hd | hd
    · exact hd
    · rw [h' d md hd hmd] at hw; cases hw
  have hstd : ∀ d < 18, ((stdSchema.msg? d).bind (fun md => wkt? md.name)).all (fun w => w.std == d) = true := by
    decide +kernel
  have := hstd d hd
  rw [← h d hd, hmd] at this
  simp only [Option.bind_some, hw, Option.all_some, beq_iff_eq] at this
  exact ⟨id, id, _, _, emb_std h (fun _ _ => rfl), emb_std (fun _ _ => rfl) h, hd, this.symm, this ▸ hd, fun _ _ => rfl⟩

/-- A message with a `Timestamp`, a `Duration`, a `Struct`, a `Value`, a `FieldMask`, a list of
`Int64Value` and an `Empty`. -/
def wktMsg : MsgDesc where
  name := "t.W".toList
  fields := [{ Ex.fld 1 "t" (.message 1) with presence := true },
    { Ex.fld 2 "d" (.message 2) with presence := true },
    { Ex.fld 3 "s" (.message 3) with presence := true },
    { Ex.fld 4 "v" (.message 5) with presence := true },
    { Ex.fld 5 "m" (.message 7) with presence := true },
    { Ex.fld 6 "ws" (.message 11) with card := .repeated },
    { Ex.fld 7 "e" (.message 8) with presence := true }]
  mapEntry := false
  extensions := []

/-- The standard types and this message. -/
def wktSchema : Schema where
  msgs := stdSchema.msgs ++ [wktMsg]
  enums := stdSchema.enums

example : wktSchema.wf = true ∧ jsonWf wktSchema = true := by decide +kernel
theorem wkt_like : StdLike wktSchema := by
  refine stdLike_append (fun d hd => ?_) (fun d md hd h => ?_)
  · exact List.getElem?_append_left hd
  · have hd' := (List.getElem?_eq_some_iff.1 h).1
    have : d = 18 := by
      have : wktSchema.msgs.length = 19 := by decide
      omega
    subst this
    cases h
    decide +kernel

/-- Sixty-four binary digits, the lowest first. -/
def bitText (v : BitVec 64) : List Char := (List.range 64).map (fun i => if v.getLsbD i then '1' else '0')
/-- The number back. -/
def bitRead (t : List Char) : BitVec 64 := (BitVec.ofBoolListLE (t.map (fun c => c == '1'))).setWidth 64

theorem bitRead_text (v : BitVec 64) : bitRead (bitText v) = v := by
  unfold bitRead bitText
  apply BitVec.eq_of_getLsbD_eq
  intro i hi
  rw [BitVec.getLsbD_setWidth, BitVec.getLsbD_ofBoolListLE]
  have : (List.map (fun c => c == '1') (List.map (fun i => if v.getLsbD i then '1' else '0') (List.range 64)))[i]? =
      some (v.getLsbD i) := by
    rw [List.getElem?_map, List.getElem?_map, List.getElem?_range hi]
    cases h : v.getLsbD i <;> simp [h]
  simp only [hi, decide_true, Bool.true_and, List.getD_eq_getElem?_getD, this, Option.getD_some]

theorem bitText_digits (v : BitVec 64) : ∀ c ∈ bitText v, isDigit c := by
  intro c hc
  obtain ⟨i, -, rfl⟩ := List.mem_map.1 hc
  split <;> decide

/-- Times for the examples: all the information goes into the digits of the fraction. -/
def wToy : JEnv := { jToy with
  showTime := fun s n => "0001-01-01T00:00:00.".toList ++ ((bitText s ++ bitText (n.setWidth 64)) ++ ['Z'])
  parseTime := fun t => some (bitRead ((t.drop 20).take 64), (bitRead ((t.drop 84).dropLast)).setWidth 32)
  showDur := fun s n => bitText s ++ bitText (n.setWidth 64)
  parseDur := fun t => some (bitRead (t.take 64), (bitRead (t.drop 64)).setWidth 32) }

theorem bitText_length (v : BitVec 64) : (bitText v).length = 64 := by simp [bitText]

theorem narrow_wide (n : BitVec 32) : (n.setWidth 64).setWidth 32 = n := by
  apply BitVec.eq_of_toNat_eq
  simp only [BitVec.toNat_setWidth]
  have := n.isLt
  omega

theorem utf8Encode_app (a b : List Char) : utf8Encode (a ++ b) = utf8Encode a ++ utf8Encode b := by
  induction a with
  | nil => rfl
  | cons c r ih => simp only [List.cons_append, utf8Encode, ih, List.append_assoc]

theorem utf8Encode_digits {ds : List Char} (h : ∀ c ∈ ds, isDigit c) : Digits ds.length (utf8Encode ds) := by
  induction ds with
  | nil => exact ⟨rfl, nofun⟩
  | cons c r ih =>
    have h1 := h c (by simp)
    obtain ⟨h2, h3⟩ := ih (fun d hd => h d (by simp [hd]))
    have h4 : utf8EncodeChar c = [UInt8.ofNat c.toNat] := by
      unfold utf8EncodeChar
      unfold isDigit at h1
      simp only
      rw [if_pos (by omega)]
    refine ⟨by simp [utf8Encode, h4, h2], ?_⟩
    intro b hb
    simp only [utf8Encode, h4, List.singleton_append, List.mem_cons] at hb
    rcases hb with rfl | hb
    · unfold isDigit at h1
      unfold Digit
      rw [UInt8.toNat_ofNat']
      omega
    · exact h3 b hb

theorem wToy_times : JTimeSpec wToy where
  time s n _ _ _ := by
    refine ⟨?_, ?_⟩
    · have h1 : ∀ a b : List Char, a.length = 64 →
          (("0001-01-01T00:00:00.".toList ++ ((a ++ b) ++ ['Z'])).drop 20).take 64 = a := by
        intro a b ha
        rw [List.drop_left' (by decide), List.append_assoc, ← ha, List.take_left]
      have h2 : ∀ a b : List Char, a.length = 64 →
          (("0001-01-01T00:00:00.".toList ++ ((a ++ b) ++ ['Z'])).drop 84).dropLast = b := by
        intro a b ha
        have : ∀ t : List Char, t.drop 84 = (t.drop 20).drop 64 := fun t => by rw [List.drop_drop]
        rw [this, List.drop_left' (by decide), List.append_assoc, ← ha, List.drop_left]
        simp
      show some (bitRead _, BitVec.setWidth 32 (bitRead _)) = _
      simp only [wToy, h1 _ _ (bitText_length _), h2 _ _ (bitText_length _), bitRead_text, narrow_wide]
    · rw [C39_iff]
      have h2 : ∀ c ∈ bitText s ++ bitText (n.setWidth 64), isDigit c := by
        intro c hc
        rcases List.mem_append.1 hc with hc | hc <;> exact bitText_digits _ c hc
      have h1 : (bitText s ++ bitText (n.setWidth 64)).length ≠ 0 := by simp [bitText_length]
      generalize hd : bitText s ++ bitText (n.setWidth 64) = ds at h1 h2
      obtain ⟨hD1, hD2⟩ := utf8Encode_digits h2
      refine ⟨utf8Encode "0001".toList, utf8Encode "01".toList, utf8Encode "01".toList, utf8Encode "00".toList,
        utf8Encode "00".toList, utf8Encode "00".toList, ch '.' :: utf8Encode ds, [ch 'Z'],
        ⟨by decide, by unfold Digit; decide⟩, ⟨by decide, by unfold Digit; decide⟩, ⟨by decide, by unfold Digit; decide⟩,
        ⟨by decide, by unfold Digit; decide⟩, ⟨by decide, by unfold Digit; decide⟩, ⟨by decide, by unfold Digit; decide⟩,
        .inr ⟨ds.length - 1, _, rfl, ⟨by omega, hD2⟩⟩, .inl rfl, ?_⟩
      show utf8Encode ("0001-01-01T00:00:00.".toList ++ ((bitText s ++ bitText (n.setWidth 64)) ++ ['Z'])) = _
      rw [hd, utf8Encode_app, utf8Encode_app]
      rfl
  dur s n _ _ := by
    show some (bitRead _, BitVec.setWidth 32 (bitRead _)) = _
    have h1 := bitText_length s
    simp only [wToy]
    rw [List.take_left' h1, List.drop_left' h1]
    simp only [bitRead_text, narrow_wide]

theorem wktOk_of {env : JEnv} {S : Schema} {so : SOpts} {m : DynMsg} {md : MsgDesc} {w : Wkt} {fs G : FieldSet} {J : Json}
    {b : Bytes} (hmd : S.msg? m.desc = some md) (hw : wkt? md.name = some w) (hd : levelsSlots m.fields ≤ recursionLimit)
    (hb : encMsg S m = some b) (hl : b.length < 2 ^ 64) (ht : transcodeTo S w m = .ok fs) (hk : Keeps w fs)
    (hJ : ∀ k j, serStd env so k fs w = .ok j → j = J) (hG : ∀ K gs, deStd env K J w = .ok gs → gs = G)
    (hs : ∀ c, encMsg stdSchema ⟨w.std, G⟩ = some c → c.length < 2 ^ 64) : WktOk env S so m where
  depth _ _ _ _ := hd
  size md' w' b' _ _ h := by rw [hb] at h; cases h; exact hl
  keeps md' w' fs' h1 h2 h := by
    rw [hmd] at h1; cases h1
    rw [hw] at h2; cases h2
    rw [ht] at h; cases h; exact hk
  size' md' w' fs' h1 h2 h := by
    rw [hmd] at h1; cases h1
    rw [hw] at h2; cases h2
    rw [ht] at h; cases h
    intro k K j gs c h3 h4 h5
    have := hJ k j h3
    subst this
    have := hG K gs h4
    subst this
    exact hs c h5

theorem wktOk_plain {env : JEnv} {S : Schema} {so : SOpts} {m : DynMsg} {md : MsgDesc} (hmd : S.msg? m.desc = some md)
    (hw : wkt? md.name = none) : WktOk env S so m where
  depth md' w h h' := by rw [hmd] at h; cases h; rw [hw] at h'; cases h'
  size md' w _ h h' := by rw [hmd] at h; cases h; rw [hw] at h'; cases h'
  keeps md' w _ h h' := by rw [hmd] at h; cases h; rw [hw] at h'; cases h'
  size' md' w _ h h' := by rw [hmd] at h; cases h; rw [hw] at h'; cases h'

/-- A message with all of them set. -/
def wktEx : DynMsg := ⟨18, [
  (1, .val (.msg 1 [(1, .val (.i64 5)), (2, .val (.i32 7))])),
  (2, .val (.msg 2 [(1, .val (.i64 (BitVec.ofInt 64 (-3))))])),
  (3, .val (.msg 3 [(1, .val (.map [(.str (utf8Encode "a".toList), .msg 5 [(4, .val (.bool true))])]))])),
  (4, .val (.msg 5 [(1, .val (.enum 0))])),
  (5, .val (.msg 7 [(1, .val (.list [.str (utf8Encode "a_b".toList)]))])),
  (6, .val (.list [.msg 11 [], .msg 11 [(1, .val (.i64 9))]])),
  (7, .val (.msg 8 []))]⟩

example : confMsg wktSchema wktEx = true := by decide +kernel
example : (toJson wToy wktSchema .default 9 wktEx).isOk = true := by decide +kernel

theorem std_size {d : Nat} {G : FieldSet} (h : (encMsg stdSchema ⟨d, G⟩).all (fun b => decide (b.length < 2 ^ 64)) = true) :
    ∀ c, encMsg stdSchema ⟨d, G⟩ = some c → c.length < 2 ^ 64 := by
  intro c hc
  rw [hc] at h
  simpa using h

theorem ex_time : WktOk wToy wktSchema .default ⟨1, [(1, .val (.i64 5)), (2, .val (.i32 7))]⟩ :=
  wktOk_of (md := _) (w := .timestamp) (b := [8, 5, 16, 7]) (fs := [(1, .val (.i64 5)), (2, .val (.i32 7))])
    (J := .str (wToy.showTime 5 7)) (G := secNanos (5, 7))
    rfl (by decide +kernel) (by decide +kernel) (by decide +kernel) (by decide) (by decide +kernel) ⟨by decide, by decide⟩
    (fun k j h => by cases h; rfl)
    (fun K gs h => by
      have h1 := (wToy_times.time 5 7 (by decide +kernel) (by decide) (by decide)).1
      have h2 : deStd wToy K (.str (wToy.showTime 5 7)) .timestamp = .ok (secNanos (5, 7)) := by
        simp only [deStd, h1, (wToy_times.time 5 7 (by decide +kernel) (by decide) (by decide)).2, if_true]
        rfl
      rw [h2] at h
      cases h; rfl)
    (std_size (by decide +kernel))

theorem ex_dur : WktOk wToy wktSchema .default ⟨2, [(1, .val (.i64 (BitVec.ofInt 64 (-3))))]⟩ :=
  wktOk_of (md := _) (w := .duration) (b := [8, 253, 255, 255, 255, 255, 255, 255, 255, 255, 1])
    (fs := [(1, .val (.i64 (BitVec.ofInt 64 (-3))))])
    (J := .str (wToy.showDur (BitVec.ofInt 64 (-3)) 0)) (G := secNanos (BitVec.ofInt 64 (-3), 0))
    rfl (by decide +kernel) (by decide +kernel) (by decide +kernel) (by decide) (by decide +kernel) (.inr ⟨by decide, by decide⟩)
    (fun k j h => by cases h; rfl)
    (fun K gs h => by
      have h1 := wToy_times.dur (BitVec.ofInt 64 (-3)) 0 (by decide +kernel) (by decide)
      have h2 : deStd wToy K (.str (wToy.showDur (BitVec.ofInt 64 (-3)) 0)) .duration =
          .ok (secNanos (BitVec.ofInt 64 (-3), 0)) := by
        simp only [deStd, h1]
        rfl
      rw [h2] at h
      cases h; rfl)
    (std_size (by decide +kernel))

theorem ex_bool : WktOk wToy wktSchema .default ⟨5, [(4, .val (.bool true))]⟩ :=
  wktOk_of (md := _) (w := .value) (b := [32, 1]) (fs := [(4, .val (.bool true))])
    (J := .bool true) (G := [(4, .val (.bool true))])
    rfl (by decide +kernel) (by decide +kernel) (by decide +kernel) (by decide) (by decide +kernel)
    ⟨fun _ => ⟨⟨4, _, by decide, by decide, rfl⟩, fun _ h => by cases h⟩, trivial, trivial⟩
    (fun k j h => by cases h; rfl) (fun K gs h => by cases h; rfl) (std_size (by decide +kernel))

theorem ex_null : WktOk wToy wktSchema .default ⟨5, [(1, .val (.enum 0))]⟩ :=
  wktOk_of (md := _) (w := .value) (b := [8, 0]) (fs := [(1, .val (.enum 0))])
    (J := .null) (G := [(1, .val (.enum 0))])
    rfl (by decide +kernel) (by decide +kernel) (by decide +kernel) (by decide) (by decide +kernel)
    ⟨fun _ => ⟨⟨1, _, by decide, by decide, rfl⟩, fun _ h => by cases h; rfl⟩, trivial, trivial⟩
    (fun k j h => by cases h; rfl) (fun K gs h => by cases h; rfl) (std_size (by decide +kernel))

theorem ex_struct : WktOk wToy wktSchema .default
    ⟨3, [(1, .val (.map [(.str (utf8Encode "a".toList), .msg 5 [(4, .val (.bool true))])]))]⟩ :=
  wktOk_of (md := _) (w := .struct) (b := [10, 7, 10, 1, 97, 18, 2, 32, 1])
    (fs := [(1, .val (.map [(.str (utf8Encode "a".toList), .msg 5 [(4, .val (.bool true))])]))])
    (J := .obj [("a".toList, .bool true)])
    (G := [(1, .val (.map [(.str (utf8Encode "a".toList), .msg 5 [(4, .val (.bool true))])]))])
    rfl (by decide +kernel) (by decide +kernel) (by decide +kernel) (by decide) (by decide +kernel)
    ⟨(fun h => by cases h), ⟨⟨fun _ => ⟨⟨4, _, by decide, by decide, rfl⟩, fun _ h => by cases h⟩, trivial, trivial⟩, trivial⟩, trivial⟩
    (fun k j h => by
      cases k with
      | zero => cases h
      | succ k =>
        have : serStd wToy .default (k + 1)
          [(1, .val (.map [(.str (utf8Encode "a".toList), .msg 5 [(4, .val (.bool true))])]))] .struct =
            .ok (.obj [("a".toList, .bool true)]) := rfl
        rw [this] at h
        cases h; rfl)
    (fun K gs h => by
      cases K with
      | zero => cases h
      | succ k => cases h; rfl) (std_size (by decide +kernel))

theorem ex_mask : WktOk wToy wktSchema .default ⟨7, [(1, .val (.list [.str (utf8Encode "a_b".toList)]))]⟩ :=
  wktOk_of (md := _) (w := .fieldMask) (b := [10, 3, 97, 95, 98]) (fs := [(1, .val (.list [.str (utf8Encode "a_b".toList)]))])
    (J := .str "aB".toList) (G := [(1, .val (.list [.str (utf8Encode "a_b".toList)]))])
    rfl (by decide +kernel) (by decide +kernel) (by decide +kernel) (by decide) (by decide +kernel)
    (fun ps h p hp => by
      have h' : mapE strVal (stdList [(1, .val (.list [.str (utf8Encode "a_b".toList)]))] 1) = .ok ["a_b".toList] := by
        decide +kernel
      rw [h'] at h
      cases h
      exact (C38_survives ["a_b".toList] "aB".toList (by decide +kernel)).1 (by decide +kernel) p hp)
    (fun k j h => by
      have h' : serStd wToy .default 0 [(1, .val (.list [.str (utf8Encode "a_b".toList)]))] .fieldMask =
        .ok (.str "aB".toList) := by decide +kernel
      have h2 : serStd wToy .default k [(1, .val (.list [.str (utf8Encode "a_b".toList)]))] .fieldMask =
        .ok (.str "aB".toList) := h'
      rw [h2] at h
      cases h; rfl)
    (fun K gs h => by
      have h' : deStd wToy 0 (.str "aB".toList) .fieldMask = .ok [(1, .val (.list [.str (utf8Encode "a_b".toList)]))] := by
        decide +kernel
      have h2 : deStd wToy K (.str "aB".toList) .fieldMask = .ok [(1, .val (.list [.str (utf8Encode "a_b".toList)]))] := h'
      rw [h2] at h
      cases h; rfl) (std_size (by decide +kernel))

theorem ex_int (v : BitVec 64) (h9 : v = 9) : WktOk wToy wktSchema .default ⟨11, [(1, .val (.i64 v))]⟩ := by
  subst h9
  exact wktOk_of (md := _) (w := .int64) (b := [8, 9]) (fs := [(1, .val (.i64 9))])
    (J := .str "9".toList) (G := one1 (.i64 9))
    rfl (by decide +kernel) (by decide +kernel) (by decide +kernel) (by decide) (by decide +kernel) trivial
    (fun k j h => by
      have h' : serStd wToy .default 0 [(1, .val (.i64 9))] .int64 = .ok (.str "9".toList) := by decide +kernel
      have h2 : serStd wToy .default k [(1, .val (.i64 9))] .int64 = .ok (.str "9".toList) := h'
      rw [h2] at h
      cases h; rfl)
    (fun K gs h => by
      have h' : deStd wToy 0 (.str "9".toList) .int64 = .ok (one1 (.i64 9)) := by decide +kernel
      have h2 : deStd wToy K (.str "9".toList) .int64 = .ok (one1 (.i64 9)) := h'
      rw [h2] at h
      cases h; rfl) (std_size (by decide +kernel))

theorem ex_zero : WktOk wToy wktSchema .default ⟨11, []⟩ :=
  wktOk_of (md := _) (w := .int64) (b := []) (fs := [])
    (J := .str "0".toList) (G := one1 (.i64 0))
    rfl (by decide +kernel) (by decide +kernel) (by decide +kernel) (by decide) (by decide +kernel) trivial
    (fun k j h => by
      have h' : serStd wToy .default 0 [] .int64 = .ok (.str "0".toList) := by decide +kernel
      have h2 : serStd wToy .default k [] .int64 = .ok (.str "0".toList) := h'
      rw [h2] at h
      cases h; rfl)
    (fun K gs h => by
      have h' : deStd wToy 0 (.str "0".toList) .int64 = .ok (one1 (.i64 0)) := by decide +kernel
      have h2 : deStd wToy K (.str "0".toList) .int64 = .ok (one1 (.i64 0)) := h'
      rw [h2] at h
      cases h; rfl) (std_size (by decide +kernel))

theorem ex_empty : WktOk wToy wktSchema .default ⟨8, []⟩ :=
  wktOk_of (md := _) (w := .empty) (b := []) (fs := []) (J := .obj []) (G := [])
    rfl (by decide +kernel) (by decide +kernel) (by decide +kernel) (by decide) (by decide +kernel) trivial
    (fun k j h => by cases h; rfl) (fun K gs h => by cases h; rfl) (std_size (by decide +kernel))

example : WktOk wToy wktSchema .default wktEx :=
  wktOk_plain (md := wktMsg) rfl (by decide +kernel)
example : keepSlots f32Ok (WktOk wToy wktSchema .default) wktEx.fields := by
  simp only [wktEx, keepSlots, keepVal, keepVals, keepMap, and_true]
  exact ⟨ex_time, ex_dur, ⟨ex_struct, ex_bool⟩, ex_null, ex_mask, ⟨ex_zero, ex_int 9 rfl⟩, ex_empty⟩
example : JFloatSpec wToy := ⟨jToy_floats.fin32, nofun, nofun, nofun, nofun, nofun, nofun⟩
example : JNamesEnums wToy := jToy_enums

end Verif.Props
