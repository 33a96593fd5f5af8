import Verif.Json.Make
import Verif.Props.JsonTime
import Verif.Props.JsonWkt
/-!
The well-known types in JSON, as the API shows them: timestamps, durations and wrappers
(C39, C40, C65).
-/
set_option autoImplicit false
namespace Verif.Props
open Verif.Wire Verif.Dyn Verif.Pool Verif.Json

/-! ### From the standard message to the API and back -/

theorem read_std {env : JEnv} {S : Schema} {d : Nat} {md : MsgDesc} {w : Wkt} (hmd : S.msg? d = some md)
    (hw : wkt? md.name = some w) (hany : w ≠ .any) (o : DOpts) (k : Nat) (j : Json) :
    fromJson env S o k d j =
      match deStd env k j w with
      | .error e => .error e
      | .ok fs => makeMsg S d w fs := by
  simp only [fromJson, deMsg, hmd, hw]
  cases w <;> first | exact absurd rfl hany | rfl

theorem write_std {env : JEnv} {S : Schema} {m : DynMsg} {md : MsgDesc} {w : Wkt} (hmd : S.msg? m.desc = some md)
    (hw : wkt? md.name = some w) (hany : w ≠ .any) (he : w ≠ .empty) (so : SOpts) (k : Nat) :
    toJson env S so k m =
      match transcodeTo S w m with
      | .error e => .error e
      | .ok fs => serStd env so k fs w := by
  simp only [toJson, serMsg, hmd, hw]
  cases w <;> first | exact absurd rfl hany | exact absurd rfl he | rfl

/-- Reading, when the standard message nests and takes no more than is allowed. -/
theorem read_make {env : JEnv} {S : Schema} (hS : S.wf = true) (hL : StdLike S) {d : Nat} {md : MsgDesc} {w : Wkt}
    (hmd : S.msg? d = some md) (hw : wkt? md.name = some w) (hany : w ≠ .any) (o : DOpts) {k : Nat} {j : Json}
    {gs : FieldSet} (hj : deStd env k j w = .ok gs) (hd : depthSlots gs ≤ 100) (hl : weightSlots gs < 2 ^ 64) :
    ∃ m, fromJson env S o k d j = .ok m ∧ m.desc = d ∧ confMsg S m = true ∧
      ∀ sd n f, stdSchema.msg? w.std = some sd → sd.getField n = some f → PlainField f →
        DynMsg.getByNumber S md m n = (DynMsg.getByNumber stdSchema sd ⟨w.std, gs⟩ n).map (Option.map plusZero) := by
  rw [read_std hmd hw hany o k j, hj]
  refine make_get hS hL hmd hw ((deStd_sound (st := false) env k j nofun w hany).ok hj) ?_ ?_
  · exact hd
  · intro b hb
    have := encMsg_le stdSchema_wf hb
    simp only at this
    omega

/-! ### Timestamps and durations -/

theorem secNanos_get {w : Wkt} (hw : w = .timestamp ∨ w = .duration) (p : BitVec 64 × BitVec 32) :
    ∃ sd f1 f2, stdSchema.msg? w.std = some sd ∧ sd.getField 1 = some f1 ∧ PlainField f1 ∧ sd.getField 2 = some f2 ∧ PlainField f2 ∧
      DynMsg.getByNumber stdSchema sd ⟨w.std, secNanos p⟩ 1 = some (some (.i64 p.1)) ∧
      DynMsg.getByNumber stdSchema sd ⟨w.std, secNanos p⟩ 2 = some (some (.i32 p.2)) := by
  rcases hw with rfl | rfl
  all_goals exact ⟨_, _, _, rfl, rfl, ⟨rfl, by decide, rfl, rfl⟩, rfl, ⟨rfl, by decide, rfl, rfl⟩, rfl, rfl⟩

theorem read_secNanos {env : JEnv} {S : Schema} (hS : S.wf = true) (hL : StdLike S) {d : Nat} {md : MsgDesc} {w : Wkt}
    (hmd : S.msg? d = some md) (hw : wkt? md.name = some w) (hw' : w = .timestamp ∨ w = .duration) (o : DOpts) {k : Nat} {j : Json}
    {p : BitVec 64 × BitVec 32} (hj : deStd env k j w = .ok (secNanos p)) :
    ∃ m, fromJson env S o k d j = .ok m ∧ m.desc = d ∧ confMsg S m = true ∧
      DynMsg.getByNumber S md m 1 = some (some (.i64 p.1)) ∧ DynMsg.getByNumber S md m 2 = some (some (.i32 p.2)) := by
  have hany : w ≠ .any := by rcases hw' with rfl | rfl <;> decide
  obtain ⟨m, h1, h2, h3, h4⟩ := read_make hS hL hmd hw hany o hj (by simp [secNanos, depthSlots, depthVal]) (by simp [secNanos, weightSlots, weightVal])
  obtain ⟨sd, f1, f2, hsd, hf1, hp1, hf2, hp2, hg1, hg2⟩ := secNanos_get hw' p
  refine ⟨m, h1, h2, h3, ?_, ?_⟩
  · rw [h4 sd 1 f1 hsd hf1 hp1, hg1]; rfl
  · rw [h4 sd 2 f2 hsd hf2 hp2, hg2]; rfl

/-- C39 and C40 for what is read: JSON is accepted for a `google.protobuf.Timestamp` exactly when it
is a string `YYYY-MM-DDTHH:MM:SS[.digits](Z|(+|-)HH:MM)` that the time parser of `prost_types`
takes, for a time from the start of year 1 to the end of year 9999. -/
theorem C39_read {env : JEnv} {S : Schema} (hS : S.wf = true) (hL : StdLike S) {d : Nat} {md : MsgDesc}
    (hmd : S.msg? d = some md) (hname : md.name = "google.protobuf.Timestamp".toList) (o : DOpts) (k : Nat) (j : Json) :
    (∃ m, fromJson env S o k d j = .ok m) ↔ ∃ s sec nanos, j = .str s ∧ Timestamp (utf8Encode s) ∧
      env.parseTime s = some (sec, nanos) ∧ -62135596800 ≤ sec.toInt ∧ sec.toInt ≤ 253402300799 := by
  have hw : wkt? md.name = some .timestamp := by rw [hname]; decide +kernel
  constructor
  · rintro ⟨m, h⟩
    rw [read_std hmd hw (by decide)] at h
    cases hd : deStd env k j .timestamp with
    | error e => rw [hd] at h; cases h
    | ok fs =>
      simp only [deStd] at hd
      split at hd
      · rename_i s
        split at hd
        · rename_i hr
          split at hd
          · rename_i p hp
            split at hd
            · rename_i hc
              have := (C40_timestamp_partial p.1 p.2).1 hc
              exact ⟨s, p.1, p.2, rfl, (C39_iff _).1 hr, hp, this.1, this.2⟩
            · cases hd
          · cases hd
        · cases hd
      · cases hd
  · rintro ⟨s, sec, nanos, rfl, h2, h3, h4, h5⟩
    have : deStd env k (.str s) .timestamp = .ok (secNanos (sec, nanos)) := by
      simp only [deStd, (C39_iff _).2 h2, h3, (C40_timestamp_partial sec nanos).2 ⟨h4, h5⟩, if_true]
    obtain ⟨m, h, -⟩ := read_secNanos hS hL hmd hw (.inl rfl) o this
    exact ⟨m, h⟩

theorem wkt_wf : wktSchema.wf = true := by decide +kernel

/-- `Timestamp` and `Duration` of the examples. -/
def exTime : MsgDesc :=
  { name := Wkt.timestamp.name, mapEntry := false, extensions := [], fields := [
    stdField 1 "seconds" .int64 .optional false none, stdField 2 "nanos" .int32 .optional false none] }
@[inherit_doc exTime] def exDur : MsgDesc := { exTime with name := Wkt.duration.name }

/-- A time is read, and text that is none is not. -/
example : (∃ m, fromJson wToy wktSchema .default 3 1 (.str (wToy.showTime 5 7)) = .ok m) ∧
    ¬ ∃ m, fromJson wToy wktSchema .default 3 1 (.str "yesterday".toList) = .ok m := by
  constructor
  · have h := wToy_times.time 5 7 (by decide +kernel) (by decide) (by decide)
    exact (C39_read wkt_wf wkt_like (md := exTime) rfl rfl .default 3 _).2
      ⟨_, 5, 7, rfl, (C39_iff _).1 h.2, h.1, by decide, by decide⟩
  · rw [C39_read wkt_wf wkt_like (md := exTime) rfl rfl]
    rintro ⟨s, -, -, h, h', -⟩
    cases h
    exact absurd ((C39_iff _).2 h') (by decide +kernel)

/-- And the message has the seconds and nanoseconds the parser gives. -/
theorem C39_value {env : JEnv} {S : Schema} (hS : S.wf = true) (hL : StdLike S) {d : Nat} {md : MsgDesc}
    (hmd : S.msg? d = some md) (hname : md.name = "google.protobuf.Timestamp".toList) (o : DOpts) {k : Nat} {j : Json}
    {m : DynMsg} (h : fromJson env S o k d j = .ok m) :
    ∃ s sec nanos, j = .str s ∧ env.parseTime s = some (sec, nanos) ∧ m.desc = d ∧
      DynMsg.getByNumber S md m 1 = some (some (.i64 sec)) ∧ DynMsg.getByNumber S md m 2 = some (some (.i32 nanos)) := by
  have hw : wkt? md.name = some .timestamp := by rw [hname]; decide +kernel
  obtain ⟨s, sec, nanos, rfl, h2, h3, h4, h5⟩ := (C39_read hS hL hmd hname o k j).1 ⟨m, h⟩
  have : deStd env k (.str s) .timestamp = .ok (secNanos (sec, nanos)) := by
    simp only [deStd, (C39_iff _).2 h2, h3, (C40_timestamp_partial sec nanos).2 ⟨h4, h5⟩, if_true]
  obtain ⟨m', g1, g2, g3, g4, g5⟩ := read_secNanos hS hL hmd hw (.inl rfl) o this
  rw [h] at g1
  cases g1
  exact ⟨s, sec, nanos, rfl, h3, g2, g4, g5⟩

example : ∃ m, fromJson wToy wktSchema .default 3 1 (.str (wToy.showTime 5 7)) = .ok m ∧
    DynMsg.getByNumber wktSchema exTime m 1 = some (some (.i64 5)) := by
  have h := wToy_times.time 5 7 (by decide +kernel) (by decide) (by decide)
  obtain ⟨m, hm⟩ := (C39_read (env := wToy) (d := 1) wkt_wf wkt_like (md := exTime) rfl rfl .default 3 _).2
      ⟨_, 5, 7, rfl, (C39_iff _).1 h.2, h.1, by decide, by decide⟩
  obtain ⟨s, sec, nanos, e, h1, -, h2, -⟩ := C39_value (d := 1) wkt_wf wkt_like (md := exTime) rfl rfl .default hm
  cases e
  rw [h.1] at h1
  cases h1
  exact ⟨m, hm, h2⟩

/-- C40 for durations that are read: JSON is accepted for a `google.protobuf.Duration` exactly when
it is a string that the duration parser of `prost_types` takes, for at most 315576000000 seconds and
999999999 nanoseconds either way. -/
theorem C40_read {env : JEnv} {S : Schema} (hS : S.wf = true) (hL : StdLike S) {d : Nat} {md : MsgDesc}
    (hmd : S.msg? d = some md) (hname : md.name = "google.protobuf.Duration".toList) (o : DOpts) (k : Nat) (j : Json) :
    (∃ m, fromJson env S o k d j = .ok m) ↔ ∃ s sec nanos, j = .str s ∧
      env.parseDur s = some (sec, nanos) ∧ -315576000000 ≤ sec.toInt ∧ sec.toInt ≤ 315576000000 ∧
      -999999999 ≤ nanos.toInt ∧ nanos.toInt ≤ 999999999 := by
  have hw : wkt? md.name = some .duration := by rw [hname]; decide +kernel
  constructor
  · rintro ⟨m, h⟩
    rw [read_std hmd hw (by decide)] at h
    cases hd : deStd env k j .duration with
    | error e => rw [hd] at h; cases h
    | ok fs =>
      simp only [deStd] at hd
      split at hd
      · rename_i s
        split at hd
        · rename_i p hp
          split at hd
          · rename_i hc
            exact ⟨s, p.1, p.2, rfl, hp, (C40_duration p.1 p.2).1 hc⟩
          · cases hd
        · cases hd
      · cases hd
  · rintro ⟨s, sec, nanos, rfl, h2, h3⟩
    have : deStd env k (.str s) .duration = .ok (secNanos (sec, nanos)) := by
      simp only [deStd, h2, (C40_duration sec nanos).2 h3, if_true]
    obtain ⟨m, h, -⟩ := read_secNanos hS hL hmd hw (.inr rfl) o this
    exact ⟨m, h⟩

/-- Three seconds back are read; more than ten thousand years are not. -/
example : (∃ m, fromJson wToy wktSchema .default 3 2 (.str (wToy.showDur (BitVec.ofInt 64 (-3)) 0)) = .ok m) ∧
    ¬ ∃ m, fromJson wToy wktSchema .default 3 2 (.str (bitText 315576000001 ++ bitText 0)) = .ok m := by
  constructor
  · have h := wToy_times.dur (BitVec.ofInt 64 (-3)) 0 (by decide +kernel) (by decide)
    exact (C40_read wkt_wf wkt_like (md := exDur) rfl rfl .default 3 _).2
      ⟨_, _, _, rfl, h, by decide, by decide, by decide, by decide⟩
  · rw [C40_read wkt_wf wkt_like (md := exDur) rfl rfl]
    rintro ⟨s, sec, nanos, h, h', h1, h2, -⟩
    cases h
    have : wToy.parseDur (bitText 315576000001 ++ bitText 0) = some (315576000001, 0) := by decide +kernel
    rw [this] at h'
    cases h'
    exact absurd h2 (by decide)

/-- And the message has the seconds and nanoseconds the parser gives. -/
theorem C40_value {env : JEnv} {S : Schema} (hS : S.wf = true) (hL : StdLike S) {d : Nat} {md : MsgDesc}
    (hmd : S.msg? d = some md) (hname : md.name = "google.protobuf.Duration".toList) (o : DOpts) {k : Nat} {j : Json}
    {m : DynMsg} (h : fromJson env S o k d j = .ok m) :
    ∃ s sec nanos, j = .str s ∧ env.parseDur s = some (sec, nanos) ∧ m.desc = d ∧
      DynMsg.getByNumber S md m 1 = some (some (.i64 sec)) ∧ DynMsg.getByNumber S md m 2 = some (some (.i32 nanos)) := by
  have hw : wkt? md.name = some .duration := by rw [hname]; decide +kernel
  obtain ⟨s, sec, nanos, rfl, h2, h3⟩ := (C40_read hS hL hmd hname o k j).1 ⟨m, h⟩
  have : deStd env k (.str s) .duration = .ok (secNanos (sec, nanos)) := by
    simp only [deStd, h2, (C40_duration sec nanos).2 h3, if_true]
  obtain ⟨m', g1, g2, g3, g4, g5⟩ := read_secNanos hS hL hmd hw (.inr rfl) o this
  rw [h] at g1
  cases g1
  exact ⟨s, sec, nanos, rfl, h2, g2, g4, g5⟩

example : ∃ m, fromJson wToy wktSchema .default 3 2 (.str (wToy.showDur (BitVec.ofInt 64 (-3)) 0)) = .ok m ∧
    DynMsg.getByNumber wktSchema exDur m 1 = some (some (.i64 (BitVec.ofInt 64 (-3)))) := by
  have h := wToy_times.dur (BitVec.ofInt 64 (-3)) 0 (by decide +kernel) (by decide)
  obtain ⟨m, hm⟩ := (C40_read (env := wToy) (d := 2) wkt_wf wkt_like (md := exDur) rfl rfl .default 3 _).2
      ⟨_, _, _, rfl, h, by decide, by decide, by decide, by decide⟩
  obtain ⟨s, sec, nanos, e, h1, -, h2, -⟩ := C40_value (d := 2) wkt_wf wkt_like (md := exDur) rfl rfl .default hm
  cases e
  rw [h] at h1
  cases h1
  exact ⟨m, hm, h2⟩

/-- What a message has to be for its encoding to be decoded again. -/
structure Sized (S : Schema) (m : DynMsg) : Prop where
  conf : confMsg S m = true
  depth : levelsSlots m.fields ≤ 100
  size : ∀ b, encMsg S m = some b → b.length < 2 ^ 64

theorem write_secNanos {S : Schema} (hS : S.wf = true) (hL : StdLike S) {m : DynMsg} {md : MsgDesc} {w : Wkt}
    (hmd : S.msg? m.desc = some md) (hw : wkt? md.name = some w) (hw' : w = .timestamp ∨ w = .duration)
    (hm : Sized S m) {sec : BitVec 64} {nanos : BitVec 32}
    (h1 : DynMsg.getByNumber S md m 1 = some (some (.i64 sec))) (h2 : DynMsg.getByNumber S md m 2 = some (some (.i32 nanos))) :
    ∃ fs, transcodeTo S w m = .ok fs ∧ stdI64 fs 1 = sec ∧ stdI32 fs 2 = nanos := by
  have hany : w ≠ .any := by rcases hw' with rfl | rfl <;> decide
  obtain ⟨fs, g1, g2, g3⟩ := to_get hS hL hmd hw hm.conf hm.depth hm.size
  obtain ⟨sd, f1, f2, hsd, hf1, hp1, hf2, hp2, -⟩ := secNanos_get hw' (0, 0)
  have e1 := g3 sd 1 f1 hsd hf1 hp1
  have e2 := g3 sd 2 f2 hsd hf2 hp2
  rw [h1] at e1
  rw [h2] at e2
  have n1 := (getField_mem hf1).2
  have n2 := (getField_mem hf2).2
  simp only [DynMsg.getByNumber, hf1, hf2, DynMsg.getField, FieldSet.get, n1, n2, Option.map_some, plusZero, hp1.get, hp2.get] at e1 e2
  refine ⟨fs, g1, ?_, ?_⟩
  · unfold stdI64
    cases hv : FieldSet.getValue fs 1 with
    | none =>
      rw [hv] at e1
      rcases hw' with rfl | rfl <;> cases hsd <;> cases hf1 <;> cases e1 <;> rfl
    | some v => rw [hv] at e1; cases e1; rfl
  · unfold stdI32
    cases hv : FieldSet.getValue fs 2 with
    | none =>
      rw [hv] at e2
      rcases hw' with rfl | rfl <;> cases hsd <;> cases hf2 <;> cases e2 <;> rfl
    | some v => rw [hv] at e2; cases e2; rfl

/-- C40 for timestamps that are written: one in range is written as `prost_types` displays it, any
other is an error. -/
theorem C40_write_timestamp_partial {env : JEnv} {S : Schema} (hS : S.wf = true) (hL : StdLike S) {m : DynMsg} {md : MsgDesc}
    (hmd : S.msg? m.desc = some md) (hname : md.name = "google.protobuf.Timestamp".toList) (so : SOpts) (k : Nat)
    (hm : Sized S m) {sec : BitVec 64} {nanos : BitVec 32}
    (h1 : DynMsg.getByNumber S md m 1 = some (some (.i64 sec))) (h2 : DynMsg.getByNumber S md m 2 = some (some (.i32 nanos))) :
    toJson env S so k m = if -62135596800 ≤ sec.toInt ∧ sec.toInt ≤ 253402300799 then .ok (.str (env.showTime sec nanos))
      else .error .err := by
  have hw : wkt? md.name = some .timestamp := by rw [hname]; decide +kernel
  obtain ⟨fs, g1, g2, g3⟩ := write_secNanos hS hL hmd hw (.inl rfl) hm h1 h2
  rw [write_std hmd hw (by decide) (by decide), g1]
  simp only [serStd, g2, g3]
  have := C40_timestamp_partial sec nanos
  split <;> rename_i hc
  · rw [if_pos (this.1 hc)]
  · rw [if_neg (fun h => hc (this.2 h))]

/-- Messages small enough that their weight shows it. -/
theorem Sized.of {S : Schema} {m : DynMsg} (hS : S.wf = true) (hc : confMsg S m = true) (hd : levelsSlots m.fields ≤ 100)
    (hw : weightSlots m.fields < 2 ^ 64) : Sized S m :=
  ⟨hc, hd, fun b hb => by have := encMsg_le hS hb; omega⟩

example : toJson wToy wktSchema .default 3 ⟨1, [(1, .val (.i64 5)), (2, .val (.i32 7))]⟩ = .ok (.str (wToy.showTime 5 7)) ∧
    toJson wToy wktSchema .default 3 ⟨1, [(1, .val (.i64 253402300800))]⟩ = .error .err := by
  rw [C40_write_timestamp_partial (md := exTime) (sec := 5) (nanos := 7) wkt_wf wkt_like rfl rfl .default 3
      (.of wkt_wf (by decide +kernel) (by decide +kernel) (by decide +kernel)) (by decide +kernel) (by decide +kernel),
    C40_write_timestamp_partial (md := exTime) (sec := 253402300800) (nanos := 0) wkt_wf wkt_like rfl rfl .default 3
      (.of wkt_wf (by decide +kernel) (by decide +kernel) (by decide +kernel)) (by decide +kernel) (by decide +kernel)]
  exact ⟨if_pos (by decide), if_neg (by decide)⟩

/-- C40 for durations that are written. -/
theorem C40_write_duration {env : JEnv} {S : Schema} (hS : S.wf = true) (hL : StdLike S) {m : DynMsg} {md : MsgDesc}
    (hmd : S.msg? m.desc = some md) (hname : md.name = "google.protobuf.Duration".toList) (so : SOpts) (k : Nat)
    (hm : Sized S m) {sec : BitVec 64} {nanos : BitVec 32}
    (h1 : DynMsg.getByNumber S md m 1 = some (some (.i64 sec))) (h2 : DynMsg.getByNumber S md m 2 = some (some (.i32 nanos))) :
    toJson env S so k m = if -315576000000 ≤ sec.toInt ∧ sec.toInt ≤ 315576000000 ∧ -999999999 ≤ nanos.toInt ∧
      nanos.toInt ≤ 999999999 then .ok (.str (env.showDur sec nanos)) else .error .err := by
  have hw : wkt? md.name = some .duration := by rw [hname]; decide +kernel
  obtain ⟨fs, g1, g2, g3⟩ := write_secNanos hS hL hmd hw (.inr rfl) hm h1 h2
  rw [write_std hmd hw (by decide) (by decide), g1]
  simp only [serStd, g2, g3]
  have := C40_duration sec nanos
  split <;> rename_i hc
  · rw [if_pos (this.1 hc)]
  · rw [if_neg (fun h => hc (this.2 h))]

example : toJson wToy wktSchema .default 3 ⟨2, [(2, .val (.i32 7))]⟩ = .ok (.str (wToy.showDur 0 7)) ∧
    toJson wToy wktSchema .default 3 ⟨2, [(1, .val (.i64 315576000001))]⟩ = .error .err := by
  rw [C40_write_duration (md := exDur) (sec := 0) (nanos := 7) wkt_wf wkt_like rfl rfl .default 3
      (.of wkt_wf (by decide +kernel) (by decide +kernel) (by decide +kernel)) (by decide +kernel) (by decide +kernel),
    C40_write_duration (md := exDur) (sec := 315576000001) (nanos := 0) wkt_wf wkt_like rfl rfl .default 3
      (.of wkt_wf (by decide +kernel) (by decide +kernel) (by decide +kernel)) (by decide +kernel) (by decide +kernel)]
  exact ⟨if_pos (by decide), if_neg (by decide)⟩

/-! ### Wrappers -/

/-- The wrapper types and what they wrap. -/
def wrapped : List (List Char × Kind) :=
  [("google.protobuf.DoubleValue".toList, .double), ("google.protobuf.FloatValue".toList, .float),
   ("google.protobuf.Int64Value".toList, .int64), ("google.protobuf.UInt64Value".toList, .uint64),
   ("google.protobuf.Int32Value".toList, .int32), ("google.protobuf.UInt32Value".toList, .uint32),
   ("google.protobuf.BoolValue".toList, .bool), ("google.protobuf.StringValue".toList, .string),
   ("google.protobuf.BytesValue".toList, .bytes)]

/-- Not a number that JSON can write as one. -/
def nonFinite : Value → Bool
  | .f32 v => !finite32 v
  | .f64 v => !finite64 v
  | _ => false

/-- What is known of a wrapper type and the kind it wraps. -/
structure Wraps (w : Wkt) (kd : Kind) : Prop where
  any : w ≠ .any
  empty : w ≠ .empty
  desc : stdSchema.msg? w.std = some (wrapper w kd)
  plain : kd.plain = true
  reads : ∀ env k j, deStd env k j w = (deScalar env kd j).map one1
  writes : ∀ env (S : Schema) so k fs v, scalarOk kd v = true →
    (FieldSet.getValue fs 1 = some v ∨ FieldSet.getValue fs 1 = none ∧ kindDefault stdSchema kd = some v) → nonFinite v = false →
    serStd env so k fs w = serScalar env S so kd v

theorem wrapped_wkt {p : List Char × Kind} (h : p ∈ wrapped) : ∃ w, wkt? p.1 = some w ∧ Wraps w p.2 := by
  simp only [wrapped, List.mem_cons, List.not_mem_nil, or_false] at h
  rcases h with rfl | rfl | rfl | rfl | rfl | rfl | rfl | rfl | rfl
  · refine ⟨.double, by decide +kernel, by decide, by decide, rfl, rfl, fun env k j => ?_, fun env S so k fs v hv h hf => ?_⟩
    · simp only [deStd, deScalar]; cases visitDouble env j <;> rfl
    · cases v <;> first | (cases hv; done) | skip
      rename_i v
      have e : stdF64 fs 1 = v := by
        unfold stdF64
        rcases h with h | ⟨h, h'⟩
        · rw [h]
        · rw [h]; cases h'; rfl
      have hf' : finite64 v = true := by simpa [nonFinite] using hf
      simp only [serStd, e, serScalar, rawF64, serF64, hf', if_true]
  · refine ⟨.float, by decide +kernel, by decide, by decide, rfl, rfl, fun env k j => ?_, fun env S so k fs v hv h hf => ?_⟩
    · simp only [deStd, deScalar]; cases visitFloat env j <;> rfl
    · cases v <;> first | (cases hv; done) | skip
      rename_i v
      have e : stdF32 fs 1 = v := by
        unfold stdF32
        rcases h with h | ⟨h, h'⟩
        · rw [h]
        · rw [h]; cases h'; rfl
      have hf' : finite32 v = true := by simpa [nonFinite] using hf
      simp only [serStd, e, serScalar, rawF32, serF32, hf', if_true]
  · refine ⟨.int64, by decide +kernel, by decide, by decide, rfl, rfl, fun env k j => ?_, fun env S so k fs v hv h hf => ?_⟩
    · simp only [deStd, deScalar]; cases visitI64 j <;> rfl
    · cases v <;> first | (cases hv; done) | skip
      rename_i v
      have e : stdI64 fs 1 = v := by
        unfold stdI64
        rcases h with h | ⟨h, h'⟩
        · rw [h]
        · rw [h]; cases h'; rfl
      simp only [serStd, e, serScalar]
  · refine ⟨.uint64, by decide +kernel, by decide, by decide, rfl, rfl, fun env k j => ?_, fun env S so k fs v hv h hf => ?_⟩
    · simp only [deStd, deScalar]; cases visitU64 j <;> rfl
    · cases v <;> first | (cases hv; done) | skip
      rename_i v
      have e : stdU64 fs 1 = v := by
        unfold stdU64
        rcases h with h | ⟨h, h'⟩
        · rw [h]
        · rw [h]; cases h'; rfl
      simp only [serStd, e, serScalar]
  · refine ⟨.int32, by decide +kernel, by decide, by decide, rfl, rfl, fun env k j => ?_, fun env S so k fs v hv h hf => ?_⟩
    · simp only [deStd, deScalar]; cases visitI32 j <;> rfl
    · cases v <;> first | (cases hv; done) | skip
      rename_i v
      have e : stdI32 fs 1 = v := by
        unfold stdI32
        rcases h with h | ⟨h, h'⟩
        · rw [h]
        · rw [h]; cases h'; rfl
      simp only [serStd, e, serScalar]
  · refine ⟨.uint32, by decide +kernel, by decide, by decide, rfl, rfl, fun env k j => ?_, fun env S so k fs v hv h hf => ?_⟩
    · simp only [deStd, deScalar]; cases visitU32 j <;> rfl
    · cases v <;> first | (cases hv; done) | skip
      rename_i v
      have e : stdU32 fs 1 = v := by
        unfold stdU32
        rcases h with h | ⟨h, h'⟩
        · rw [h]
        · rw [h]; cases h'; rfl
      simp only [serStd, e, serScalar]
  · refine ⟨.bool, by decide +kernel, by decide, by decide, rfl, rfl, fun env k j => ?_, fun env S so k fs v hv h hf => ?_⟩
    · simp only [deStd, deScalar]; cases visitBool j <;> rfl
    · cases v <;> first | (cases hv; done) | skip
      rename_i v
      have e : stdBool fs 1 = v := by
        unfold stdBool
        rcases h with h | ⟨h, h'⟩
        · rw [h]
        · rw [h]; cases h'; rfl
      simp only [serStd, e, serScalar]
  · refine ⟨.string, by decide +kernel, by decide, by decide, rfl, rfl, fun env k j => ?_, fun env S so k fs v hv h hf => ?_⟩
    · simp only [deStd, deScalar]; cases visitString j <;> rfl
    · cases v <;> first | (cases hv; done) | skip
      rename_i v
      have e : stdStr fs 1 = v := by
        unfold stdStr
        rcases h with h | ⟨h, h'⟩
        · rw [h]
        · rw [h]; cases h'; rfl
      simp only [serStd, e, serScalar]
  · refine ⟨.bytes, by decide +kernel, by decide, by decide, rfl, rfl, fun env k j => ?_, fun env S so k fs v hv h hf => ?_⟩
    · simp only [deStd, deScalar]; cases visitBytes j <;> rfl
    · cases v <;> first | (cases hv; done) | skip
      rename_i v
      have e : stdBytes fs 1 = v := by
        unfold stdBytes
        rcases h with h | ⟨h, h'⟩
        · rw [h]
        · rw [h]; cases h'; rfl
      simp only [serStd, e, serScalar]

/-- C65 for what is read: JSON is read into a wrapper type as into a field of the type it wraps: what
is an error there is one here, and otherwise the message holds the value (a zero without its sign,
like any field without presence). -/
theorem C65_read {env : JEnv} {S : Schema} (hS : S.wf = true) (hL : StdLike S) {d : Nat} {md : MsgDesc} {kd : Kind}
    (hmd : S.msg? d = some md) (hname : (md.name, kd) ∈ wrapped) (o : DOpts) (k : Nat) (j : Json) :
    (∀ e, deScalar env kd j = .error e → fromJson env S o k d j = .error e) ∧
    ∀ v, deScalar env kd j = .ok v → textLen v < 2 ^ 62 →
      ∃ m, fromJson env S o k d j = .ok m ∧ m.desc = d ∧ confMsg S m = true ∧
        DynMsg.getByNumber S md m 1 = some (some (plusZero v)) := by
  obtain ⟨w, hw, hW⟩ := wrapped_wkt hname
  simp only at hw hW
  constructor
  · intro e he
    rw [read_std hmd hw hW.any, hW.reads, he]
    rfl
  · intro v hv hl
    have hj : deStd env k j w = .ok (one1 v) := by rw [hW.reads, hv]; rfl
    have hflat : depthVal v = 0 ∧ weightVal v ≤ 20 + textLen v := by
      have hp := hW.plain
      cases kd <;> first | (cases hp; done) | skip
      all_goals
        obtain ⟨x, -, rfl⟩ := except_map_ok.1 hv
        exact ⟨rfl, Nat.le_refl _⟩
    obtain ⟨m, h1, h2, h3, h4⟩ := read_make hS hL hmd hw hW.any o hj (by simp [one1, depthSlots, hflat.1])
      (by simp only [one1, weightSlots]; omega)
    refine ⟨m, h1, h2, h3, ?_⟩
    rw [h4 _ 1 (stdField 1 "value" kd .optional false none) hW.desc rfl ⟨rfl, nofun, hW.plain, rfl⟩]
    rfl

/-- The string `"9"` is read into an `Int64Value`, `"x"` is not. -/
example : (∃ m, fromJson wToy wktSchema .default 3 11 (.str "9".toList) = .ok m ∧
      DynMsg.getByNumber wktSchema (wrapper .int64 .int64) m 1 = some (some (.i64 9))) ∧
    fromJson wToy wktSchema .default 3 11 (.str "x".toList) = .error .err := by
  constructor
  · obtain ⟨m, h, -, -, h'⟩ := (C65_read (env := wToy) (d := 11) (md := wrapper .int64 .int64) (kd := .int64) wkt_wf wkt_like rfl (by decide +kernel) .default 3
      (.str "9".toList)).2 (.i64 9) (by decide +kernel) (by decide)
    exact ⟨m, h, h'⟩
  · exact (C65_read (md := wrapper .int64 .int64) (kd := .int64) wkt_wf wkt_like rfl (by decide +kernel) .default 3 _).1 _ (by decide +kernel)

/-- C65 for what is written: a wrapper type is written as a field of the type it wraps, whatever the
options, unless it holds an infinity or a NaN (`C65_write_false`). -/
theorem C65_write_partial {env : JEnv} {S : Schema} (hS : S.wf = true) (hL : StdLike S) {m : DynMsg} {md : MsgDesc} {kd : Kind}
    (hmd : S.msg? m.desc = some md) (hname : (md.name, kd) ∈ wrapped) (so : SOpts) (k : Nat) (hm : Sized S m)
    {v : Value} (hv : DynMsg.getByNumber S md m 1 = some (some v)) (hf : nonFinite v = false) :
    toJson env S so k m = serScalar env S so kd (plusZero v) := by
  obtain ⟨w, hw, hW⟩ := wrapped_wkt hname
  simp only at hw hW
  obtain ⟨fs, g1, g2, g3⟩ := to_get hS hL hmd hw hm.conf hm.depth hm.size
  have hp : PlainField (stdField 1 "value" kd .optional false none) := ⟨rfl, nofun, hW.plain, rfl⟩
  have e := g3 _ 1 (stdField 1 "value" kd .optional false none) hW.desc rfl hp
  rw [hv] at e
  obtain ⟨sd, hC⟩ := confMsg_iff.1 g2
  have hsd : stdSchema.msg? w.std = some sd := hC.desc
  rw [hW.desc] at hsd
  cases hsd
  rw [write_std hmd hw hW.any hW.empty, g1]
  have hkn : Known stdSchema w.std (stdField 1 "value" kd .optional false none) :=
    .inl (by rw [field?_eq hW.desc]; rfl)
  have hcv := (known_conf stdSchema_wf hC hkn).2
  have e' : (match FieldSet.getValue fs 1 with | some v => some v | none => kindDefault stdSchema kd) = some (plusZero v) := by
    have : (some (some (plusZero v))) = DynMsg.getByNumber stdSchema (wrapper w kd) ⟨w.std, fs⟩ 1 := e.symm
    simp only [DynMsg.getByNumber, DynMsg.getField, FieldSet.get, hp.get, show (wrapper w kd).getField 1 = some (stdField 1 "value" kd .optional false none) from rfl] at this
    obtain ⟨x, h1, h2⟩ := Option.map_eq_some_iff.1 this.symm
    cases h2
    exact h1
  have hnf : nonFinite (plusZero v) = false := by
    cases v <;> first | exact hf | skip
    all_goals
      simp only [plusZero, nonFinite]
      split
      · rfl
      · exact hf
  cases hg : FieldSet.getValue fs 1 with
  | some x =>
    rw [hg] at e'
    cases e'
    have hx := (hcv _ (getValue_some.1 hg)).1
    exact hW.writes env S so k fs _ (scalarOk_of_confVal hp.isMessage hp.card hx) (.inl hg) hnf
  | none =>
    rw [hg] at e'
    have hx : scalarOk kd (plusZero v) = true := by
      have hp := hW.plain
      cases kd <;> first | (cases hp; done) | (cases e'; rfl) | skip
      all_goals
        simp only [kindDefault, Option.some.injEq] at e'
        rw [← e']
        rfl
    exact hW.writes env S so k fs _ hx (.inr ⟨hg, e'⟩) hnf

example : toJson wToy wktSchema .default 3 ⟨11, [(1, .val (.i64 9))]⟩ = .ok (.str "9".toList) := by
  rw [C65_write_partial (md := wrapper .int64 .int64) (kd := .int64) (v := .i64 9) wkt_wf wkt_like rfl (by decide +kernel) .default 3
      (.of wkt_wf (by decide +kernel) (by decide +kernel) (by decide +kernel)) (by decide +kernel) rfl]
  decide +kernel

/-- The remaining case: a NaN in a `DoubleValue` is written as `null`, one in a `double` field as a
string. -/
theorem C65_write_false : ∃ v m, DynMsg.getByNumber wktSchema (wrapper .double .double) m 1 = some (some v) ∧
    wktSchema.msg? m.desc = some (wrapper .double .double) ∧ Sized wktSchema m ∧
    toJson wToy wktSchema .default 3 m = .ok .null ∧ serScalar wToy wktSchema .default .double v = .ok (.str "NaN".toList) :=
  ⟨.f64 0x7FF8000000000000#64, ⟨9, [(1, .val (.f64 0x7FF8000000000000#64))]⟩, by decide +kernel, rfl,
    .of wkt_wf (by decide +kernel) (by decide +kernel) (by decide +kernel), by decide +kernel, by decide +kernel⟩

end Verif.Props
