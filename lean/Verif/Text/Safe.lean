import Verif.Text.ParseLemmas
import Verif.Text.LexSafe
import Verif.Dyn.Accept
import Verif.Dyn.Total
import Verif.Dyn.Conf
/-!
Parsing never panics and yields conforming messages.
-/
set_option autoImplicit false
namespace Verif.Text
open Verif.Wire Verif.Dyn Verif.Pool

/-- No panic and, when `st` is set, no stack overflow; what is parsed satisfies `P`. -/
def Sound {α : Type} (st : Bool) (P : α → Prop) : PR α → Prop
  | .ok (a, _) => P a
  | .error e => e ≠ .panic ∧ (st = true → e ≠ .stack)

/-- A token that opens a message. -/
def opens : LTok → Bool
  | .tok .lbrace => true
  | .tok .langle => true
  | _ => false

/-- Tokens on which the parser cannot panic and, when `st` is set, fewer than `L` of which
open a message. -/
def ToksOk (fp : List Char → Option (BitVec 64)) (st : Bool) (L : Nat) (ts : List LTok) : Prop :=
  (∀ t ∈ ts, TokOk fp t) ∧ (st = true → ts.countP opens < L)

section
variable {fp : List Char → Option (BitVec 64)} {st : Bool} {L : Nat}

theorem ToksOk.suffix {ts r : List LTok} (h : ToksOk fp st L ts) (hr : r <:+ ts) : ToksOk fp st L r :=
  ⟨fun t ht => h.1 t (hr.subset ht), fun e => Nat.lt_of_le_of_lt (hr.sublist.countP_le) (h.2 e)⟩

theorem ToksOk.tail {t : LTok} {r : List LTok} (h : ToksOk fp st L (t :: r)) : ToksOk fp st L r :=
  h.suffix (List.suffix_cons _ _)

theorem ToksOk.opened {t : LTok} {r : List LTok} (h : ToksOk fp st (L + 1) (t :: r))
    (ht : opens t = true) : ToksOk fp st L r := by
  refine ⟨h.tail.1, fun e => ?_⟩
  have := h.2 e
  rw [List.countP_cons_of_pos ht] at this
  omega

theorem unexpected_noPanic {α : Type} {ts : List LTok} (h : ToksOk fp st L ts) {e : TErr}
    (he : unexpected (α := α) ts = .error e) : e ≠ .panic ∧ (st = true → e ≠ .stack) := by
  unfold unexpected at he
  split at he
  · cases he; exact ⟨nofun, fun _ => nofun⟩
  · exact absurd rfl (h.1 .panic (by simp)).1
  · cases he; exact ⟨nofun, fun _ => nofun⟩

theorem sound_unexpected {α : Type} {P : α → Prop} {ts : List LTok} (h : ToksOk fp st L ts) :
    Sound st P (unexpected ts) := by
  cases he : unexpected (α := α × List LTok) ts with
  | error e => exact unexpected_noPanic h he
  | ok p =>
    unfold unexpected at he
    split at he <;> cases he

theorem Sound.ok {α : Type} {P : α → Prop} {x : PR α} {a : α} {r : List LTok} (h : Sound st P x)
    (e : x = .ok (a, r)) : P a := by
  subst e
  exact h

theorem Sound.err {α : Type} {P : α → Prop} {x : PR α} {e : TErr} (h : Sound st P x)
    (he : x = .error e) : e ≠ .panic ∧ (st = true → e ≠ .stack) := by
  subst he
  exact h

theorem Sound.mapP {α β : Type} {f : α → β} {P : α → Prop} {Q : β → Prop} {x : PR α}
    (h : Sound st P x) (hf : ∀ a, P a → Q (f a)) : Sound st Q (Text.mapP f x) := by
  cases x with
  | ok p => exact hf _ h
  | error e => exact h

theorem parseInt_sound {ts : List LTok} (h : ToksOk fp st L ts) : Sound st (fun _ => True) (parseInt ts) := by
  unfold parseInt
  split
  · trivial
  · exact sound_unexpected h.tail
  · trivial
  · exact sound_unexpected h

theorem parseSigned_sound {w : Nat} {ts : List LTok} (h : ToksOk fp st L ts) :
    Sound st (fun _ => True) (parseSigned w ts) := by
  unfold parseSigned
  have hi := parseInt_sound h
  split
  · rename_i e he
    exact hi.err he
  · split
    · trivial
    · exact ⟨nofun, fun _ => nofun⟩

theorem parseUnsigned_sound {w : Nat} {ts : List LTok} (h : ToksOk fp st L ts) :
    Sound st (fun _ => True) (parseUnsigned w ts) := by
  unfold parseUnsigned
  have hi := parseInt_sound h
  split
  · rename_i e he
    exact hi.err he
  · split
    · trivial
    · exact ⟨nofun, fun _ => nofun⟩

theorem parseFloatAbs_sound {env : TEnv} {ts : List LTok} (h : ToksOk env.parse64 st L ts) :
    Sound st (fun _ => True) (parseFloatAbs env ts) := by
  unfold parseFloatAbs
  split
  · trivial
  · rename_i d x r
    split
    · rename_i hx
      subst hx
      have := (h.1 _ (List.mem_cons_self)).2 d rfl
      split
      · trivial
      · rename_i hn
        rw [hn] at this
        cases this
    · exact ⟨nofun, fun _ => nofun⟩
  · split
    · trivial
    · split
      · trivial
      · exact ⟨nofun, fun _ => nofun⟩
  · exact sound_unexpected h

theorem parseFloat_sound {env : TEnv} {ts : List LTok} (h : ToksOk env.parse64 st L ts) :
    Sound st (fun _ => True) (parseFloat env ts) := by
  unfold parseFloat
  split
  · have := parseFloatAbs_sound h.tail
    split
    · trivial
    · rename_i e he
      exact this.err he
  · exact parseFloatAbs_sound h

theorem parseBool_sound {ts : List LTok} (h : ToksOk fp st L ts) : Sound st (fun _ => True) (parseBool ts) := by
  unfold parseBool
  repeat' split
  all_goals first
    | trivial
    | exact sound_unexpected h
    | exact ⟨nofun, fun _ => nofun⟩

theorem moreStrings_sound {ts : List LTok} (h : ToksOk fp st L ts) :
    Sound st (fun _ => True) (moreStrings ts) := by
  fun_induction moreStrings ts with
  | case1 b r bs r' he ih => trivial
  | case2 b r e he ih => exact (ih h.tail).err he
  | case3 => exact ⟨nofun, fun _ => nofun⟩
  | case4 r => exact absurd rfl (h.1 .panic (by simp)).1
  | case5 => trivial

theorem parseBytes_sound {ts : List LTok} (h : ToksOk fp st L ts) : Sound st (fun _ => True) (parseBytes ts) := by
  unfold parseBytes
  split
  · have := moreStrings_sound h.tail
    split
    · trivial
    · rename_i e he
      exact this.err he
  · exact sound_unexpected h

theorem parseEnum_sound {S : Schema} {e : Nat} (he : kindOk S (.enum e) = true) {ts : List LTok}
    (h : ToksOk fp st L ts) : Sound st (fun _ => True) (parseEnum S e ts) := by
  unfold parseEnum
  split
  · split
    · rename_i hn
      simp [kindOk, Schema.enumDefault, hn] at he
    · split
      · trivial
      · exact ⟨nofun, fun _ => nofun⟩
  · exact parseSigned_sound h
  · exact parseSigned_sound h
  · exact sound_unexpected h

/-- What the recursive parser must do: a conforming message of the right type. -/
def SubOk (S : Schema) (fp : List Char → Option (BitVec 64)) (st : Bool) (L : Nat) (sub : Nat → List LTok → PR FieldSet) : Prop :=
  ∀ i md ts, S.msg? i = some md → ToksOk fp st L ts → Sound st (fun fs => Conf S ⟨i, fs⟩ md) (sub i ts)

variable {env : TEnv} {S : Schema} {sub : Nat → List LTok → PR FieldSet}

theorem parseVal_sound (hs : SubOk S env.parse64 st L sub) {f : FieldDesc} (hf : kindOk S f.kind = true)
    {ts : List LTok} (h : ToksOk env.parse64 st L ts) :
    Sound st (fun v => confVal S f.elem v = true) (parseVal env S sub f.kind ts) := by
  have hsc : ∀ v, scalarOk f.kind v = true → confVal S f.elem v = true :=
    fun v hv => confVal_scalar elem_card hv
  revert hf hsc
  have hk : f.elem.kind = f.kind := rfl
  revert hk
  generalize f.kind = k
  intro hk hf hsc
  cases k with
  | string =>
    have := parseBytes_sound h
    cases hb : parseBytes ts with
    | error e =>
      simp only [parseVal, hb]
      exact this.err hb
    | ok p =>
      simp only [parseVal, hb]
      split
      · rename_i hu
        exact hsc _ (by simpa [scalarOk, Value.isValid] using hu)
      · exact ⟨nofun, fun _ => nofun⟩
  | message i =>
    obtain ⟨md, hmd⟩ := Option.isSome_iff_exists.1 hf
    refine (hs i md ts hmd h).mapP (fun fs hfs => ?_)
    exact confVal_msg (m := ⟨i, fs⟩) elem_card hk (confMsg_iff.2 ⟨md, hfs⟩)
  | enum e => exact (parseEnum_sound hf h).mapP (fun v _ => hsc _ rfl)
  | bool => exact (parseBool_sound h).mapP (fun v _ => hsc _ rfl)
  | bytes => exact (parseBytes_sound h).mapP (fun v _ => hsc _ rfl)
  | float => exact (parseFloat_sound h).mapP (fun v _ => hsc _ rfl)
  | double => exact (parseFloat_sound h).mapP (fun v _ => hsc _ rfl)
  | int32 => exact (parseSigned_sound h).mapP (fun v _ => hsc _ rfl)
  | sint32 => exact (parseSigned_sound h).mapP (fun v _ => hsc _ rfl)
  | sfixed32 => exact (parseSigned_sound h).mapP (fun v _ => hsc _ rfl)
  | int64 => exact (parseSigned_sound h).mapP (fun v _ => hsc _ rfl)
  | sint64 => exact (parseSigned_sound h).mapP (fun v _ => hsc _ rfl)
  | sfixed64 => exact (parseSigned_sound h).mapP (fun v _ => hsc _ rfl)
  | uint32 => exact (parseUnsigned_sound h).mapP (fun v _ => hsc _ rfl)
  | fixed32 => exact (parseUnsigned_sound h).mapP (fun v _ => hsc _ rfl)
  | uint64 => exact (parseUnsigned_sound h).mapP (fun v _ => hsc _ rfl)
  | fixed64 => exact (parseUnsigned_sound h).mapP (fun v _ => hsc _ rfl)

theorem listTail_sound {P : Value → Prop} {pv : List LTok → PR Value}
    (hg : ∀ ts, Good ts (pv ts)) (hp : ∀ ts, ToksOk fp st L ts → Sound st P (pv ts)) {n : Nat}
    {ts : List LTok} (h : ToksOk fp st L ts) : Sound st (fun vs => ∀ v ∈ vs, P v) (listTail pv n ts) := by
  induction n generalizing ts with
  | zero => exact ⟨nofun, fun _ => nofun⟩
  | succ n ih =>
    unfold listTail
    split
    · contradiction
    · rename_i n' r heq
      cases heq
      have h1 := hp r h.tail
      split
      · rename_i e he
        exact h1.err he
      · rename_i v r' he
        have h2 := ih (h.tail.suffix ((hg r).ok he).1)
        split
        · rename_i e he'
          exact h2.err he'
        · rename_i vs r'' he'
          intro x hx
          rcases List.mem_cons.1 hx with rfl | hx
          · exact h1.ok he
          · exact h2.ok he' x hx
    · intro v hv
      cases hv
    · exact sound_unexpected h

theorem parseRep_sound {P : Value → Prop} {pv : List LTok → PR Value}
    (hg : ∀ ts, Good ts (pv ts)) (hp : ∀ ts, ToksOk fp st L ts → Sound st P (pv ts))
    {ts : List LTok} (h : ToksOk fp st L ts) : Sound st (fun vs => ∀ v ∈ vs, P v) (parseRep pv ts) := by
  unfold parseRep
  split
  · intro v hv
    cases hv
  · rename_i r _
    have h1 := hp r h.tail
    split
    · rename_i e he
      exact h1.err he
    · rename_i v r' he
      have h2 := listTail_sound (n := r.length + 1) hg hp (h.tail.suffix ((hg r).ok he).1)
      split
      · rename_i e he'
        exact h2.err he'
      · rename_i vs r'' he'
        intro x hx
        rcases List.mem_cons.1 hx with rfl | hx
        · exact h1.ok he
        · exact h2.ok he' x hx
  · refine (hp _ h).mapP (fun v hv x hx => ?_)
    rw [List.mem_singleton] at hx
    exact hx ▸ hv

theorem _root_.Verif.Dyn.Conf.getValue_conf {S : Schema} {m : DynMsg} {md : MsgDesc}
    (h : Conf S m md) {n : Nat} {f : FieldDesc} (hf : md.getField n = some f) {v : Value}
    (hv : FieldSet.getValue m.fields n = some v) : confVal S f v = true := by
  unfold FieldSet.getValue at hv
  split at hv
  · rename_i w hw
    cases hv
    have := h.get hw
    simpa [confSlot, field?_eq h.desc, hf] using this
  · cases hv

theorem _root_.Verif.Dyn.Conf.get_conf {S : Schema} (hS : S.wf = true) {m : DynMsg} {md : MsgDesc}
    (h : Conf S m md) {n : Nat} {f : FieldDesc} (hf : md.getField n = some f) :
    ∃ v, FieldSet.get S m.fields f = some v ∧ confVal S f v = true := by
  have hn := (getField_mem hf).2
  unfold FieldSet.get
  split
  · rename_i v hv
    exact ⟨v, rfl, h.getValue_conf hf (hn ▸ hv)⟩
  · exact fieldDefault_conf hS ((Schema.wf_msg hS h.desc).fields f (getField_mem hf).1)

theorem key_of_value {kd : FieldDesc} (hk : ∃ k0, MapKey.default kd.kind = some k0)
    (hc : kd.card ≠ .repeated) {v : Value} (hv : confVal S kd v = true) :
    ∃ k, v.toMapKey = some k ∧ keyOk kd.kind k = true := by
  obtain ⟨k0, hk0⟩ := hk
  have hm : kd.kind.isMessage = false := by
    cases h : kd.kind <;> simp_all [MapKey.default, Kind.isMessage]
  have hs := scalarOk_of_confVal hm hc hv
  have : ∃ k', v.toMapKey = some k' ∧ k'.toValue = v := by
    revert hs hk0
    generalize kd.kind = k
    intro hk0 hs
    cases k <;> first
      | (cases hk0; done)
      | (cases v <;> simp [scalarOk, Value.isValid, Value.toMapKey] at hs ⊢ <;> rfl)
  obtain ⟨k, h1, h2⟩ := this
  refine ⟨k, h1, ?_⟩
  rw [keyOk_eq _ hm, h2]
  exact hs

theorem unpack_sound (hS : S.wf = true) {i : Nat} {kd vd : FieldDesc}
    (hE : EntryOk S i kd vd) {fs : FieldSet} {md : MsgDesc} (h : Conf S ⟨i, fs⟩ md) (d : Nat) :
    ∃ k v, unpack S i (.msg d fs) = .ok (k, v) ∧ keyOk kd.kind k = true ∧ confVal S vd v = true := by
  obtain ⟨h1, h2⟩ := mapKV_some hE.kv
  have g1 : md.getField 1 = some kd := by rw [← field?_eq h.desc]; exact h1
  have g2 : md.getField 2 = some vd := by rw [← field?_eq h.desc]; exact h2
  obtain ⟨v1, e1, c1⟩ := h.get_conf hS g1
  obtain ⟨v2, e2, c2⟩ := h.get_conf hS g2
  obtain ⟨k, hk, ok⟩ := key_of_value hE.key.2.2.2 hE.key.2.2.1 c1
  refine ⟨k, v2, ?_, ok, c2⟩
  simp only at e1 e2
  simp only [unpack, entryGet, h1, h2, e1, e2, hk]

theorem insertEntries_sound (hS : S.wf = true) {i : Nat}
    {kd vd : FieldDesc} (hE : EntryOk S i kd vd) {vs : List Value}
    (hvs : ∀ v ∈ vs, ∃ fs md, v = .msg i fs ∧ Conf S ⟨i, fs⟩ md) {kvs : List (MapKey × Value)}
    (hk : KMap.distinct kvs = true ∧ confMap S kd vd kvs = true) :
    ∃ kvs', insertEntries S i kvs vs = .ok kvs' ∧ KMap.distinct kvs' = true ∧
      confMap S kd vd kvs' = true := by
  induction vs generalizing kvs with
  | nil => exact ⟨kvs, rfl, hk⟩
  | cons v r ih =>
    obtain ⟨fs, md, rfl, hc⟩ := hvs v (by simp)
    obtain ⟨k, w, e, h1, h2⟩ := unpack_sound hS hE hc i
    rw [insertEntries, e]
    refine ih (fun v hv => hvs v (by simp [hv])) ⟨KMap.distinct_insert _ _ _ hk.1, ?_⟩
    have hv2 := (confMap_iff kvs).1 hk.2
    rw [confMap_iff]
    intro p hp
    rcases KMap.mem_insert hp with rfl | hp
    · exact ⟨h1, h2⟩
    · exact hv2 p hp

theorem anyHas_total {mem : List FieldDesc} (h : ∀ f ∈ mem, FieldWf S f) (fs : FieldSet) :
    ∃ b, anyHas S fs mem = some b := by
  induction mem with
  | nil => exact ⟨false, rfl⟩
  | cons f r ih =>
    obtain ⟨b, hb⟩ : ∃ b, FieldSet.has S fs f = some b := by
      unfold FieldSet.has
      split
      · exact hasVal_isSome (h f (by simp)) _
      · exact ⟨false, rfl⟩
    rw [anyHas, hb]
    cases b with
    | true => exact ⟨true, rfl⟩
    | false => exact ih (fun f hf => h f (by simp [hf]))

/-- What `parse_field_value` needs to know about the field: where its value is and that
writing a conforming value keeps the message conforming. -/
structure Target (S : Schema) (md : MsgDesc) (d : Nat) (fs : FieldSet) (sib : List Nat)
    (mem : List FieldDesc) (f : FieldDesc) : Prop where
  wf : FieldWf S f
  mem : ∀ g ∈ mem, FieldWf S g
  upd : ∃ fs' v, FieldSet.getMut S sib fs f = some (fs', v) ∧ confVal S f v = true ∧
    ∀ v', confVal S f v' = true → Conf S ⟨d, FieldSet.write f v' fs'⟩ md
  set : ∀ v', confVal S f v' = true → Conf S ⟨d, FieldSet.set sib fs f v'⟩ md

theorem parseFieldValue_sound (hS : S.wf = true) (hg : ∀ i ts, Good ts (sub i ts))
    (hs : SubOk S env.parse64 st L sub) {md : MsgDesc} {d : Nat} {fs : FieldSet} {sib : List Nat}
    {mem : List FieldDesc} {f : FieldDesc} (ht : Target S md d fs sib mem f) {ts : List LTok}
    (h : ToksOk env.parse64 st L ts) :
    Sound st (fun fs' => Conf S ⟨d, fs'⟩ md) (parseFieldValue env S sub sib mem f fs ts) := by
  have hgv := parseVal_good (env := env) (S := S) hg f.kind
  have hv : ∀ ts, ToksOk env.parse64 st L ts →
      Sound st (fun v => confVal S f.elem v = true) (parseVal env S sub f.kind ts) :=
    fun ts h => parseVal_sound hs ht.wf.kind h
  obtain ⟨fs', v, hm, hc, hw⟩ := ht.upd
  unfold parseFieldValue
  split
  · rename_i hl
    have h1 := parseRep_sound hgv hv h
    split
    · rename_i e he
      exact h1.err he
    · rename_i vs r he
      have h2 := h1.ok he
      rw [hm]
      have : ∃ ws, v = .list ws := by
        obtain ⟨hr, hnm⟩ := isList_iff.1 hl
        cases v <;> simp [confVal, hr, hnm] at hc ⊢
      obtain ⟨ws, rfl⟩ := this
      simp only [confVal, Bool.and_eq_true] at hc
      refine hw _ ?_
      simp only [confVal, Bool.and_eq_true]
      refine ⟨hl, ?_⟩
      rw [confVals_iff] at *
      intro x hx
      rcases List.mem_append.1 hx with hx | hx
      · exact hc.2 x hx
      · exact h2 x hx
  split
  · rename_i hnl hmap
    have h1 := parseRep_sound hgv hv h
    split
    · rename_i e he
      exact h1.err he
    · rename_i vs r he
      have h2 := h1.ok he
      rw [hm]
      obtain ⟨hr, i, hk, hi⟩ := isMap_iff.1 hmap
      obtain ⟨kd, vd, hE⟩ := Schema.wf_entry hS hi
      have hl : isList S f = false := by simpa using hnl
      have : ∃ kvs, v = .map kvs := by
        cases v <;> simp [confVal, hr, hl] at hc ⊢
      obtain ⟨kvs, rfl⟩ := this
      simp only [confVal, hmap, hk, hE.kv, Bool.true_and, Bool.and_eq_true] at hc
      simp only [hk]
      obtain ⟨kvs', e, h3⟩ := insertEntries_sound hS hE (vs := vs) (kvs := kvs) (fun v hv => by
        obtain ⟨fs, rfl, hfs⟩ := msg_of_confVal (f := f.elem) hk elem_card (h2 v hv)
        obtain ⟨md', hmd'⟩ := confMsg_iff.1 hfs
        exact ⟨fs, md', rfl, hmd'⟩) hc
      rw [e]
      refine hw _ ?_
      simp only [confVal, hmap, hk, hE.kv, Bool.true_and, Bool.and_eq_true]
      exact h3
  · rename_i hnl hnm
    have hcard : f.card ≠ .repeated := by
      intro hr
      simp only [Bool.not_eq_true] at hnl hnm
      have := isList_iff.2 ⟨hr, hnm⟩
      rw [hnl] at this
      cases this
    have h1 := hv ts h
    split
    · rename_i e he
      exact h1.err he
    · rename_i v' r he
      have h2 := h1.ok he
      split
      · rename_i hn
        unfold FieldSet.has at hn
        split at hn
        · obtain ⟨b, hb⟩ := hasVal_isSome ht.wf (by assumption)
          rw [hb] at hn
          cases hn
        · cases hn
      · exact ⟨nofun, fun _ => nofun⟩
      · split
        · rename_i hn
          obtain ⟨b, hb⟩ := anyHas_total ht.mem fs
          rw [hb] at hn
          cases hn
        · exact ⟨nofun, fun _ => nofun⟩
        · exact ht.set _ ((confVal_elem hcard v').symm.trans h2)

theorem fullIdentLoop_sound {terms : List Tok} {acc : List Char} {ts : List LTok} (h : ToksOk fp st L ts) :
    Sound st (fun _ => True) (fullIdentLoop terms acc ts) := by
  fun_induction fullIdentLoop terms acc ts with
  | case1 acc s r ih => exact ih h.tail.tail
  | case2 => exact sound_unexpected h.tail
  | case3 => trivial
  | case4 => exact ⟨nofun, fun _ => nofun⟩
  | case5 => exact sound_unexpected h

theorem parseFullIdent_sound {terms : List Tok} {ts : List LTok} (h : ToksOk fp st L ts) :
    Sound st (fun _ => True) (parseFullIdent terms ts) := by
  unfold parseFullIdent
  split
  · exact fullIdentLoop_sound h.tail
  · exact sound_unexpected h

theorem parseFieldName_sound {ts : List LTok} (h : ToksOk fp st L ts) :
    Sound st (fun _ => True) (parseFieldName ts) := by
  unfold parseFieldName
  split
  · trivial
  · rename_i r
    have h1 := parseFullIdent_sound (terms := [.rbracket, .slash]) h.tail
    have g1 := parseFullIdent_good [.rbracket, .slash] r
    split
    · rename_i e he
      exact h1.err he
    · trivial
    · rename_i n r' he
      have h2 : ToksOk fp st L r' := (h.tail.suffix (g1.ok he).1).tail
      have h3 := parseFullIdent_sound (terms := [.rbracket]) h2
      have g2 := parseFullIdent_good [.rbracket] r'
      split
      · rename_i e he'
        exact h3.err he'
      · trivial
      · rename_i r'' _ he'
        exact sound_unexpected (h2.suffix (g2.ok he').1)
    · rename_i r' _ _ he
      exact sound_unexpected (h.tail.suffix (g1.ok he).1)
  · exact sound_unexpected h

theorem parseColon_noPanic {ts : List LTok} (h : ToksOk fp st L ts) {e : TErr}
    (he : parseColon ts = .error e) : e ≠ .panic ∧ (st = true → e ≠ .stack) := by
  unfold parseColon at he
  split at he
  · cases he
  · cases he
  · cases he
  · exact unexpected_noPanic h he

theorem parseSep_sound {P : FieldSet → Prop} {fs : FieldSet} (hp : P fs) {ts : List LTok}
    (h : ToksOk fp st L ts) : Sound st P (parseSep fs ts) := by
  unfold parseSep
  split
  · exact hp
  · exact hp
  · exact ⟨nofun, fun _ => nofun⟩
  · exact absurd rfl (h.1 .panic (by simp)).1
  · exact hp

theorem target_field (hS : S.wf = true) {md : MsgDesc} {d : Nat} {fs : FieldSet}
    (hC : Conf S ⟨d, fs⟩ md) {f : FieldDesc} (hf : f ∈ md.fields) :
    Target S md d fs (siblings md f) (oneofMembers md f) f := by
  have hw := Schema.wf_msg hS hC.desc
  have hg := getField_of_mem hw.nodup hf
  refine ⟨hw.fields f hf, ?_, ?_, ?_⟩
  · intro g hg
    unfold oneofMembers at hg
    split at hg
    · cases hg
    · exact hw.fields g (List.mem_filter.1 hg).1
  · obtain ⟨fs', v, h1, h2, h3, _⟩ := getMut_field hS hC hg
    refine ⟨fs', v, h1, h2, fun v' hv' => ?_⟩
    rw [h3]
    exact hC.insert_field hS hg hv'
  · intro v' hv'
    exact hC.insert_field hS hg hv'

theorem target_ext (hS : S.wf = true) {md : MsgDesc} {d : Nat} {fs : FieldSet}
    (hC : Conf S ⟨d, fs⟩ md) {f : FieldDesc} (hf : md.getExtension f.number = some f) :
    Target S md d fs [] [] f := by
  have hw := Schema.wf_msg hS hC.desc
  refine ⟨hw.exts f (getExtension_mem hf).1, nofun, ?_, ?_⟩
  · obtain ⟨fs', v, h1, h2, h3, _⟩ := getMut_ext hS hC hf
    refine ⟨fs', v, h1, h2, fun v' hv' => ?_⟩
    rw [h3]
    exact hC.insert_ext hS hf hv'
  · intro v' hv'
    exact hC.insert_ext hS hf hv'

theorem findField_safe (hS : S.wf = true) {md : MsgDesc} {d : Nat} (hd : S.msg? d = some md)
    (n : List Char) : findField S md n ≠ none ∧ ∀ f, findField S md n = some (some f) → f ∈ md.fields := by
  have hw := Schema.wf_msg hS hd
  have hmem : ∀ n f, md.getFieldByName n = some f → f ∈ md.fields :=
    fun n f h => List.mem_of_find?_eq_some h
  unfold findField
  split
  · rename_i f hf
    rw [Option.filter_eq_some_iff] at hf
    exact ⟨nofun, fun g hg => by cases hg; exact hmem _ _ hf.1⟩
  · split
    · rename_i f hf
      rw [Option.filter_eq_some_iff] at hf
      have h1 := hmem _ _ hf.1
      have h2 := hw.fields f h1
      obtain ⟨l, hl⟩ : ∃ l, fieldLabel S f = some l := by
        unfold fieldLabel
        have := h2.group hf.2
        have hk := h2.kind
        rw [if_pos hf.2]
        cases h : f.kind <;> rw [h] at this hk <;> first
          | cases this
          | skip
        rename_i i
        obtain ⟨m, hm⟩ := Option.isSome_iff_exists.1 hk
        exact ⟨_, by simp only [hm, Option.map_some]; rfl⟩
      rw [hl]
      constructor
      · simp only
        split <;> exact nofun
      · intro g hg
        simp only at hg
        split at hg
        · cases hg
          exact h1
        · cases hg
    · exact ⟨nofun, nofun⟩

theorem trySet_sound (hS : S.wf = true) {md : MsgDesc} {d : Nat} {fs : FieldSet} (hC : Conf S ⟨d, fs⟩ md)
    {n : Nat} {v : Value} (hv : ∀ f : FieldDesc, md.getField n = some f →
      (∃ b, validFor S f v = some b) ∧ (validFor S f v = some true → confVal S f v = true)) :
    ∃ m r, DynMsg.trySetByNumber S md ⟨d, fs⟩ n v = some (m, r) ∧ m.desc = d ∧ Conf S m md := by
  unfold DynMsg.trySetByNumber
  split
  · rename_i f hf
    obtain ⟨⟨b, hb⟩, hv'⟩ := hv f hf
    unfold DynMsg.trySetField
    rw [hb]
    cases b with
    | true =>
      refine ⟨_, _, rfl, rfl, ?_⟩
      show Conf S ⟨d, SMap.insert f.number (.val v) _⟩ md
      rw [(getField_mem hf).2]
      exact hC.insert_field hS hf (hv' hb)
    | false => exact ⟨_, _, rfl, rfl, hC⟩
  · exact ⟨_, _, rfl, rfl, hC⟩

/-- What the text parser relies on beyond `Schema.wf`: extensions of a message have
distinct numbers, and `google.protobuf.Any` has no repeated field 1 or 2.  Neither is
checked when a pool is built. -/
def anyShape (md : MsgDesc) : Bool :=
  decide (md.extensions.map (·.number)).Nodup &&
    (md.name != anyName || md.fields.all (fun f => f.number ≠ 1 && f.number ≠ 2 || f.card ≠ .repeated))

/-- Every message has the shape the text parser relies on. -/
def textSafe (S : Schema) : Bool := S.msgs.all anyShape

theorem textSafe_ext (h : textSafe S = true) {d : Nat} {md : MsgDesc} (hd : S.msg? d = some md)
    {f : FieldDesc} (hf : f ∈ md.extensions) : md.getExtension f.number = some f := by
  have h1 := List.all_eq_true.1 h md (List.mem_of_getElem? hd)
  simp only [anyShape, Bool.and_eq_true, decide_eq_true_eq] at h1
  unfold MsgDesc.getExtension
  have h2 := h1.1
  clear h1
  revert hf h2
  generalize md.extensions = l
  intro hf h2
  induction l with
  | nil => cases hf
  | cons g r ih =>
    simp only [List.map_cons, List.nodup_cons, List.mem_map, not_exists, not_and] at h2
    rw [List.find?_cons]
    rcases List.mem_cons.1 hf with rfl | hf
    · simp
    · have : (g.number == f.number) = false := by
        simp only [beq_eq_false_iff_ne]
        exact fun e => h2.1 f hf e.symm
      rw [this]
      exact ih hf h2.2

theorem parseAny_sound (hS : S.wf = true) (hA : textSafe S = true) (hs : SubOk S fp st L sub)
    {md : MsgDesc} {d : Nat} {fs : FieldSet} (hC : Conf S ⟨d, fs⟩ md) {dom name : List Char}
    {ts : List LTok} (h : ToksOk fp st L ts) :
    Sound st (fun fs' => Conf S ⟨d, fs'⟩ md) (parseAny S sub md d dom name fs ts) := by
  unfold parseAny
  split
  · exact ⟨nofun, fun _ => nofun⟩
  · rename_i i hi
    obtain ⟨mi, hmi⟩ : ∃ mi, S.msg? i = some mi := by
      unfold Schema.msgByName at hi
      obtain ⟨h1, _⟩ := List.findIdx?_eq_some_iff_getElem.1 hi
      exact ⟨_, List.getElem?_eq_getElem h1⟩
    have h1 := hs i mi ts hmi h
    split
    · rename_i e he
      exact h1.err he
    · rename_i body r he
      have h2 := h1.ok he
      obtain ⟨⟨b, hb⟩, _⟩ := encMsg_total hS ⟨i, body⟩ (confMsg_accepted hS (confMsg_iff.2 ⟨mi, h2⟩))
      simp only [hb]
      split
      · exact ⟨nofun, fun _ => nofun⟩
      · rename_i hn
        have hcard : ∀ n f, (n = 1 ∨ n = 2) → md.getField n = some f → f.card ≠ .repeated := by
          intro n f hnn hf
          have h1 := List.all_eq_true.1 hA md (List.mem_of_getElem? hC.desc)
          simp only [anyShape, Bool.and_eq_true, Bool.or_eq_true, bne_iff_ne, ne_eq,
            Decidable.not_not.1 hn, not_true, false_or, List.all_eq_true, decide_eq_true_eq] at h1
          have := h1.2 f (getField_mem hf).1
          rw [(getField_mem hf).2] at this
          rcases this with h3 | h3
          · omega
          · exact h3
        have hv : ∀ (n : Nat) (v : Value), (n = 1 ∨ n = 2) →
            (v = .bytes b ∨ v = .str (utf8Encode (dom ++ '/' :: name))) →
            ∀ f : FieldDesc, md.getField n = some f →
              (∃ b, validFor S f v = some b) ∧ (validFor S f v = some true → confVal S f v = true) := by
          intro n v hnn hvv f hf
          have hc := hcard n f hnn hf
          rcases hvv with rfl | rfl
          · refine ⟨⟨_, rfl⟩, fun hv => confVal_scalar hc ?_⟩
            simp only [validFor, Option.some.injEq] at hv
            revert hv
            cases f.kind <;> simp [Value.isValid, scalarOk]
          · refine ⟨⟨_, rfl⟩, fun hv => confVal_scalar hc ?_⟩
            simp only [validFor, Option.some.injEq] at hv
            revert hv
            cases f.kind <;> simp [Value.isValid, scalarOk, utf8Valid_encode]
        obtain ⟨m1, r1, e1, d1, c1⟩ := trySet_sound hS hC (hv 1 _ (.inl rfl) (.inr rfl))
        rw [e1]
        cases r1 with
        | error e => exact ⟨nofun, fun _ => nofun⟩
        | ok u =>
          obtain ⟨d1', f1⟩ := m1
          cases d1
          obtain ⟨m2, r2, e2, d2, c2⟩ := trySet_sound hS c1 (hv 2 _ (.inr rfl) (.inl rfl))
          simp only
          rw [e2]
          cases r2 with
          | error e => exact ⟨nofun, fun _ => nofun⟩
          | ok u =>
            obtain ⟨d2', f2⟩ := m2
            cases d2
            exact c2

theorem parseNamed_sound (hS : S.wf = true) (hA : textSafe S = true)
    (hg : ∀ i ts, Good ts (sub i ts)) (hs : SubOk S env.parse64 st L sub) {md : MsgDesc} {d : Nat}
    {fs : FieldSet} (hC : Conf S ⟨d, fs⟩ md) {name : FName} {ts : List LTok}
    (h : ToksOk env.parse64 st L ts) :
    Sound st (fun fs' => Conf S ⟨d, fs'⟩ md) (parseNamed env S sub md d name fs ts) := by
  unfold parseNamed
  split
  · rename_i n
    have h1 := findField_safe hS hC.desc n
    split
    · rename_i hn
      exact absurd hn h1.1
    · exact ⟨nofun, fun _ => nofun⟩
    · rename_i f hf
      exact parseFieldValue_sound hS hg hs (target_field hS hC (h1.2 f hf)) h
  · split
    · exact ⟨nofun, fun _ => nofun⟩
    · rename_i f hf
      exact parseFieldValue_sound hS hg hs
        (target_ext hS hC (textSafe_ext hA hC.desc (List.mem_of_find?_eq_some hf))) h
  · exact parseAny_sound hS hA hs hC h

theorem parseField_sound (hS : S.wf = true) (hA : textSafe S = true)
    (hg : ∀ i ts, Good ts (sub i ts)) (hs : SubOk S env.parse64 st L sub) {md : MsgDesc} {d : Nat}
    {fs : FieldSet} (hC : Conf S ⟨d, fs⟩ md) {ts : List LTok} (h : ToksOk env.parse64 st L ts) :
    Sound st (fun fs' => Conf S ⟨d, fs'⟩ md) (parseField env S sub md d fs ts) := by
  unfold parseField
  have h1 := parseFieldName_sound h
  have g1 := parseFieldName_good ts
  split
  · rename_i e he
    exact h1.err he
  · rename_i name r he
    have hr := h.suffix (g1.ok he).1
    split
    · rename_i e he'
      exact parseColon_noPanic hr he'
    · rename_i r' he'
      have hr' := hr.suffix (parseColon_ok he')
      have h2 := parseNamed_sound hS hA hg hs hC (name := name) hr'
      split
      · rename_i e he''
        exact h2.err he''
      · rename_i fs' r'' he''
        exact parseSep_sound (h2.ok he'') (hr'.suffix ((parseNamed_good hg md d name fs r').ok he'').1)

theorem bodyLoop_sound {P : FieldSet → Prop} {pf : FieldSet → List LTok → PR FieldSet}
    (hg : ∀ fs ts, Good ts (pf fs ts)) (hp : ∀ fs ts, P fs → ToksOk fp st L ts → Sound st P (pf fs ts))
    {term : Tok} {n : Nat} {fs : FieldSet} (h0 : P fs) {ts : List LTok} (h : ToksOk fp st L ts) :
    Sound st P (bodyLoop pf term n fs ts) := by
  induction n generalizing fs ts with
  | zero => exact ⟨nofun, fun _ => nofun⟩
  | succ n ih =>
    unfold bodyLoop
    split
    · contradiction
    · rename_i heq
      cases heq
      split
      · have h1 := hp _ _ h0 h
        split
        · rename_i e he
          exact h1.err he
        · rename_i fs' r' he
          exact ih (h1.ok he) (h.suffix ((hg _ _).ok he).1)
      · split
        · exact h0
        · exact ⟨nofun, fun _ => nofun⟩
    · exact sound_unexpected h

theorem parseMsg_sound (hS : S.wf = true) (hA : textSafe S = true) (k : Nat) :
    SubOk S env.parse64 st k (parseMsg env S k) := by
  induction k with
  | zero => exact fun _ _ _ _ h => ⟨nofun, fun e => absurd (h.2 e) (by omega)⟩
  | succ k ih =>
    intro i md ts hmd h
    unfold parseMsg
    rw [hmd]
    have hf : ∀ fs ts, Conf S ⟨i, fs⟩ md → ToksOk env.parse64 st k ts →
        Sound st (fun fs' => Conf S ⟨i, fs'⟩ md) (parseField env S (parseMsg env S k) md i fs ts) :=
      fun fs ts hC h => parseField_sound hS hA (parseMsg_good env S k) ih hC h
    have hg := parseField_good (env := env) (S := S) (parseMsg_good env S k) md i
    simp only
    split
    · exact bodyLoop_sound hg hf (Conf.empty hmd) (h.opened rfl)
    · exact bodyLoop_sound hg hf (Conf.empty hmd) (h.opened rfl)
    · exact sound_unexpected h

theorem topLoop_sound {P : FieldSet → Prop} {pf : FieldSet → List LTok → PR FieldSet}
    (hg : ∀ fs ts, Good ts (pf fs ts))
    (hp : ∀ fs ts, P fs → ToksOk fp st L ts → Sound st P (pf fs ts))
    {n : Nat} {fs : FieldSet} (h0 : P fs) {ts : List LTok} (h : ToksOk fp st L ts) :
    match topLoop pf n fs ts with
    | .ok fs' => P fs'
    | .error e => e ≠ .panic ∧ (st = true → e ≠ .stack) := by
  induction n generalizing fs ts with
  | zero =>
    cases ts with
    | nil => exact h0
    | cons t r => exact ⟨nofun, fun _ => nofun⟩
  | succ n ih =>
    cases ts with
    | nil => exact h0
    | cons t r =>
      simp only [topLoop]
      have h1 := hp fs _ h0 h
      cases he : pf fs (t :: r) with
      | error e => exact h1.err he
      | ok p => exact ih (h1.ok he) (h.suffix ((hg _ _).ok he).1)

/-- Merging text into a conforming message never panics and yields a conforming message of
the same type; a stack deeper than the number of opening brackets is not used up. -/
theorem mergeText_sound (hS : S.wf = true) (hA : textSafe S = true) (hp : ParsesFloats env.parse64)
    (st : Bool) {k : Nat} {m : DynMsg} (hm : confMsg S m = true) (text : List Char)
    (hk : st = true → (lex env.parse64 text).countP opens < k) :
    match mergeText env S k m text with
    | .ok m' => confMsg S m' = true ∧ m'.desc = m.desc
    | .error e => e ≠ .panic ∧ e ≠ .fuel ∧ (st = true → e ≠ .stack) := by
  obtain ⟨md, hC⟩ := confMsg_iff.1 hm
  have hfuel := mergeToks_fuel (env := env) (S := S) (k := k) (m := m) (ts := lex env.parse64 text)
  have hg := parseField_good (env := env) (S := S) (parseMsg_good env S k) md m.desc
  have := topLoop_sound (P := fun fs => Conf S ⟨m.desc, fs⟩ md) (st := st) (L := k) hg
    (fun fs ts hC h => parseField_sound hS hA (parseMsg_good env S k) (parseMsg_sound hS hA k) hC h)
    (n := (lex env.parse64 text).length) (fs := m.fields) hC ⟨fun t ht => lex_ok hp text t ht, hk⟩
  revert hfuel
  simp only [mergeText, mergeToks, hC.desc]
  cases he : topLoop (parseField env S (parseMsg env S k) md m.desc)
    (lex env.parse64 text).length m.fields (lex env.parse64 text) with
  | error e =>
    rw [he] at this
    exact fun hfuel => ⟨this.1, fun e => hfuel (e ▸ rfl), this.2⟩
  | ok fs =>
    rw [he] at this
    exact fun _ => ⟨confMsg_iff.2 ⟨md, this⟩, rfl⟩

end
end Verif.Text
