import Verif.Dyn.Machine
/-!
Histories of a message: accessor calls, decoding one field after another, draining and
in-place iteration, with a record of which member of each oneof was written last (C12).
-/
set_option autoImplicit false
namespace Verif.Dyn
open Verif.Wire

/-- One event in the life of a message. -/
inductive Ev where
  | call (o : Op)
  /-- `take_fields` run to the end (dynamic/mod.rs:514-516). -/
  | drainFields
  /-- `take_extensions` run to the end (dynamic/mod.rs:537-541). -/
  | drainExtensions
  /-- `take_unknown_fields` run to the end (dynamic/mod.rs:554-556). -/
  | drainUnknown
  /-- `fields_mut` run to the end (dynamic/mod.rs:505-507), the caller leaving `g f v`. -/
  | fieldsMut (g : FieldDesc → Value → Value)
  /-- `extensions_mut` run to the end (dynamic/mod.rs:528-530). -/
  | extensionsMut (g : FieldDesc → Value → Value)
  /-- One call of `merge_field` by the decoder. When it fails, it leaves `g v` in the
  field it was decoding; nothing is known about `g`. -/
  | wire (n : Nat) (w : WireType) (b : Bytes) (g : Value → Value)

def Ev.step (S : Schema) (md : MsgDesc) (m : DynMsg) : Ev → Option DynMsg
  | .call o => (o.step S md m).map (·.1)
  | .drainFields => (takeFields S md m.fields).map (fun p => ⟨m.desc, p.2⟩)
  | .drainExtensions => (takeExtensions S md m.fields).map (fun p => ⟨m.desc, p.2⟩)
  | .drainUnknown => some ⟨m.desc, (takeUnknown m.fields).2⟩
  | .fieldsMut g => (modifyAll S md.getField g m.fields).map (fun fs => ⟨m.desc, fs⟩)
  | .extensionsMut g => (modifyAll S md.getExtension g m.fields).map (fun fs => ⟨m.desc, fs⟩)
  | .wire n w b g =>
    match msgMerge S recursionLimit m n w b with
    | .ok (m', _) => some m'
    | .error _ =>
      match md.getField n with
      | some f => m.modifyField S md f g
      | none =>
        match md.getExtension n with
        | some f => m.modifyExt S f g
        | none => some m

def Ev.run (S : Schema) (md : MsgDesc) (m : DynMsg) : List Ev → Option DynMsg
  | [] => some m
  | e :: r =>
    match e.step S md m with
    | none => none
    | some m' => Ev.run S md m' r

/-! ### The record of the last write -/

/-- For each oneof, the number of the member last written and not removed since. -/
abbrev LastWrite := Nat → Option Nat

namespace LastWrite

def wrote (f : FieldDesc) (L : LastWrite) : LastWrite :=
  fun o => if f.oneof = some o then some f.number else L o

def removed (f : FieldDesc) (L : LastWrite) : LastWrite :=
  fun o => if L o = some f.number ∧ f.oneof = some o then none else L o

end LastWrite

/-- A validity-checked write is recorded only when it is accepted. -/
def Ev.tryWrote (S : Schema) (L : LastWrite) (f : Option FieldDesc) (v : Value) : LastWrite :=
  match f with
  | none => L
  | some f => if validFor S f v = some true then L.wrote f else L

def Ev.record (S : Schema) (md : MsgDesc) (L : LastWrite) : Ev → LastWrite
  | .call (.set f v) => Ev.tryWrote S L (some f) v
  | .call (.setN n v) => Ev.tryWrote S L (md.fields.find? (fun f => f.number == n)) v
  | .call (.setName n v) => Ev.tryWrote S L (md.fields.find? (fun f => f.name == n)) v
  | .call (.mutate f _) => L.wrote f
  | .call (.clear f) => L.removed f
  | .call (.take f) => L.removed f
  | .call (.clearN n) | .call (.takeN n) =>
    match md.fields.find? (fun f => f.number == n) with
    | some f => L.removed f
    | none => L
  | .drainFields => fun _ => none
  | .wire n _ _ _ =>
    match md.fields.find? (fun f => f.number == n) with
    | some f => L.wrote f
    | none => L
  | _ => L

def Ev.recordAll (S : Schema) (md : MsgDesc) (L : LastWrite) : List Ev → LastWrite
  | [] => L
  | e :: r => Ev.recordAll S md (e.record S md L) r

/-- Calls use the descriptors of the message type. -/
def Ev.ok (md : MsgDesc) : Ev → Prop
  | .call o => o.ok md
  | _ => True

/-- The record says exactly which members hold a value. -/
def Agree (md : MsgDesc) (L : LastWrite) (A : AMap) : Prop :=
  ∀ f ∈ md.fields, ∀ o, f.oneof = some o → ((A f.number).isSome = true ↔ L o = some f.number)

/-! ### Each effect keeps the agreement -/

theorem field_unique {md : MsgDesc} (hn : (md.fields.map (·.number)).Nodup) {f g : FieldDesc}
    (hf : f ∈ md.fields) (hg : g ∈ md.fields) (h : f.number = g.number) : f = g := by
  have h1 := getField_of_mem hn hf
  have h2 := getField_of_mem hn hg
  rw [h] at h1
  exact Option.some.inj (h1.symm.trans h2)

theorem agree_put {md : MsgDesc} (hn : (md.fields.map (·.number)).Nodup) {L : LastWrite} {A : AMap}
    (h : Agree md L A) {f : FieldDesc} (hf : f ∈ md.fields) (v : Value) :
    Agree md (L.wrote f) (AMap.put md f v A) := by
  intro g hg o ho
  simp only [LastWrite.wrote, AMap.put]
  by_cases hfo : f.oneof = some o
  · simp only [if_pos hfo, Option.some.injEq]
    by_cases he : g.number = f.number
    · simp [he]
    · rw [if_neg he, if_pos (mem_siblings_iff_rival.1 (mem_siblings.2 ⟨o, hfo, g, hg, ho, he, rfl⟩))]
      simp [Ne.symm he]
  · have he : g.number ≠ f.number := by
      intro he
      have := field_unique hn hg hf he
      subst this; exact hfo ho
    have hr : AMap.rival md f g.number = false := by
      cases hr : AMap.rival md f g.number with
      | false => rfl
      | true =>
        obtain ⟨o', ho', x, hx, hxo, _, hxn⟩ := mem_siblings.1 (mem_siblings_iff_rival.2 hr)
        have := field_unique hn hx hg hxn
        subst this
        rw [ho] at hxo; cases hxo; exact absurd ho' hfo
    simp only [if_neg hfo, if_neg he, hr, Bool.false_eq_true, if_false]
    exact h g hg o ho

theorem ext_ne_field {S : Schema} (hS : S.wf = true) {d : Nat} {md : MsgDesc} (hd : S.msg? d = some md)
    {f g : FieldDesc} (hf : f ∈ md.extensions) (hg : g ∈ md.fields) : g.number ≠ f.number := by
  intro he
  have h1 := ((Schema.wf_msg hS hd).extNew f hf).1
  rw [← he, getField_of_mem (Schema.wf_msg hS hd).nodup hg] at h1
  cases h1

theorem agree_put_ext {S : Schema} (hS : S.wf = true) {d : Nat} {md : MsgDesc} (hd : S.msg? d = some md)
    {L : LastWrite} {A : AMap} (h : Agree md L A) {f : FieldDesc} (hf : f ∈ md.extensions) (v : Value) :
    Agree md L (AMap.put md f v A) := by
  intro g hg o ho
  have hr : AMap.rival md f g.number = false := by
    simp [AMap.rival, ((Schema.wf_msg hS hd).extNew f hf).2]
  simp only [AMap.put, if_neg (ext_ne_field hS hd hf hg), hr, Bool.false_eq_true, if_false]
  exact h g hg o ho

theorem agree_remove {md : MsgDesc} (hn : (md.fields.map (·.number)).Nodup) {L : LastWrite} {A : AMap}
    (h : Agree md L A) {f : FieldDesc} (hf : f ∈ md.fields) : Agree md (L.removed f) (AMap.remove f A) := by
  intro g hg o ho
  simp only [LastWrite.removed, AMap.remove]
  by_cases he : g.number = f.number
  · have := field_unique hn hg hf he
    subst this
    simp only [if_true, ho, and_true]
    split
    · simp
    · rename_i hne; simp [hne]
  · rw [if_neg he]
    split
    · rename_i hl
      rw [h g hg o ho, hl.1]
      simp [Ne.symm he]
    · exact h g hg o ho

theorem agree_remove_ext {S : Schema} (hS : S.wf = true) {d : Nat} {md : MsgDesc}
    (hd : S.msg? d = some md) {L : LastWrite} {A : AMap} (h : Agree md L A) {f : FieldDesc}
    (hf : f ∈ md.extensions) : Agree md (L.removed f) (AMap.remove f A) := by
  intro g hg o ho
  have hno := ((Schema.wf_msg hS hd).extNew f hf).2
  simp only [AMap.remove, if_neg (ext_ne_field hS hd hf hg), LastWrite.removed, hno]
  simpa using h g hg o ho

/-- Only which numbers hold a value matters. -/
theorem agree_congr {md : MsgDesc} {L : LastWrite} {A B : AMap} (h : Agree md L A)
    (he : ∀ n, (B n).isSome = (A n).isSome) : Agree md L B := by
  intro g hg o ho
  rw [he]; exact h g hg o ho

/-! ### Accessor calls -/

theorem call_agree {S : Schema} (hS : S.wf = true) {md : MsgDesc} {m m' : DynMsg}
    (hd : S.msg? m.desc = some md) (hI : Inv md m) (o : Op) (ho : o.ok md) {L : LastWrite}
    (hA : Agree md L m.abs) (h : Ev.step S md m (.call o) = some m') :
    Inv md m' ∧ m'.desc = m.desc ∧ Agree md (Ev.record S md L (.call o)) m'.abs := by
  have hP := params_exist hS hd
  generalize (fun f => (fieldDefault S f).getD (.bool false)) = dflt at hP
  generalize (fun f v => (validFor S f v).getD false) = valid at hP
  have hn := (Schema.wf_msg hS hd).nodup
  obtain ⟨m1, h1, h2⟩ := Op.step_sim hS hd hP hI o ho
  simp only [Ev.step, h1, Option.map_some, Option.some.injEq] at h
  subst h
  refine ⟨h2.inv, h2.desc, ?_⟩
  rw [h2.abs]
  have mem : ∀ {p : FieldDesc → Bool} {f}, md.fields.find? p = some f → f ∈ md.fields :=
    fun h => List.mem_of_find?_eq_some h
  have rem : ∀ f, f ∈ md.fields ∨ f ∈ md.extensions → Agree md (L.removed f) (AMap.remove f m.abs) := by
    intro f hf
    rcases hf with hf | hf
    · exact agree_remove hn hA hf
    · exact agree_remove_ext hS hd hA hf
  have wr : ∀ f v, f ∈ md.fields → ∀ {x y : Out},
      Agree md (Ev.tryWrote S L (some f) v)
        (if valid f v = true then (AMap.put md f v m.abs, x) else (m.abs, y)).1 := by
    intro f v hf x y
    simp only [Ev.tryWrote, hP.valid f v hf, Option.some.injEq]
    split
    · exact agree_put hn hA hf v
    · exact hA
  cases o with
  | has f => exact hA
  | get f => exact hA
  | set f v => exact wr f v ho
  | setExt f v => exact agree_put_ext hS hd hA ho v
  | clear f => exact rem f ho
  | take f => exact rem f ho
  | mutate f g => exact agree_put hn hA ho _
  | mutateExt f g => exact agree_put_ext hS hd hA ho _
  | hasN n => simp only [Op.spec, Ev.record]; split <;> exact hA
  | getN n => simp only [Op.spec, Ev.record]; split <;> exact hA
  | setN n v =>
    simp only [Op.spec, Ev.record]
    cases hf : md.fields.find? (fun f => f.number == n) with
    | none => exact hA
    | some f => exact wr f v (mem hf)
  | clearN n =>
    simp only [Op.spec, Ev.record]
    cases hf : md.fields.find? (fun f => f.number == n) with
    | none => exact hA
    | some f => exact rem f (.inl (mem hf))
  | takeN n =>
    simp only [Op.spec, Ev.record]
    cases hf : md.fields.find? (fun f => f.number == n) with
    | none => exact hA
    | some f => exact rem f (.inl (mem hf))
  | setName n v =>
    simp only [Op.spec, Ev.record]
    cases hf : md.fields.find? (fun f => f.name == n) with
    | none => exact hA
    | some f => exact wr f v (mem hf)

/-! ### In-place iteration -/

theorem modifyAll_spec {S : Schema} {look : Nat → Option FieldDesc} {g : FieldDesc → Value → Value} :
    ∀ {fs fs' : FieldSet}, modifyAll S look g fs = some fs' →
      (∀ lo, SMap.sortedFrom lo fs = true → SMap.sortedFrom lo fs' = true) ∧
      ∀ n, SMap.get? fs' n = SMap.get? fs n ∨
        ∃ v w f, SMap.get? fs n = some (.val v) ∧ look n = some f ∧ hasVal S f v = some true ∧
          w = g f v ∧ SMap.get? fs' n = some (.val w) := by
  intro fs
  induction fs with
  | nil =>
    intro fs' h
    simp only [modifyAll, Option.some.injEq] at h
    subst h
    exact ⟨fun _ h => h, fun n => .inl rfl⟩
  | cons p r ih =>
    obtain ⟨k, s⟩ := p
    intro fs' h
    have keep : ∀ {s : Slot} {r' : FieldSet}, modifyAll S look g r = some r' → fs' = (k, s) :: r' →
        (∀ lo, SMap.sortedFrom lo ((k, s) :: r) = true → SMap.sortedFrom lo fs' = true) ∧
        ∀ n, SMap.get? fs' n = SMap.get? ((k, s) :: r) n ∨
          ∃ v w f, SMap.get? ((k, s) :: r) n = some (.val v) ∧ look n = some f ∧
            hasVal S f v = some true ∧ w = g f v ∧ SMap.get? fs' n = some (.val w) := by
      intro s r' hr hfs
      obtain ⟨h1, h2⟩ := ih hr
      subst hfs
      refine ⟨?_, ?_⟩
      · intro lo hl
        simp only [SMap.sortedFrom, Bool.and_eq_true] at hl ⊢
        exact ⟨hl.1, h1 _ hl.2⟩
      · intro n
        simp only [SMap.get?]
        by_cases hk : k = n
        · simp [hk]
        · simp only [if_neg hk]; exact h2 n
    cases s with
    | taken =>
      simp only [modifyAll, Option.map_eq_some_iff] at h
      obtain ⟨r', hr, he⟩ := h
      exact keep hr he.symm
    | unknown u =>
      simp only [modifyAll, Option.map_eq_some_iff] at h
      obtain ⟨r', hr, he⟩ := h
      exact keep hr he.symm
    | val v =>
      simp only [modifyAll] at h
      cases hl : look k with
      | none =>
        simp only [hl, Option.map_eq_some_iff] at h
        obtain ⟨r', hr, he⟩ := h
        exact keep hr he.symm
      | some f =>
        simp only [hl] at h
        cases hh : hasVal S f v with
        | none => simp [hh] at h
        | some b =>
          cases hr : modifyAll S look g r with
          | none => cases b <;> simp [hh, hr] at h
          | some r' =>
            cases b with
            | false =>
              simp only [hh, hr, Option.some.injEq] at h
              exact keep hr h.symm
            | true =>
              simp only [hh, hr, Option.some.injEq] at h
              subst h
              obtain ⟨h1, h2⟩ := ih hr
              refine ⟨?_, ?_⟩
              · intro lo hl
                simp only [SMap.sortedFrom, Bool.and_eq_true] at hl ⊢
                exact ⟨hl.1, h1 _ hl.2⟩
              · intro n
                simp only [SMap.get?]
                by_cases hk : k = n
                · subst hk
                  simp only [if_true]
                  exact .inr ⟨v, _, f, rfl, hl, hh, rfl, rfl⟩
                · simp only [if_neg hk]; exact h2 n

theorem modifyAll_agree {S : Schema} {md : MsgDesc} {m : DynMsg} (hI : Inv md m)
    {look : Nat → Option FieldDesc} {g : FieldDesc → Value → Value} {fs' : FieldSet} {L : LastWrite}
    (hA : Agree md L m.abs) (h : modifyAll S look g m.fields = some fs') :
    Inv md ⟨m.desc, fs'⟩ ∧ Agree md L (DynMsg.abs ⟨m.desc, fs'⟩) := by
  obtain ⟨h1, h2⟩ := modifyAll_spec h
  refine ⟨⟨h1 _ hI.sorted, ?_⟩, ?_⟩
  · intro f hf u hu
    rcases h2 f.number with h3 | ⟨v, w, _, _, _, _, _, h3⟩
    · rw [h3] at hu; exact hI.known f hf u hu
    · rw [h3] at hu; cases hu
  · refine agree_congr hA ?_
    intro n
    simp only [DynMsg.abs, FieldSet.getValue]
    rcases h2 n with h3 | ⟨v, w, _, h3, _, _, _, h4⟩
    · rw [h3]
    · rw [h3, h4]; rfl


/-! ### Draining -/

theorem drain_inv {S : Schema} {md : MsgDesc} {m : DynMsg} (hI : Inv md m)
    {look : Nat → Option FieldDesc} {l : List (FieldDesc × Value)} {fs' : FieldSet}
    (h : takeBy S look m.fields = some (l, fs')) : Inv md ⟨m.desc, fs'⟩ := by
  obtain ⟨_, h2, _, h4⟩ := takeBy_spec h
  refine ⟨h2 _ hI.sorted, ?_⟩
  intro f hf u hu
  rcases h4 f.number with ⟨s, _, _, h5⟩ | ⟨h5, _⟩
  · rw [h5] at hu; cases hu
  · rw [h5] at hu; exact hI.known f hf u hu

theorem drainFields_agree {S : Schema} (hS : S.wf = true) {md : MsgDesc} {m : DynMsg}
    (hd : S.msg? m.desc = some md) {l : List (FieldDesc × Value)} {fs' : FieldSet}
    (h : takeBy S md.getField m.fields = some (l, fs')) :
    Agree md (fun _ => none) (DynMsg.abs ⟨m.desc, fs'⟩) := by
  obtain ⟨_, _, _, h4⟩ := takeBy_spec h
  intro f hf o ho
  simp only [reduceCtorEq, iff_false, Bool.not_eq_true, Option.isSome_eq_false_iff, Option.isNone_iff_eq_none,
    DynMsg.abs, FieldSet.getValue]
  rcases h4 f.number with ⟨s, _, _, h5⟩ | ⟨h5, h6⟩
  · rw [h5]
  · rw [h5]
    cases hg : SMap.get? m.fields f.number with
    | none => rfl
    | some s =>
      cases s with
      | taken => rfl
      | unknown u => rfl
      | val v =>
        exfalso
        refine h6 _ hg ⟨v, f, rfl, getField_of_mem (Schema.wf_msg hS hd).nodup hf, ?_⟩
        have hp : f.presence = true := by
          rcases ((Schema.wf_msg hS hd).fields f hf).oneof with h | h
          · rw [h] at ho; cases ho
          · exact h
        simp [hasVal, hp]

theorem drainExts_agree {S : Schema} (hS : S.wf = true) {md : MsgDesc} {m : DynMsg}
    (hd : S.msg? m.desc = some md) {l : List (FieldDesc × Value)} {fs' : FieldSet} {L : LastWrite}
    (hA : Agree md L m.abs) (h : takeBy S md.getExtension m.fields = some (l, fs')) :
    Agree md L (DynMsg.abs ⟨m.desc, fs'⟩) := by
  obtain ⟨_, _, _, h4⟩ := takeBy_spec h
  intro f hf o ho
  rw [← hA f hf o ho]
  simp only [DynMsg.abs, FieldSet.getValue]
  rcases h4 f.number with ⟨s, _, ⟨v, x, _, hx, _⟩, _⟩ | ⟨h5, _⟩
  · obtain ⟨hx, hxn⟩ := getExtension_mem hx
    exact absurd hxn.symm (ext_ne_field hS hd hx hf)
  · rw [h5]

theorem drainUnknown_inv {md : MsgDesc} {m : DynMsg} (hI : Inv md m) :
    Inv md ⟨m.desc, (takeUnknown m.fields).2⟩ := by
  obtain ⟨_, h2, _, h4⟩ := takeUnknown_spec m.fields
  refine ⟨h2 _ hI.sorted, ?_⟩
  intro f hf u hu
  simp only [h4] at hu
  cases hg : SMap.get? m.fields f.number with
  | none => rw [hg] at hu; cases hu
  | some s => rw [hg] at hu; cases s <;> cases hu

theorem drainUnknown_abs (m : DynMsg) : DynMsg.abs ⟨m.desc, (takeUnknown m.fields).2⟩ = m.abs := by
  obtain ⟨_, _, _, h4⟩ := takeUnknown_spec m.fields
  funext n
  simp only [DynMsg.abs, FieldSet.getValue, h4]
  cases SMap.get? m.fields n with
  | none => rfl
  | some s => cases s <;> rfl

theorem drainUnknown_agree {md : MsgDesc} {m : DynMsg} (hI : Inv md m) {L : LastWrite}
    (hA : Agree md L m.abs) :
    Inv md ⟨m.desc, (takeUnknown m.fields).2⟩ ∧
      Agree md L (DynMsg.abs ⟨m.desc, (takeUnknown m.fields).2⟩) :=
  ⟨drainUnknown_inv hI, by rw [drainUnknown_abs]; exact hA⟩

/-! ### Decoding one field -/

theorem modifyField_put {S : Schema} (hS : S.wf = true) {md : MsgDesc} {m m' : DynMsg}
    (hd : S.msg? m.desc = some md) (hI : Inv md m) {f : FieldDesc} (hf : f ∈ md.fields)
    {g : Value → Value} (h : m.modifyField S md f g = some m') :
    ∃ v, m' = ⟨m.desc, putFs md f v m.fields⟩ := by
  obtain ⟨w, hw, _⟩ := fieldDefault_conf hS (fieldWf_of_mem hS hd (.inl hf))
  obtain ⟨fs', h1, h2⟩ := getMut_sim (md := md) hI.sorted hw
  simp only [DynMsg.modifyField, h1, h2, Option.some.injEq] at h
  exact ⟨_, h.symm⟩

theorem modifyExt_put {S : Schema} (hS : S.wf = true) {md : MsgDesc} {m m' : DynMsg}
    (hd : S.msg? m.desc = some md) (hI : Inv md m) {f : FieldDesc} (hf : f ∈ md.extensions)
    {g : Value → Value} (h : m.modifyExt S f g = some m') :
    ∃ v, m' = ⟨m.desc, putFs md f v m.fields⟩ := by
  obtain ⟨w, hw, _⟩ := fieldDefault_conf hS (fieldWf_of_mem hS hd (.inr hf))
  obtain ⟨fs', h1, h2⟩ := getMut_sim (md := md) hI.sorted hw
  rw [siblings_ext hS hd hf] at h1
  simp only [DynMsg.modifyExt, h1, h2, Option.some.injEq] at h
  exact ⟨_, h.symm⟩

theorem mergeInto_put {S : Schema} {md : MsgDesc} {m m' : DynMsg} {f : FieldDesc} {w : Value} {d : Nat}
    {nested : Option (FieldFn DynMsg)} {wt : WireType} {b r : Bytes} (hs : SMap.sorted m.fields = true)
    (hw : fieldDefault S f = some w)
    (h : mergeInto S d nested (siblings md f) f m wt b = .ok (m', r)) :
    ∃ v, m' = ⟨m.desc, putFs md f v m.fields⟩ := by
  obtain ⟨fs', h1, h2⟩ := getMut_sim (md := md) hs hw
  simp only [mergeInto, h1, h2, mapV] at h
  split at h
  · cases h
  · cases h; exact ⟨_, rfl⟩

theorem wire_effect {S : Schema} (hS : S.wf = true) {md : MsgDesc} {m m' : DynMsg}
    (hd : S.msg? m.desc = some md) (hI : Inv md m) {n : Nat} {wt : WireType} {b : Bytes} {g : Value → Value}
    (h : Ev.step S md m (.wire n wt b g) = some m') :
    (∃ f v, md.getField n = some f ∧ m' = ⟨m.desc, putFs md f v m.fields⟩) ∨
    (md.getField n = none ∧ ∃ f v, md.getExtension n = some f ∧ m' = ⟨m.desc, putFs md f v m.fields⟩) ∨
    (md.getField n = none ∧ md.getExtension n = none ∧
      (m' = m ∨ ∃ u fs, FieldSet.addUnknown m.fields n u = some fs ∧ m' = ⟨m.desc, fs⟩)) := by
  have hcore : ∀ r, msgMerge S recursionLimit m n wt b = .ok (m', r) →
      (∃ f v, md.getField n = some f ∧ m' = ⟨m.desc, putFs md f v m.fields⟩) ∨
      (md.getField n = none ∧ ∃ f v, md.getExtension n = some f ∧ m' = ⟨m.desc, putFs md f v m.fields⟩) ∨
      (md.getField n = none ∧ md.getExtension n = none ∧
        (m' = m ∨ ∃ u fs, FieldSet.addUnknown m.fields n u = some fs ∧ m' = ⟨m.desc, fs⟩)) := by
    intro r hr
    have : ∃ d nested, msgMerge S recursionLimit = mergeField S d nested := ⟨_, _, rfl⟩
    obtain ⟨d, nested, he⟩ := this
    rw [he] at hr
    simp only [mergeField, hd] at hr
    cases hf : md.getField n with
    | some f =>
      simp only [hf] at hr
      have hm := getField_mem hf
      obtain ⟨w, hw, _⟩ := fieldDefault_conf hS (fieldWf_of_mem hS hd (.inl hm.1))
      obtain ⟨v, hv⟩ := mergeInto_put hI.sorted hw hr
      exact .inl ⟨f, v, rfl, hv⟩
    | none =>
      simp only [hf] at hr
      cases hx : md.getExtension n with
      | some f =>
        simp only [hx] at hr
        have hm := getExtension_mem hx
        obtain ⟨w, hw, _⟩ := fieldDefault_conf hS (fieldWf_of_mem hS hd (.inr hm.1))
        rw [← siblings_ext hS hd hm.1] at hr
        obtain ⟨v, hv⟩ := mergeInto_put hI.sorted hw hr
        exact .inr (.inl ⟨rfl, f, v, rfl, hv⟩)
      | none =>
        simp only [hx] at hr
        split at hr
        · cases hr
        · split at hr
          · cases hr
          · rename_i fs hfs
            cases hr
            exact .inr (.inr ⟨rfl, rfl, .inr ⟨_, fs, hfs, rfl⟩⟩)
  simp only [Ev.step] at h
  split at h
  · rename_i m1 r hr
    cases h
    exact hcore r hr
  · cases hf : md.getField n with
    | some f =>
      simp only [hf] at h
      obtain ⟨v, hv⟩ := modifyField_put hS hd hI (getField_mem hf).1 h
      exact .inl ⟨f, v, rfl, hv⟩
    | none =>
      simp only [hf] at h
      cases hx : md.getExtension n with
      | some f =>
        simp only [hx] at h
        obtain ⟨v, hv⟩ := modifyExt_put hS hd hI (getExtension_mem hx).1 h
        exact .inr (.inl ⟨rfl, f, v, rfl, hv⟩)
      | none =>
        simp only [hx] at h
        cases h
        exact .inr (.inr ⟨rfl, rfl, .inl rfl⟩)

theorem addUnknown_effect {fs fs' : FieldSet} {n : Nat} {u : UField} (h : FieldSet.addUnknown fs n u = some fs') :
    (∀ v, SMap.get? fs n ≠ some (.val v)) ∧ ∃ us, fs' = SMap.insert n (.unknown us) fs := by
  unfold FieldSet.addUnknown at h
  split at h
  · cases h
  · rename_i hg; cases h; exact ⟨by intro v; rw [hg]; simp, _, rfl⟩
  · rename_i hg; cases h; exact ⟨by intro v; rw [hg]; simp, _, rfl⟩
  · rename_i hg; cases h; exact ⟨by intro v; rw [hg]; simp, _, rfl⟩

theorem wire_agree {S : Schema} (hS : S.wf = true) {md : MsgDesc} {m m' : DynMsg}
    (hd : S.msg? m.desc = some md) (hI : Inv md m) {n : Nat} {wt : WireType} {b : Bytes} {g : Value → Value}
    (hpos : 0 < n) {L : LastWrite} (hA : Agree md L m.abs)
    (h : Ev.step S md m (.wire n wt b g) = some m') :
    Inv md m' ∧ m'.desc = m.desc ∧ Agree md (Ev.record S md L (.wire n wt b g)) m'.abs := by
  have hn := (Schema.wf_msg hS hd).nodup
  rcases wire_effect hS hd hI h with ⟨f, v, hf, rfl⟩ | ⟨hf, f, v, hx, rfl⟩ | ⟨hf, hx, he⟩
  · have hm := getField_mem hf
    obtain ⟨h1, h2, _⟩ := put_sim (v := v) hI (by rw [hm.2]; exact hpos) (.inl hm.1)
    refine ⟨h1, rfl, ?_⟩
    unfold MsgDesc.getField at hf
    rw [h2]; simp only [Ev.record, hf]
    exact agree_put hn hA hm.1 v
  · have hm := getExtension_mem hx
    obtain ⟨h1, h2, _⟩ := put_sim (v := v) hI (by rw [hm.2]; exact hpos) (.inr hm.1)
    refine ⟨h1, rfl, ?_⟩
    unfold MsgDesc.getField at hf
    rw [h2]; simp only [Ev.record, hf]
    exact agree_put_ext hS hd hA hm.1 v
  · have hf' := hf
    unfold MsgDesc.getField at hf'
    simp only [Ev.record, hf']
    rcases he with rfl | ⟨u, fs, hu, rfl⟩
    · exact ⟨hI, rfl, hA⟩
    · obtain ⟨hv, us, rfl⟩ := addUnknown_effect hu
      refine ⟨⟨SMap.sorted_insert hpos hI.sorted, ?_⟩, rfl, agree_congr hA ?_⟩
      · intro x hxm u' hu'
        simp only [SMap.get?_insert] at hu'
        split at hu'
        · rename_i hk
          rcases hxm with hxm | hxm
          · rw [← hk, getField_of_mem hn hxm] at hf; cases hf
          · unfold MsgDesc.getExtension at hx
            rw [List.find?_eq_none] at hx
            exact hx x hxm (by simpa using hk)
        · exact hI.known x hxm u' hu'
      · intro k
        simp only [DynMsg.abs, FieldSet.getValue, SMap.get?_insert]
        by_cases hk : k = n
        · subst hk
          simp only
          cases hg : SMap.get? m.fields k with
          | none => rfl
          | some s =>
            cases s with
            | val v => exact absurd hg (hv v)
            | taken => rfl
            | unknown u => rfl
        · simp only [if_neg hk]

/-! ### Whole histories -/

/-- Field numbers on the wire are positive: `decode_key` rejects 0. -/
def Ev.pos : Ev → Prop
  | .wire n _ _ _ => 0 < n
  | _ => True

theorem Ev.step_agree {S : Schema} (hS : S.wf = true) {md : MsgDesc} {m m' : DynMsg}
    (hd : S.msg? m.desc = some md) (hI : Inv md m) (e : Ev) (he : e.ok md) (hp : e.pos) {L : LastWrite}
    (hA : Agree md L m.abs) (h : e.step S md m = some m') :
    Inv md m' ∧ m'.desc = m.desc ∧ Agree md (e.record S md L) m'.abs := by
  cases e with
  | call o => exact call_agree hS hd hI o he hA h
  | drainFields =>
    simp only [Ev.step, Option.map_eq_some_iff, takeFields_eq] at h
    obtain ⟨⟨l, fs'⟩, h1, rfl⟩ := h
    exact ⟨drain_inv hI h1, rfl, drainFields_agree hS hd h1⟩
  | drainExtensions =>
    simp only [Ev.step, Option.map_eq_some_iff, takeExtensions_eq] at h
    obtain ⟨⟨l, fs'⟩, h1, rfl⟩ := h
    exact ⟨drain_inv hI h1, rfl, drainExts_agree hS hd hA h1⟩
  | drainUnknown =>
    simp only [Ev.step, Option.some.injEq] at h
    subst h
    obtain ⟨h1, h2⟩ := drainUnknown_agree hI hA
    exact ⟨h1, rfl, h2⟩
  | fieldsMut g =>
    simp only [Ev.step, Option.map_eq_some_iff] at h
    obtain ⟨fs', h1, rfl⟩ := h
    obtain ⟨h2, h3⟩ := modifyAll_agree hI hA h1
    exact ⟨h2, rfl, h3⟩
  | extensionsMut g =>
    simp only [Ev.step, Option.map_eq_some_iff] at h
    obtain ⟨fs', h1, rfl⟩ := h
    obtain ⟨h2, h3⟩ := modifyAll_agree hI hA h1
    exact ⟨h2, rfl, h3⟩
  | wire n wt b g => exact wire_agree hS hd hI hp hA h

theorem Ev.run_agree {S : Schema} (hS : S.wf = true) {md : MsgDesc} : ∀ (es : List Ev) {m m' : DynMsg}
    {L : LastWrite}, S.msg? m.desc = some md → Inv md m → (∀ e ∈ es, e.ok md ∧ e.pos) → Agree md L m.abs →
    Ev.run S md m es = some m' →
    Inv md m' ∧ m'.desc = m.desc ∧ Agree md (Ev.recordAll S md L es) m'.abs := by
  intro es
  induction es with
  | nil => intro m m' L _ hI _ hA h; cases h; exact ⟨hI, rfl, hA⟩
  | cons e r ih =>
    intro m m' L hd hI he hA h
    simp only [Ev.run] at h
    split at h
    · cases h
    · rename_i m1 h1
      obtain ⟨hI1, hd1, hA1⟩ := Ev.step_agree hS hd hI e (he e (by simp)).1 (he e (by simp)).2 hA h1
      obtain ⟨h2, h3, h4⟩ := ih (by rw [hd1]; exact hd) hI1 (fun e' h' => he e' (by simp [h'])) hA1 h
      exact ⟨h2, h3.trans hd1, h4⟩

theorem Ev.run_append {S : Schema} {md : MsgDesc} : ∀ (a b : List Ev) {m m1 : DynMsg},
    Ev.run S md m a = some m1 → Ev.run S md m (a ++ b) = Ev.run S md m1 b := by
  intro a
  induction a with
  | nil => intro b m m1 h; cases h; rfl
  | cons e r ih =>
    intro b m m1 h
    simp only [Ev.run, List.cons_append] at h ⊢
    split at h
    · cases h
    · rename_i m2 h2
      exact ih b h

/-- Is one decoded field. -/
def Ev.isWire : Ev → Prop
  | .wire n _ _ _ => 0 < n
  | _ => False

/-- A successful `merge` is a history of decoded fields. -/
theorem merge_events {S : Schema} {md : MsgDesc} {m m' : DynMsg} {b : Bytes} (h : merge S m b = .ok m') :
    ∃ es : List Ev, (∀ e ∈ es, e.isWire) ∧ Ev.run S md m es = some m' := by
  unfold merge at h
  split at h
  · cases h
  · rename_i m1 r hm
    cases h
    unfold mergeAll at hm
    refine loopTo_inv (I := fun st => ∃ es : List Ev, (∀ e ∈ es, e.isWire) ∧ Ev.run S md m es = some st)
      ?_ _ _ _ _ _ _ ⟨[], by simp, rfl⟩ hm
    intro st b st' b' hi hk
    refine keyThen_inv
      (I := fun st => ∃ es : List Ev, (∀ e ∈ es, e.isWire) ∧ Ev.run S md m es = some st) ?_ hi hk
    rintro st n w b st' b' hp _ ⟨es, hes, hr⟩ hw
    refine ⟨es ++ [.wire n w b id], ?_, ?_⟩
    · intro e he
      rcases List.mem_append.1 he with he | he
      · exact hes e he
      · simp only [List.mem_singleton] at he; subst he; exact hp
    · rw [Ev.run_append _ _ hr]
      simp only [Ev.run, Ev.step, hw]

end Verif.Dyn
