import Verif.Dyn.ScalarLemmas
set_option autoImplicit false
namespace Verif.Dyn
open Verif.Wire

/-! ### Unknown fields -/

mutual
theorem UVal.wf_iff : (v : UVal) → (UVal.wf v = true ↔ v.Wf)
  | .varint _ => by simp [UVal.wf, Wire.UVal.Wf]
  | .sixtyFour _ => by simp [UVal.wf, Wire.UVal.Wf]
  | .thirtyTwo _ => by simp [UVal.wf, Wire.UVal.Wf]
  | .len b => by simp [UVal.wf, Wire.UVal.Wf]
  | .group fs => by simp only [UVal.wf, Wire.UVal.Wf]; exact USet.wf_iff fs
theorem USet.wf_iff : (fs : List (Nat × UVal)) → (USet.wf fs = true ↔ Wire.USet.Wf fs)
  | [] => by simp [USet.wf, Wire.USet.Wf]
  | (n, v) :: r => by
    simp only [USet.wf, Wire.USet.Wf, Bool.and_eq_true, decide_eq_true_eq, UVal.wf_iff v,
      USet.wf_iff r, and_assoc]
end

/-! ### Schemas -/

structure FieldWf (S : Schema) (f : FieldDesc) : Prop where
  num : ValidNumber f.number
  kind : kindOk S f.kind = true
  group : f.group = true → f.kind.isMessage = true
  packed : f.packed = true → f.card = .repeated ∧ f.kind.packable = true
  rep : f.card = .repeated → f.presence = false ∧ f.default = none ∧ f.oneof = none
  msg : f.card ≠ .repeated → f.kind.isMessage = true → f.presence = true
  dflt : ∀ v, f.default = some v → scalarOk f.kind v = true
  oneof : f.oneof = none ∨ f.presence = true

theorem fieldWf_iff (S : Schema) (f : FieldDesc) : fieldWf S f = true ↔ FieldWf S f := by
  constructor
  · intro h
    simp only [fieldWf, Bool.and_eq_true, Bool.or_eq_true, decide_eq_true_eq, Bool.not_eq_true',
      beq_iff_eq, Option.isNone_iff_eq_none] at h
    obtain ⟨⟨⟨⟨⟨⟨⟨h1, h2⟩, h3⟩, h4⟩, h5⟩, h6⟩, h7⟩, h8⟩ := h
    refine ⟨h1, h2, ?_, ?_, ?_, ?_, ?_, h8⟩
    · intro h; rcases h3 with h3 | h3
      · rw [h] at h3; cases h3
      · exact h3
    · intro h; rcases h4 with h4 | h4
      · rw [h] at h4; cases h4
      · exact h4
    · intro h; rcases h5 with h5 | h5
      · rw [h] at h5; cases h5
      · exact ⟨h5.1.1, h5.1.2, h5.2⟩
    · intro h hm; rcases h6 with h6 | h6
      · rw [hm, Bool.and_true, bne_eq_false_iff_eq] at h6; exact absurd h6 h
      · exact h6
    · intro v hv; rw [hv] at h7; exact h7
  · rintro ⟨h1, h2, h3, h4, h5, h6, h7, h8⟩
    simp only [fieldWf, Bool.and_eq_true, Bool.or_eq_true, decide_eq_true_eq, Bool.not_eq_true',
      beq_iff_eq, Option.isNone_iff_eq_none]
    refine ⟨⟨⟨⟨⟨⟨⟨h1, h2⟩, ?_⟩, ?_⟩, ?_⟩, ?_⟩, ?_⟩, h8⟩
    · cases hg : f.group
      · exact .inl rfl
      · exact .inr (h3 hg)
    · cases hg : f.packed
      · exact .inl rfl
      · exact .inr (h4 hg)
    · by_cases hc : f.card = .repeated
      · have := h5 hc; exact .inr ⟨⟨this.1, this.2.1⟩, this.2.2⟩
      · exact .inl (by simpa using hc)
    · by_cases hc : f.card = .repeated
      · left; simp [hc]
      · cases hm : f.kind.isMessage
        · left; simp
        · exact .inr (h6 hc hm)
    · cases hd : f.default with
      | none => rfl
      | some v => exact h7 v hd

structure MsgWf (S : Schema) (i : Nat) (m : MsgDesc) : Prop where
  fields : ∀ f ∈ m.fields, FieldWf S f
  exts : ∀ f ∈ m.extensions, FieldWf S f
  nodup : (m.fields.map (·.number)).Nodup
  extNew : ∀ e ∈ m.extensions, m.getField e.number = none ∧ e.oneof = none
  entry : m.mapEntry = true → entryWf S i = true

theorem Schema.wf_msg {S : Schema} (h : S.wf = true) {i : Nat} {m : MsgDesc}
    (hm : S.msg? i = some m) : MsgWf S i m := by
  have h1 : msgWf S i m = true := by
    have := (List.all_eq_true.1 h) (m, i) (by
      rw [List.mem_zipIdx_iff_getElem?]
      exact hm)
    exact this
  simp only [msgWf, Bool.and_eq_true, List.all_eq_true, numbersNodup, decide_eq_true_eq,
    Option.isNone_iff_eq_none, Bool.or_eq_true, Bool.not_eq_true'] at h1
  obtain ⟨⟨⟨⟨h1, h2⟩, h3⟩, h4⟩, h5⟩ := h1
  refine ⟨fun f hf => (fieldWf_iff S f).1 (h1 f hf), fun f hf => (fieldWf_iff S f).1 (h2 f hf), h3, h4, ?_⟩
  intro he
  rcases h5 with h5 | h5
  · rw [he] at h5; cases h5
  · exact h5

theorem getField_mem {md : MsgDesc} {n : Nat} {f : FieldDesc} (h : md.getField n = some f) :
    f ∈ md.fields ∧ f.number = n := by
  refine ⟨List.mem_of_find?_eq_some h, ?_⟩
  have := List.find?_some h
  simpa using this

theorem getExtension_mem {md : MsgDesc} {n : Nat} {f : FieldDesc} (h : md.getExtension n = some f) :
    f ∈ md.extensions ∧ f.number = n := by
  refine ⟨List.mem_of_find?_eq_some h, ?_⟩
  have := List.find?_some h
  simpa using this

theorem field?_some {S : Schema} {d n : Nat} {f : FieldDesc} (h : S.field? d n = some f) :
    ∃ md, S.msg? d = some md ∧ md.getField n = some f := by
  exact Option.bind_eq_some_iff.1 h

theorem ext?_some {S : Schema} {d n : Nat} {f : FieldDesc} (h : S.ext? d n = some f) :
    ∃ md, S.msg? d = some md ∧ md.getExtension n = some f := by
  exact Option.bind_eq_some_iff.1 h

theorem Schema.wf_field {S : Schema} (h : S.wf = true) {d n : Nat} {f : FieldDesc}
    (hf : S.field? d n = some f) : FieldWf S f ∧ f.number = n := by
  obtain ⟨md, hm, hg⟩ := field?_some hf
  exact ⟨(Schema.wf_msg h hm).fields f (getField_mem hg).1, (getField_mem hg).2⟩

theorem Schema.wf_ext {S : Schema} (h : S.wf = true) {d n : Nat} {f : FieldDesc}
    (hf : S.ext? d n = some f) :
    FieldWf S f ∧ f.number = n ∧ S.field? d n = none ∧ f.oneof = none := by
  obtain ⟨md, hm, hg⟩ := ext?_some hf
  obtain ⟨hmem, hn⟩ := getExtension_mem hg
  have hw := Schema.wf_msg h hm
  have := hw.extNew f hmem
  refine ⟨hw.exts f hmem, hn, ?_, this.2⟩
  simp [Schema.field?, hm, ← hn, this.1]

theorem mapKV_some {S : Schema} {i : Nat} {kd vd : FieldDesc} (h : S.mapKV i = some (kd, vd)) :
    S.field? i 1 = some kd ∧ S.field? i 2 = some vd := by
  unfold Schema.mapKV at h
  split at h
  · rename_i h1 h2; cases h; exact ⟨h1, h2⟩
  · cases h

structure EntryOk (S : Schema) (i : Nat) (kd vd : FieldDesc) : Prop where
  kv : S.mapKV i = some (kd, vd)
  key : FieldWf S kd ∧ kd.number = 1 ∧ kd.card ≠ .repeated ∧ ∃ k0, MapKey.default kd.kind = some k0
  val : FieldWf S vd ∧ vd.number = 2 ∧ vd.card ≠ .repeated

theorem Schema.wf_entry {S : Schema} (h : S.wf = true) {i : Nat} (hi : S.isMapEntry i = true) :
    ∃ kd vd, EntryOk S i kd vd := by
  unfold Schema.isMapEntry at hi
  split at hi
  · rename_i m hm
    have he := (Schema.wf_msg h hm).entry hi
    unfold entryWf at he
    split at he
    · rename_i kd vd hkv
      simp only [Bool.and_eq_true, bne_iff_ne, ne_eq] at he
      obtain ⟨⟨h1, h2⟩, h3⟩ := he
      obtain ⟨hk, hv⟩ := mapKV_some hkv
      exact ⟨kd, vd, hkv, ⟨(Schema.wf_field h hk).1, (Schema.wf_field h hk).2, h1,
        Option.isSome_iff_exists.1 h2⟩, (Schema.wf_field h hv).1, (Schema.wf_field h hv).2, h3⟩
    · cases he
  · cases hi

theorem isMap_iff {S : Schema} {f : FieldDesc} : isMap S f = true ↔
    f.card = .repeated ∧ ∃ i, f.kind = .message i ∧ S.isMapEntry i = true := by
  unfold isMap
  simp only [Bool.and_eq_true, beq_iff_eq]
  constructor
  · rintro ⟨h1, h2⟩
    split at h2
    · rename_i i hi; exact ⟨h1, i, hi, h2⟩
    · cases h2
  · rintro ⟨h1, i, hi, h2⟩
    refine ⟨h1, ?_⟩
    rw [hi]; exact h2

theorem isList_iff {S : Schema} {f : FieldDesc} : isList S f = true ↔
    f.card = .repeated ∧ isMap S f = false := by
  simp [isList]

theorem isList_of_ne {S : Schema} {f : FieldDesc} (h : f.card ≠ .repeated) : isList S f = false := by
  simp [isList, h]

theorem isMap_of_ne {S : Schema} {f : FieldDesc} (h : f.card ≠ .repeated) : isMap S f = false := by
  simp [isMap, h]

theorem kindDefault_some {S : Schema} {k : Kind} (h : kindOk S k = true) :
    ∃ v, kindDefault S k = some v ∧
      (∀ i, k = .message i → v = .msg i []) ∧ (k.isMessage = false → scalarOk k v = true) := by
  cases k <;> simp only [kindDefault, Option.some.injEq, exists_eq_left']
  case enum e =>
    simp only [kindOk] at h
    obtain ⟨x, hx⟩ := Option.isSome_iff_exists.1 h
    rw [hx]
    exact ⟨.enum x, rfl, (by intro i hi; cases hi), fun _ => rfl⟩
  case message i =>
    refine ⟨?_, ?_⟩
    · intro j hj; cases hj; rfl
    · intro h; cases h
  all_goals
    refine ⟨?_, ?_⟩
    · intro i hi; cases hi
    · intro _; decide

/-- A field of a well-formed schema has a default value. -/
theorem fieldDefault_some {S : Schema} {f : FieldDesc} (h : FieldWf S f) :
    ∃ v, fieldDefault S f = some v := by
  unfold fieldDefault
  split
  · exact ⟨_, rfl⟩
  · split
    · exact ⟨_, rfl⟩
    · split
      · exact ⟨_, rfl⟩
      · obtain ⟨v, hv, _⟩ := kindDefault_some h.kind
        exact ⟨v, hv⟩

theorem hasVal_isSome {S : Schema} {f : FieldDesc} (h : FieldWf S f) (v : Value) :
    ∃ b, hasVal S f v = some b := by
  unfold hasVal isDefault
  split
  · exact ⟨_, rfl⟩
  · obtain ⟨w, hw⟩ := fieldDefault_some h
    rw [hw]; exact ⟨_, rfl⟩

/-- A present value is not skipped by the encoder. -/
theorem unlessDefault_present {α : Type} {S : Schema} {f : FieldDesc} {v : Value} {z : α}
    {k : Option α} (h : hasVal S f v = some true) : unlessDefault S f v z k = k := by
  unfold hasVal at h
  unfold unlessDefault
  split
  · rfl
  · rename_i hp
    rw [if_neg hp] at h
    cases hd : isDefault S f v with
    | none => rw [hd] at h; cases h
    | some b =>
      rw [hd] at h
      cases b
      · rfl
      · simp at h

/-- An absent value is skipped by the encoder. -/
theorem unlessDefault_absent {α : Type} {S : Schema} {f : FieldDesc} {v : Value} {z : α}
    {k : Option α} (h : hasVal S f v = some false) : unlessDefault S f v z k = some z := by
  unfold hasVal at h
  unfold unlessDefault
  split
  · rename_i hp; rw [if_pos hp] at h; cases h
  · rename_i hp
    rw [if_neg hp] at h
    cases hd : isDefault S f v with
    | none => rw [hd] at h; cases h
    | some b =>
      rw [hd] at h
      cases b
      · simp at h
      · rfl

end Verif.Dyn
