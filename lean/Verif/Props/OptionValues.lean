import Verif.Props.Options
/-!
What the written value of an uninterpreted option stands for (C29).
-/
set_option autoImplicit false
namespace Verif.Props
open Verif.Wire Verif.Dyn Verif.Pool Verif.Text Verif.Opt

variable {env : OEnv} {S : Schema}

/-- The integer written; a positive one counts if both are given. -/
inductive IntGiven (u : Uninterp) : Int → Prop
  | pos {n : BitVec 64} : u.pos = some n → IntGiven u (n.toNat : Int)
  | neg {n : BitVec 64} : u.pos = none → u.neg = some n → IntGiven u n.toInt

/-- The number written, as a double; integers are converted. -/
inductive NumGiven (env : OEnv) (u : Uninterp) : BitVec 64 → Prop
  | dbl {x : BitVec 64} : u.dbl = some x → NumGiven env u x
  | pos {n : BitVec 64} : u.dbl = none → u.pos = some n → NumGiven env u (env.ofU64 n)
  | neg {n : BitVec 64} : u.dbl = none → u.pos = none → u.neg = some n → NumGiven env u (env.ofI64 n)

/-- What is written stands for the value of the type. -/
inductive Stands (env : OEnv) (S : Schema) (u : Uninterp) : Kind → Value → Prop
  | yes : u.ident = some "true".toList → Stands env S u .bool (.bool true)
  | no : u.ident = some "false".toList → Stands env S u .bool (.bool false)
  | i32 {k : Kind} {x : BitVec 32} : k = .int32 ∨ k = .sint32 ∨ k = .sfixed32 → IntGiven u x.toInt → Stands env S u k (.i32 x)
  | i64 {k : Kind} {x : BitVec 64} : k = .int64 ∨ k = .sint64 ∨ k = .sfixed64 → IntGiven u x.toInt → Stands env S u k (.i64 x)
  | u32 {k : Kind} {x : BitVec 32} : k = .uint32 ∨ k = .fixed32 → IntGiven u x.toNat → Stands env S u k (.u32 x)
  | u64 {k : Kind} {x : BitVec 64} : k = .uint64 ∨ k = .fixed64 → IntGiven u x.toNat → Stands env S u k (.u64 x)
  | f32 {x : BitVec 64} : NumGiven env u x → Stands env S u .float (.f32 (env.text.narrow x))
  | f64 {x : BitVec 64} : NumGiven env u x → Stands env S u .double (.f64 x)
  | str {b : Bytes} : u.str = some b → utf8Valid b = true → Stands env S u .string (.str b)
  | bytes {b : Bytes} : u.str = some b → Stands env S u .bytes (.bytes b)
  | enum {e : Nat} {ed : EnumDesc} {c : List Char} {n : BitVec 32} {a b : List (List Char × BitVec 32)} : S.enums[e]? = some ed → u.ident = some c →
      ed.values = a ++ (c, n) :: b → (∀ p ∈ a, p.1 ≠ c) → Stands env S u (.enum e) (.enum n)
  | msg {d : Nat} {t : List Char} {m : DynMsg} : u.agg = some t → parseText env.text S env.stack d t = .ok m →
      Stands env S u (.message d) m.toValue

theorem intGiven_signed {w : Nat} (hw : 0 < w) {u : Uninterp} {x : BitVec w} : optSigned w u = some x ↔ IntGiven u x.toInt := by
  rw [C29_signed hw]
  constructor
  · rintro (⟨n, h1, h2⟩ | ⟨h1, n, h2, h3⟩)
    · rw [h2]; exact .pos h1
    · rw [h3]; exact .neg h1 h2
  · intro h
    generalize hi : x.toInt = i at h
    cases h with
    | pos h1 => exact .inl ⟨_, h1, rfl⟩
    | neg h1 h2 => exact .inr ⟨h1, _, h2, rfl⟩

theorem intGiven_unsigned {w : Nat} {u : Uninterp} {x : BitVec w} : optUnsigned w u = some x ↔ IntGiven u x.toNat := by
  rw [C29_unsigned]
  constructor
  · rintro (⟨n, h1, h2⟩ | ⟨h1, n, h2, h3⟩)
    · rw [h2]; exact .pos h1
    · rw [h3]; exact .neg h1 h2
  · intro h
    generalize hi : (x.toNat : Int) = i at h
    cases h with
    | pos h1 => exact .inl ⟨_, h1, by omega⟩
    | neg h1 h2 => exact .inr ⟨h1, _, h2, rfl⟩

theorem numGiven {u : Uninterp} {x : BitVec 64} : optFloat env u = some x ↔ NumGiven env u x := by
  unfold optFloat
  constructor
  · intro h
    cases h1 : u.dbl with
    | some y => rw [h1] at h; cases h; exact .dbl h1
    | none =>
      rw [h1] at h
      cases h2 : u.pos with
      | some n => rw [h2] at h; cases h; exact .pos h1 h2
      | none =>
        rw [h2] at h
        obtain ⟨n, h3, rfl⟩ := Option.map_eq_some_iff.1 h
        exact .neg h1 h2 h3
  · rintro (h | ⟨h1, h2⟩ | ⟨h1, h2, h3⟩)
    · rw [h]
    · rw [h1, h2]
    · rw [h1, h2, h3]; rfl

theorem orInvalid_ok {α : Type} {g : α → Value} {o : Option α} {v : Value} : orInvalid g o = .ok v ↔ ∃ a, o = some a ∧ v = g a := by
  cases o with
  | none => simp [orInvalid]
  | some a => simp [orInvalid, eq_comm]

theorem find_first {α : Type} {l : List (List Char × α)} {c : List Char} {p : List Char × α} :
    l.find? (fun p => p.1 == c) = some p ↔ p.1 = c ∧ ∃ a b, l = a ++ p :: b ∧ ∀ q ∈ a, q.1 ≠ c := by
  rw [List.find?_eq_some_iff_append]
  simp

/-- The value of a singular option. -/
theorem setSingle_iff {f : FieldDesc} (hc : f.card ≠ .repeated) {u : Uninterp} {v v' : Value} (hv : confVal S f v = true)
    (hk : kindOk S f.kind = true) :
    setSingle env S f.kind u v = .ok v' ↔ Stands env S u f.kind v' := by
  cases hkd : f.kind with
  | message i =>
    obtain ⟨fs, rfl, -⟩ := msg_of_confVal hkd hc hv
    simp only [setSingle, optMessage]
    constructor
    · intro h
      cases ht : u.agg with
      | none => rw [ht] at h; cases h
      | some t =>
        rw [ht] at h
        cases hp : parseText env.text S env.stack i t with
        | error e => simp only [hp] at h; cases h
        | ok m => simp only [hp] at h; cases h; exact .msg ht hp
    · intro h
      cases h with
      | i32 h _ => rcases h with h | h | h <;> cases h
      | i64 h _ => rcases h with h | h | h <;> cases h
      | u32 h _ => rcases h with h | h <;> cases h
      | u64 h _ => rcases h with h | h <;> cases h
      | msg h1 h2 => simp only [h1, h2]
  | enum e =>
    have hs := scalarOk_of_confVal (by rw [hkd]; rfl) hc hv
    rw [hkd] at hs
    cases v <;> first | (cases hs; done) | skip
    simp only [setSingle, optEnum]
    rw [hkd] at hk
    cases he : S.enums[e]? with
    | none => simp [kindOk, Schema.enumDefault, he] at hk
    | some ed =>
      constructor
      · intro h
        cases hi : u.ident with
        | none => rw [hi] at h; cases h
        | some c =>
          rw [hi] at h
          simp only at h
          cases hf : ed.values.find? (fun p => p.1 == c) with
          | none => rw [hf] at h; cases h
          | some p =>
            rw [hf] at h
            cases h
            obtain ⟨h1, a, b, h2, h3⟩ := find_first.1 hf
            obtain ⟨c', n⟩ := p
            simp only at h1
            subst h1
            exact .enum he hi h2 h3
      · intro h
        cases h with
        | i32 h _ => rcases h with h | h | h <;> cases h
        | i64 h _ => rcases h with h | h | h <;> cases h
        | u32 h _ => rcases h with h | h <;> cases h
        | u64 h _ => rcases h with h | h <;> cases h
        | enum h1 h2 h3 h4 =>
          rw [he] at h1
          cases h1
          rw [h2]
          simp only [find_first.2 ⟨rfl, _, _, h3, h4⟩]
  | bool =>
    have hs := scalarOk_of_confVal (by rw [hkd]; rfl) hc hv
    rw [hkd] at hs
    cases v <;> first | (cases hs; done) | skip
    simp only [setSingle, orInvalid_ok]
    constructor
    · rintro ⟨b, h, rfl⟩
      unfold optBool at h
      split at h
      · rename_i c hi
        split at h
        · rename_i e; cases h; exact .yes (by rw [hi, e])
        · split at h
          · rename_i e; cases h; exact .no (by rw [hi, e])
          · cases h
      · cases h
    · intro h
      cases h with
      | i32 h _ => rcases h with h | h | h <;> cases h
      | i64 h _ => rcases h with h | h | h <;> cases h
      | u32 h _ => rcases h with h | h <;> cases h
      | u64 h _ => rcases h with h | h <;> cases h
      | yes h => exact ⟨true, by simp [optBool, h], rfl⟩
      | no h => exact ⟨false, by simp [optBool, h], rfl⟩
  | string =>
    have hs := scalarOk_of_confVal (by rw [hkd]; rfl) hc hv
    rw [hkd] at hs
    cases v <;> first | (cases hs; done) | skip
    simp only [setSingle, orInvalid_ok]
    constructor
    · rintro ⟨b, h, rfl⟩
      unfold optString at h
      split at h
      · rename_i c hi
        split at h
        · rename_i e; cases h; exact .str hi e
        · cases h
      · cases h
    · intro h
      cases h with
      | i32 h _ => rcases h with h | h | h <;> cases h
      | i64 h _ => rcases h with h | h | h <;> cases h
      | u32 h _ => rcases h with h | h <;> cases h
      | u64 h _ => rcases h with h | h <;> cases h
      | str h h' => exact ⟨_, by simp [optString, h, h'], rfl⟩
  | bytes =>
    have hs := scalarOk_of_confVal (by rw [hkd]; rfl) hc hv
    rw [hkd] at hs
    cases v <;> first | (cases hs; done) | skip
    simp only [setSingle, orInvalid_ok]
    constructor
    · rintro ⟨b, h, rfl⟩
      exact .bytes h
    · intro h
      cases h with
      | i32 h _ => rcases h with h | h | h <;> cases h
      | i64 h _ => rcases h with h | h | h <;> cases h
      | u32 h _ => rcases h with h | h <;> cases h
      | u64 h _ => rcases h with h | h <;> cases h
      | bytes h => exact ⟨_, h, rfl⟩
  | float =>
    have hs := scalarOk_of_confVal (by rw [hkd]; rfl) hc hv
    rw [hkd] at hs
    cases v <;> first | (cases hs; done) | skip
    simp only [setSingle, orInvalid_ok]
    constructor
    · rintro ⟨b, h, rfl⟩
      exact .f32 (numGiven.1 h)
    · intro h
      cases h with
      | i32 h _ => rcases h with h | h | h <;> cases h
      | i64 h _ => rcases h with h | h | h <;> cases h
      | u32 h _ => rcases h with h | h <;> cases h
      | u64 h _ => rcases h with h | h <;> cases h
      | f32 h => exact ⟨_, numGiven.2 h, rfl⟩
  | double =>
    have hs := scalarOk_of_confVal (by rw [hkd]; rfl) hc hv
    rw [hkd] at hs
    cases v <;> first | (cases hs; done) | skip
    simp only [setSingle, orInvalid_ok]
    constructor
    · rintro ⟨b, h, rfl⟩
      exact .f64 (numGiven.1 h)
    · intro h
      cases h with
      | i32 h _ => rcases h with h | h | h <;> cases h
      | i64 h _ => rcases h with h | h | h <;> cases h
      | u32 h _ => rcases h with h | h <;> cases h
      | u64 h _ => rcases h with h | h <;> cases h
      | f64 h => exact ⟨_, numGiven.2 h, rfl⟩
  | int32 | sint32 | sfixed32 =>
    all_goals
      have hs := scalarOk_of_confVal (by rw [hkd]; rfl) hc hv
      rw [hkd] at hs
      cases v <;> first | (cases hs; done) | skip
      simp only [setSingle, orInvalid_ok]
      constructor
      · rintro ⟨b, h, rfl⟩
        exact .i32 (by simp) ((intGiven_signed (by decide)).1 h)
      · intro h
        cases h with
        | i64 h _ => rcases h with h | h | h <;> cases h
        | u32 h _ => rcases h with h | h <;> cases h
        | u64 h _ => rcases h with h | h <;> cases h
        | i32 _ h => exact ⟨_, (intGiven_signed (by decide)).2 h, rfl⟩
  | int64 | sint64 | sfixed64 =>
    all_goals
      have hs := scalarOk_of_confVal (by rw [hkd]; rfl) hc hv
      rw [hkd] at hs
      cases v <;> first | (cases hs; done) | skip
      simp only [setSingle, orInvalid_ok]
      constructor
      · rintro ⟨b, h, rfl⟩
        exact .i64 (by simp) ((intGiven_signed (by decide)).1 h)
      · intro h
        cases h with
        | i32 h _ => rcases h with h | h | h <;> cases h
        | u32 h _ => rcases h with h | h <;> cases h
        | u64 h _ => rcases h with h | h <;> cases h
        | i64 _ h => exact ⟨_, (intGiven_signed (by decide)).2 h, rfl⟩
  | uint32 | fixed32 =>
    all_goals
      have hs := scalarOk_of_confVal (by rw [hkd]; rfl) hc hv
      rw [hkd] at hs
      cases v <;> first | (cases hs; done) | skip
      simp only [setSingle, orInvalid_ok]
      constructor
      · rintro ⟨b, h, rfl⟩
        exact .u32 (by simp) (intGiven_unsigned.1 h)
      · intro h
        cases h with
        | i32 h _ => rcases h with h | h | h <;> cases h
        | i64 h _ => rcases h with h | h | h <;> cases h
        | u64 h _ => rcases h with h | h <;> cases h
        | u32 _ h => exact ⟨_, intGiven_unsigned.2 h, rfl⟩
  | uint64 | fixed64 =>
    all_goals
      have hs := scalarOk_of_confVal (by rw [hkd]; rfl) hc hv
      rw [hkd] at hs
      cases v <;> first | (cases hs; done) | skip
      simp only [setSingle, orInvalid_ok]
      constructor
      · rintro ⟨b, h, rfl⟩
        exact .u64 (by simp) (intGiven_unsigned.1 h)
      · intro h
        cases h with
        | i32 h _ => rcases h with h | h | h <;> cases h
        | i64 h _ => rcases h with h | h | h <;> cases h
        | u32 h _ => rcases h with h | h <;> cases h
        | u64 _ h => exact ⟨_, intGiven_unsigned.2 h, rfl⟩

/-- **C29, values.** A singular option that is not present can be set exactly to what its written
value stands for in the type of the field. -/
theorem C29_value (hS : S.wf = true) (hX : ExtOk env S) {u : Uninterp} {p : Part} {m : DynMsg} {md : MsgDesc}
    (hm : confMsg S m = true) (hmd : S.msg? m.desc = some md) {f : FieldDesc} {sib : List Nat}
    (hl : lookPart env md m.desc p = .ok (f, sib)) (hc : f.card ≠ .repeated) (hh : m.hasField S f = some false) (v : Value) :
    (∃ m', setOption env S u [p] m = .ok m' ∧ SMap.get? m'.fields f.number = some (.val v)) ↔ Stands env S u f.kind v := by
  obtain ⟨md', hC⟩ := confMsg_iff.1 hm
  have : md' = md := by have := hC.desc; rw [hmd] at this; exact (Option.some.inj this).symm
  subst this
  obtain ⟨fs, v0, t⟩ := lookPart_touch hS hX hC hl
  have hs : setValue env S f.kind u v0 = setSingle env S f.kind u v0 := by
    cases v0 with
    | list vs =>
      have := t.conf
      simp only [confVal, Bool.and_eq_true, isList] at this
      exact absurd (by simpa using this.1.1) hc
    | map kvs =>
      have := t.conf
      simp only [confVal, Bool.and_eq_true, isMap] at this
      exact absurd (by simpa using this.1.1) hc
    | _ => rfl
  have hh' : FieldSet.has S m.fields f = some false := hh
  rw [← setSingle_iff hc t.conf t.wf.kind, ← hs]
  simp only [setOption, hmd, hl, t.gmut, hh', if_true, if_pos hc]
  cases hv : setValue env S f.kind u v0 with
  | error e => simp
  | ok v' =>
    constructor
    · rintro ⟨m', h1, h2⟩
      cases h1
      have := t.get v' f.number
      rw [if_pos rfl] at this
      simp only at h2
      rw [this] at h2
      cases h2
      rfl
    · intro h
      cases h
      refine ⟨_, rfl, ?_⟩
      have := t.get v f.number
      rw [if_pos rfl] at this
      exact this

/-- **C29, elements.** An option that is a list can be extended by exactly the value its written
value stands for, at the end. -/
theorem C29_element (hS : S.wf = true) (hX : ExtOk env S) {u : Uninterp} {p : Part} {m : DynMsg} {md : MsgDesc}
    (hm : confMsg S m = true) (hmd : S.msg? m.desc = some md) {f : FieldDesc} {sib : List Nat}
    (hl : lookPart env md m.desc p = .ok (f, sib)) (hc : f.card = .repeated) {vs : List Value}
    (hg : m.getField S f = some (.list vs)) (v : Value) :
    (∃ m', setOption env S u [p] m = .ok m' ∧ SMap.get? m'.fields f.number = some (.val (.list (vs ++ [v])))) ↔
      Stands env S u f.kind v := by
  obtain ⟨md', hC⟩ := confMsg_iff.1 hm
  have : md' = md := by have := hC.desc; rw [hmd] at this; exact (Option.some.inj this).symm
  subst this
  obtain ⟨fs, v0, t⟩ := lookPart_touch hS hX hC hl
  have : v0 = .list vs := by
    have h1 := t.cur
    have h2 : FieldSet.get S m.fields f = some (.list vs) := hg
    rw [h2] at h1
    exact (Option.some.inj h1).symm
  subst this
  obtain ⟨d, hd, hdc⟩ := kindDefault_conf t.wf
  have he : f.elem.kind = f.kind := rfl
  have hs := setSingle_iff (env := env) (u := u) (v' := v) (f := f.elem) elem_card hdc (by rw [he]; exact t.wf.kind)
  rw [he] at hs
  rw [← hs]
  simp only [setOption, hmd, hl, t.gmut, if_true, setValue, hd]
  rw [if_neg (by simp [hc])]
  cases hv : setSingle env S f.kind u d with
  | error e => simp
  | ok v' =>
    constructor
    · rintro ⟨m', h1, h2⟩
      cases h1
      have := t.get (.list (vs ++ [v'])) f.number
      rw [if_pos rfl] at this
      simp only at h2
      rw [this] at h2
      simp only [Option.some.injEq, Slot.val.injEq, Value.list.injEq, List.append_cancel_left_eq, List.cons.injEq, and_true] at h2
      rw [h2]
    · intro h
      cases h
      refine ⟨_, rfl, ?_⟩
      have := t.get (.list (vs ++ [v])) f.number
      rw [if_pos rfl] at this
      exact this

-- a string, an element and an extension meet the hypotheses; `yes` is no boolean
example : ∃ f sib, lookPart optEnv (optSchema.msgs[0]'(by decide)) 0 ⟨"pkg".toList, false⟩ = .ok (f, sib) ∧ f.card ≠ .repeated ∧
    DynMsg.hasField optSchema ⟨0, []⟩ f = some false ∧
    Stands optEnv optSchema { parts := plain ["pkg"], str := some [104, 105] } f.kind (.str [104, 105]) :=
  ⟨{ Ex.fld 1 "pkg" .string with presence := true }, [], by rfl, by decide, by decide +kernel, .str rfl (by decide +kernel)⟩
example : ∃ f sib, lookPart optEnv (optSchema.msgs[0]'(by decide)) 0 ⟨"xs".toList, false⟩ = .ok (f, sib) ∧ f.card = .repeated ∧
    DynMsg.getField optSchema ⟨0, [(2, .val (.list [.i32 5]))]⟩ f = some (.list [.i32 5]) ∧
    Stands optEnv optSchema { parts := plain ["xs"], neg := some (-7) } f.kind (.i32 (-7)) :=
  ⟨{ Ex.fld 2 "xs" .int32 with card := .repeated }, [], by rfl, by decide, by rfl,
    .i32 (.inl rfl) (by
      have h : IntGiven { parts := plain ["xs"], neg := some (-7) } (-7 : BitVec 64).toInt := .neg rfl rfl
      exact h)⟩
example (v : Value) : ¬ Stands optEnv optSchema { parts := plain ["sub", "b"], ident := some "yes".toList } .bool v := by
  intro h
  cases h with
  | i32 h _ => rcases h with h | h | h <;> cases h
  | i64 h _ => rcases h with h | h | h <;> cases h
  | u32 h _ => rcases h with h | h <;> cases h
  | u64 h _ => rcases h with h | h <;> cases h
  | yes h => revert h; decide
  | no h => revert h; decide

end Verif.Props
