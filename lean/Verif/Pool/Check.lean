import Verif.Pool.Valid
/-!
A check that proves files valid, for files that name all types in full, import nothing publicly and
declare no services and extensions.  Names are compared as numbers, which the kernel does quickly.
-/
set_option autoImplicit false
namespace Verif.Pool
open Verif.Wire Verif.Dyn

/-- A name as a number. -/
def code : Name → Nat
  | [] => 0
  | c :: r => c.toNat + 1 + 1114113 * code r

theorem char_lt (c : Char) : c.toNat + 1 < 1114113 := by
  have : c.toNat.isValidChar := c.valid
  simp only [Nat.isValidChar] at this
  omega

theorem code_inj : ∀ {a b : Name}, code a = code b → a = b
  | [], [], _ => rfl
  | [], c :: r, h => by simp only [code] at h; omega
  | c :: r, [], h => by simp only [code] at h; omega
  | c :: r, d :: t, h => by
    simp only [code] at h
    have h1 := char_lt c
    have h2 := char_lt d
    have hc : c.toNat = d.toNat := by omega
    have hr : code r = code t := by omega
    rw [code_inj hr, Char.toNat_inj.1 hc]

/-- Whether a number does not occur. -/
def freshB (a : Nat) : List Nat → Bool
  | [] => true
  | b :: l =>
    match Nat.beq a b with
    | true => false
    | false => freshB a l

/-- Whether no number occurs twice. -/
def nodupB : List Nat → Bool
  | [] => true
  | a :: l => freshB a l && nodupB l

theorem freshB_iff {a : Nat} : ∀ {l : List Nat}, freshB a l = true ↔ a ∉ l
  | [] => by simp [freshB]
  | b :: l => by
    simp only [freshB, List.mem_cons, not_or]
    split
    · next h => simp [Nat.eq_of_beq_eq_true h]
    · next h => rw [freshB_iff]; simp [Nat.ne_of_beq_eq_false h]

theorem nodupB_iff : ∀ {l : List Nat}, nodupB l = true ↔ l.Nodup
  | [] => by simp [nodupB]
  | a :: l => by simp [nodupB, freshB_iff, nodupB_iff]

theorem nodup_of_codes {α : Type} {g : α → Name} {l : List α}
    (h : nodupB (l.map fun a => code (g a)) = true) : (l.map g).Nodup := by
  rw [nodupB_iff] at h
  rw [List.Nodup, List.pairwise_map] at h ⊢
  exact h.imp fun hne heq => hne (by rw [heq])

/-- The files that each file names: itself and its imports. -/
def seesB (all : List FileP) (i j : Nat) : Bool :=
  Nat.beq i j ||
    match all[i]?, all[j]? with
    | some f, some g => f.deps.any fun n => Nat.beq (code n) (code g.name)
    | _, _ => false

theorem seesB_nearly {all : List FileP} {i j : Nat} (h : seesB all i j = true) : NearlyVisible all i j := by
  unfold seesB at h
  rw [Bool.or_eq_true] at h
  rcases h with h | h
  · exact .inl (Nat.eq_of_beq_eq_true h)
  · split at h
    · next f g hf hg =>
      obtain ⟨n, hn, he⟩ := List.any_eq_true.1 h
      have := code_inj (Nat.eq_of_beq_eq_true he)
      exact .inr (.inl ⟨f, g, hf, hg, this ▸ hn⟩)
    · cases h

/-- The messages and enums, with the files that declare them. -/
def typeOf : Event → Option (Nat × Nat)
  | .message _ full fi .. | .enum _ full fi .. => some (code full, fi)
  | _ => none

/-- The type name is complete and is that of a type in a file that file `i` sees. -/
def refB (all : List FileP) (types : List (Nat × Nat)) (i : Nat) : Name → Bool
  | [] => false
  | c :: n => Nat.beq c.toNat 46 && types.any fun t => Nat.beq t.1 (code n) && seesB all i t.2

/-- The default value is `true` or `false`, or a value of the enum. -/
def defaultB (all : List FileP) (evs : List Event) (i : Nat) (f : FieldP) : Bool :=
  match f.default with
  | none => true
  | some s =>
    match f.typeName with
    | [] => decide (f.ty = .bool) && (decide (parseBool s ≠ none))
    | c :: n => Nat.beq c.toNat 46 && evs.any fun e =>
        match e with
        | .enum _ full fi _ _ en => Nat.beq (code full) (code n) && (seesB all i fi &&
            en.values.any fun v => Nat.beq (code v.name) (code s))
        | _ => false

def fieldB (all : List FileP) (evs : List Event) (types : List (Nat × Nat)) (i : Nat) (m : MsgP)
    (f : FieldP) : Bool :=
  numberOk f.number && (m.reserved.all fun r => !decide (r.1 ≤ f.number ∧ f.number < r.2)) &&
    (f.extendee.isSome == m.extRanges.any (inRange f.number)) &&
    (match f.typeName with
      | [] => decide (scalarKind f.ty ≠ none)
      | c :: n => refB all types i (c :: n)) &&
    defaultB all evs i f &&
    (match f.oneofIndex with
      | none => true
      | some j => decide (0 ≤ j ∧ j < m.oneofs.length))

/-- One declaration. -/
def eventB (all : List FileP) (evs : List Event) (types : List (Nat × Nat)) : Event → Bool
  | .message _ _ i _ _ m =>
    m.fields.all (fieldB all evs types i m) && decide (m.fields.map FieldP.number).Nodup &&
      nodupB (m.fields.map fun f => code (jsonOf f)) &&
      nodupB (m.fields.map fun f => code (toLowerWithoutUnderscores f.name))
  | .enum _ _ _ _ _ e =>
    (e.values.all fun v => e.reserved.all fun r => !decide (r.1 ≤ v.number ∧ v.number ≤ r.2)) &&
      (e.allowAlias || decide (e.values.map EnumValueP.number).Nodup) && !e.values.isEmpty
  | .extension .. | .service .. | .method .. => false
  | _ => true

/-- One file. -/
def fileB (all : List FileP) (f : FileP) : Bool :=
  (match f.syn with
    | none => true
    | some s => Nat.beq (code s) (code "proto2".toList) || Nat.beq (code s) (code "proto3".toList)) &&
  (f.deps.all fun n => all.any fun g => Nat.beq (code g.name) (code n)) &&
  f.publicDeps.isEmpty && f.weakDeps.isEmpty

/-- Enums of proto3 files begin with zero. -/
def firstB (f : FileP) : Bool :=
  match f.syn with
  | none => true
  | some s => Nat.beq (code s) (code "proto2".toList) ||
      (visit {} [f]).all fun e =>
        match e with
        | .enum _ _ _ _ _ en =>
          match en.values with
          | [] => false
          | v :: _ => decide (v.number = 0)
        | _ => true

def checkB (all : List FileP) : Bool :=
  all.all (fileB all) && all.all firstB && nodupB (all.map fun f => code f.name) &&
    nodupB ((all.flatMap fileDecls).map code) && freshB 0 ((all.flatMap fileDecls).map code) &&
    (all.all fun f => (packageNames f.package).all fun n =>
      freshB (code n) ((all.flatMap fileDecls).map code)) &&
    (visit {} all).all (eventB all (visit {} all) ((visit {} all).filterMap typeOf))

section
variable {env : Env} {all : List FileP} {vis : Nat → Nat → Prop}

theorem declared_event {e : Event} (he : e ∈ visit {} all) {i : Nat} {path : Path} {full : Name} {x : Item}
    (hx : e.item = some (i, path, full, x)) : DeclaredAs all i full x := by
  obtain ⟨j, f, s, h1, h2, h3, h4⟩ := visited_has he hx
  have h0 : ({} : Offs).file = 0 := rfl
  rw [h0, Nat.zero_add] at h1
  subst h1
  exact ⟨f, path, s, h2, h4, h3⟩

theorem dot_of {c : Char} (h : Nat.beq c.toNat 46 = true) : c = '.' :=
  Char.toNat_inj.1 (Nat.eq_of_beq_eq_true h)

theorem refB_refers (hb : Between all vis) {i : Nat} {scope name : Name}
    (h : refB all ((visit {} all).filterMap typeOf) i name = true) :
    ∃ n, Refers all (vis i) true scope name n := by
  cases name with
  | nil => cases h
  | cons c n =>
    simp only [refB, Bool.and_eq_true, List.any_eq_true] at h
    obtain ⟨hc, ⟨k, fi⟩, ht, hk, hs⟩ := h
    rw [dot_of hc]
    obtain ⟨e, he, hte⟩ := List.mem_filterMap.1 ht
    have hk := Nat.eq_of_beq_eq_true hk
    refine ⟨n, .full n ⟨fi, (hb i fi).1 (seesB_nearly hs), ?_⟩⟩
    cases e <;> simp only [typeOf, Option.some.injEq, Prod.mk.injEq, reduceCtorEq] at hte
    · obtain ⟨h1, rfl⟩ := hte
      cases code_inj (h1.trans hk)
      exact .inl ⟨_, declared_event he rfl⟩
    · obtain ⟨h1, rfl⟩ := hte
      cases code_inj (h1.trans hk)
      exact .inr ⟨rfl, _, declared_event he rfl⟩

theorem fieldB_valid (hb : Between all vis) {i : Nat} {scope : Name} {m : MsgP} {f : FieldP}
    (h : fieldB all (visit {} all) ((visit {} all).filterMap typeOf) i m f = true) :
    FieldValid env all (vis i) scope m f := by
  simp only [fieldB, Bool.and_eq_true] at h
  obtain ⟨⟨⟨⟨⟨h1, h2⟩, h3⟩, h4⟩, h5⟩, h6⟩ := h
  refine ⟨⟨h1, ?_, by simpa using h3⟩, ⟨fun h0 => ?_, fun h0 => ?_⟩, fun s hs => ⟨fun h0 => ?_, fun h0 => ?_⟩, ?_⟩
  · intro r hr
    have := List.all_eq_true.1 h2 r hr
    simp only [Bool.not_eq_true', decide_eq_false_iff_not] at this
    exact this
  · rw [h0] at h4
    simpa using h4
  · split at h4
    · next h => exact absurd h h0
    · next c n h => rw [h]; exact refB_refers hb h4
  · simp only [defaultB, hs, h0, Bool.and_eq_true, decide_eq_true_eq] at h5
    obtain ⟨b, hp⟩ := Option.ne_none_iff_exists'.1 h5.2
    exact ⟨.bool, .bool b, by rw [h5.1]; rfl, by simp only [parseSimple, hp]; rfl⟩
  · simp only [defaultB, hs] at h5
    split at h5
    · next h => exact absurd h h0
    · next c n hn =>
      rw [Bool.and_eq_true, List.any_eq_true] at h5
      obtain ⟨hc, e, he, h5⟩ := h5
      cases e <;> simp only [Bool.and_eq_true, reduceCtorEq] at h5
      obtain ⟨g1, g2, g3⟩ := h5
      cases code_inj (Nat.eq_of_beq_eq_true g1)
      obtain ⟨v, hv, g3⟩ := List.any_eq_true.1 g3
      refine ⟨_, _, _, ?_, declared_event he rfl, v, hv, code_inj (Nat.eq_of_beq_eq_true g3)⟩
      rw [hn, dot_of hc]
      exact .full _ ⟨_, (hb i _).1 (seesB_nearly g2), .inr ⟨rfl, _, declared_event he rfl⟩⟩
  · intro j hj
    rw [hj] at h6
    simpa using h6

theorem has_event {i : Nat} {f : FileP} (hf : all[i]? = some f) {path : Path} {s : Name} {x : Item}
    (hx : Has f path s x) : ∃ e ∈ visit {} all, e.item = some (i, path, qualified s x.name, x) := by
  obtain ⟨e, he, h⟩ := has_visited (o := {}) hf hx
  have h0 : ({} : Offs).file = 0 := rfl
  rw [h0, Nat.zero_add] at h
  exact ⟨e, he, h⟩

/-- Files that pass the check are valid. -/
theorem checkB_valid (h : checkB all = true) (hb : Between all vis) :
    Valid env [] all vis ∧ [] ∉ all.flatMap fileDecls := by
  simp only [checkB, Bool.and_eq_true, List.all_eq_true] at h
  obtain ⟨⟨⟨⟨⟨⟨h1, h2⟩, h3⟩, h4⟩, h5⟩, h6⟩, h7⟩ := h
  rw [freshB_iff] at h5
  refine ⟨?_, fun hm => h5 (List.mem_map.2 ⟨[], hm, rfl⟩)⟩
  have hfile : ∀ f ∈ all, fileB all f = true := h1
  refine ⟨?_, nodup_of_codes h3, ?_, ?_, ?_, ?_, ?_, ?_, ?_, ?_, ?_, ?_⟩
  · intro f hf
    have := hfile f hf
    simp only [fileB, Bool.and_eq_true] at this
    have := this.1.1.1
    split at this
    · next h => exact .inl h
    · next s h =>
      rw [Bool.or_eq_true] at this
      rcases this with h' | h'
      · exact .inr (.inl (by rw [h, code_inj (Nat.eq_of_beq_eq_true h')]))
      · exact .inr (.inr (by rw [h, code_inj (Nat.eq_of_beq_eq_true h')]))
  · rw [List.nil_append]
    have := nodup_of_codes (g := id) (l := all.flatMap fileDecls) h4
    simpa using this
  · rw [List.nil_append]
    intro n hn f hf
    have hno : n ∉ packageNames f.package := by
      intro hm
      have := h6 f hf n hm
      rw [freshB_iff] at this
      exact this (List.mem_map.2 ⟨n, hn, rfl⟩)
    constructor
    · rintro h0 rfl
      exact hno (mem_packageNames.2 ⟨h0, .inl rfl⟩)
    · intro r hr
      exact hno (mem_packageNames.2 ⟨by rw [hr]; simp, .inr ⟨r, hr⟩⟩)
  · intro f hf _ path s m hm
    obtain ⟨i, hi⟩ := List.getElem?_of_mem hf
    obtain ⟨e, he, hx⟩ := has_event hi hm
    have := h7 e he
    cases e <;> simp only [Event.item, Option.some.injEq, Prod.mk.injEq, reduceCtorEq, and_false,
      Item.message.injEq] at hx
    obtain ⟨rfl, rfl, rfl, rfl⟩ := hx
    simp only [eventB, Bool.and_eq_true] at this
    exact nodup_of_codes this.2
  · intro f hf path s en hm
    obtain ⟨i, hi⟩ := List.getElem?_of_mem hf
    obtain ⟨e, he, hx⟩ := has_event hi hm
    have h7' := h7 e he
    cases e <;> simp only [Event.item, Option.some.injEq, Prod.mk.injEq, reduceCtorEq, and_false,
      Item.enum.injEq] at hx
    obtain ⟨rfl, rfl, rfl, rfl⟩ := hx
    simp only [eventB, Bool.and_eq_true, Bool.not_eq_true', List.isEmpty_eq_false_iff_exists_mem] at h7'
    next fi par k en =>
    cases hv : en.values with
    | nil => rw [hv] at h7'; obtain ⟨_, hx⟩ := h7'.2; cases hx
    | cons v r =>
      refine ⟨v, r, rfl, fun h3 => ?_⟩
      have hF := h2 f hf
      simp only [firstB, h3, Bool.or_eq_true, List.all_eq_true] at hF
      rcases hF with hF | hF
      · exact absurd (code_inj (Nat.eq_of_beq_eq_true hF)) (by decide)
      · obtain ⟨e', he', hx'⟩ := has_event (all := [f]) (i := 0) rfl hm
        have := hF e' he'
        cases e' <;> simp only [Event.item, Option.some.injEq, Prod.mk.injEq, reduceCtorEq, and_false,
          Item.enum.injEq] at hx'
        obtain ⟨_, _, _, rfl⟩ := hx'
        simp only [hv] at this
        simpa using this
  · intro f hf n hn
    have := hfile f hf
    simp only [fileB, Bool.and_eq_true, List.all_eq_true, List.any_eq_true] at this
    obtain ⟨g, hg, hc⟩ := this.1.1.2 n hn
    exact ⟨g, by simpa using hg, code_inj (Nat.eq_of_beq_eq_true hc)⟩
  · intro f hf j hj
    have := hfile f hf
    simp only [fileB, Bool.and_eq_true, List.isEmpty_iff] at this
    rw [this.1.2, this.2] at hj
    rcases hj with hj | hj <;> cases hj
  · intro i f hf path s m hm
    obtain ⟨e, he, hx⟩ := has_event hf hm
    have := h7 e he
    cases e <;> simp only [Event.item, Option.some.injEq, Prod.mk.injEq, reduceCtorEq, and_false,
      Item.message.injEq] at hx
    obtain ⟨rfl, rfl, rfl, rfl⟩ := hx
    simp only [eventB, Bool.and_eq_true, List.all_eq_true, decide_eq_true_eq] at this
    obtain ⟨⟨⟨g1, g2⟩, g3⟩, _⟩ := this
    simp only [List.length_nil, Nat.zero_add, List.nil_append]
    exact ⟨fun x hx => fieldB_valid hb (g1 x hx), g2, nodup_of_codes g3⟩
  · intro f hf path s en hm
    obtain ⟨i, hi⟩ := List.getElem?_of_mem hf
    obtain ⟨e, he, hx⟩ := has_event hi hm
    have := h7 e he
    cases e <;> simp only [Event.item, Option.some.injEq, Prod.mk.injEq, reduceCtorEq, and_false,
      Item.enum.injEq] at hx
    obtain ⟨rfl, rfl, rfl, rfl⟩ := hx
    simp only [eventB, Bool.and_eq_true, Bool.or_eq_true, List.all_eq_true, decide_eq_true_eq] at this
    refine ⟨fun v hv r hr => ?_, fun ha => ?_⟩
    · have := this.1.1 v hv r hr
      simp only [Bool.not_eq_true', decide_eq_false_iff_not] at this
      exact this
    · rcases this.1.2 with h | h
      · rw [ha] at h; cases h
      · exact h
  · intro i f hf path s x hm
    obtain ⟨e, he, hx⟩ := has_event hf hm
    have := h7 e he
    cases e <;> simp only [Event.item, Option.some.injEq, Prod.mk.injEq, reduceCtorEq, and_false] at hx
    cases this
  · intro i f hf path s x hm
    obtain ⟨e, he, hx⟩ := has_event hf hm
    have := h7 e he
    cases e <;> simp only [Event.item, Option.some.injEq, Prod.mk.injEq, reduceCtorEq, and_false] at hx
    cases this

end

end Verif.Pool
