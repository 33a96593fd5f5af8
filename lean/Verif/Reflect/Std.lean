import Verif.Pool.Entries
import Verif.Props.PoolScope
import Verif.Props.PoolFields
import Verif.Props.PoolView
import Verif.Json.Leaf
/-!
The well-known types of a pool whose declarations are the usual ones.
-/
set_option autoImplicit false
namespace Verif.Reflect
open Verif.Wire Verif.Dyn Verif.Pool Verif.Props Verif.Json

/-! ### The types that complete names refer to -/

/-- A field whose type name begins with a dot has the type of that name. -/
def FullNamed (p : Pool) : Event → Prop
  | .field _ _ _ k i f => ∃ md d, p.messages[k]? = some md ∧ md.fields[i]? = some d ∧
      ∀ n, f.typeName = '.' :: n → KindNamed p n d.kind
  | _ => True

theorem named_keeps {p q : Pool} (hk : Keeps p q) {n : Name} {k : Kind} (h : KindNamed p n k) :
    KindNamed q n k := by
  cases k with
  | message t =>
    obtain ⟨d, h1, h2⟩ := h
    obtain ⟨d', g1, g2⟩ := hk.messages _ _ h1
    have : d'.forget.id = d.forget.id := congrArg MsgD.id g2
    exact ⟨d', g1, (congrArg Ident.fullName this).trans h2⟩
  | enum t =>
    obtain ⟨d, h1, h2⟩ := h
    exact ⟨d, hk.enums _ _ h1, h2⟩
  | _ => exact h

theorem FullNamed.keeps {p q : Pool} (hk : Keeps p q) {e : Event} (h : FullNamed p e) : FullNamed q e := by
  cases e with
  | field path full fi k i f =>
    obtain ⟨md, d, h1, h2, h3⟩ := h
    obtain ⟨md', g1, g2⟩ := hk.messages _ _ h1
    have : md'.forget.fields = md.forget.fields := congrArg MsgD.fields g2
    replace this : md'.fields = md.fields := this
    exact ⟨md', d, g1, by rw [this]; exact h2, fun n hn => named_keeps hk (h3 n hn)⟩
  | _ => trivial

section
variable {env : Env} (hsr : SearchOk env.search) {acc : List FileP} {p : Pool}
include hsr

theorem full_named (h : Hist env acc p) : ∀ e ∈ visit {} acc, FullNamed p e := by
  induction h with
  | empty => intro e he; cases he
  | reject acc p fs q e es hp hb ih =>
    obtain ⟨r, _, _, hl⟩ := buildFiles_reject (hp.desc hsr).ok hb
    exact fun e he => (ih e he).keeps hl.keeps
  | accept acc p fs q hp hb ih =>
    have hD := hp.desc hsr
    have hD' := (Hist.accept acc p fs q hp hb).desc hsr
    intro e he
    rcases buildFiles_accept hsr hD.ok hb with ⟨h1, rfl⟩ | ha
    · rw [h1, List.append_nil] at he; exact ih e he
    · rw [visit_append, List.mem_append] at he
      rcases he with he | he
      · exact (ih e he).keeps ha.frame.keeps
      · rw [← hD.offs] at he
        have hres := ha.resolved _ he
        cases e with
        | field path full fi k i f =>
          obtain ⟨fd, md, d, g1, _, g2, g3, _, g4⟩ := hres
          refine ⟨md, d, g2, g3, fun n hn => ?_⟩
          have hk := g4.kind
          generalize hkd : d.kind = kd at hk
          generalize hgd : d.group = gd at hk
          cases hk with
          | scalar k h0 _ => rw [h0] at hn; cases hn
          | message n' d' t _ hr hk' =>
            obtain rfl : n' = n := by rw [hn] at hr; exact (RR.new_found hr).1
            have := (resolveName_found hr).1
            exact (hD'.message_name n' t).1 ⟨d'.file, d'.path, by rw [this, ← hk']⟩
          | enum n' d' t _ hr hk' =>
            obtain rfl : n' = n := by rw [hn] at hr; exact (RR.new_found hr).1
            have := (resolveName_found hr).1
            exact (hD'.enum_name n' t).1 ⟨d'.file, d'.path, by rw [this, ← hk']⟩
        | _ => trivial

end

/-! ### Declarations like the usual ones -/

/-- The declared type is the type in the table: for messages and the enum, by its complete name. -/
def TypeIs (x : FieldP) : Kind → Prop
  | .message i => ∃ td, stdSchema.msg? i = some td ∧ x.typeName = '.' :: td.name ∧ x.ty ≠ .group
  | .enum _ => x.typeName = '.' :: nullName
  | k => x.typeName = [] ∧ scalarKind x.ty = some k

/-- The field is declared as the table says. -/
structure FieldLike (syn : Syn) (x : FieldP) (g : FieldDesc) : Prop where
  number : x.number = (g.number : Int)
  card : x.label = g.card
  type : TypeIs x g.kind
  presence : supportsPresence syn x (some (g.kind, false)) = g.presence
  packed : isPacked syn x (some (g.kind, false)) = g.packed
  default : x.default = none
  oneof : x.oneofIndex = g.oneof.map Int.ofNat

/-- The message is declared as the table says. -/
structure MsgLike (syn : Syn) (x : MsgP) (td : MsgDesc) : Prop where
  length : x.fields.length = td.fields.length
  fields : ∀ (i : Nat) f g, x.fields[i]? = some f → td.fields[i]? = some g → FieldLike syn f g
  entry : (x.options == some (some true)) = td.mapEntry
  ranges : x.extRanges = []

/-- The messages and enums among the declarations that have the name of one of the types in the
table are declared as the table says. -/
structure Standard (acc : List FileP) : Prop where
  message : ∀ (j : Nat) g path s m syn i td, acc[j]? = some g → Has g path s (.message m) →
    parseSyn g.syn = some syn → stdSchema.msg? i = some td → qualified s m.name = td.name →
    MsgLike syn m td
  noEnum : ∀ (j : Nat) g path s e i td, acc[j]? = some g → Has g path s (.enum e) →
    stdSchema.msg? i = some td → qualified s e.name ≠ td.name
  null : ∀ (j : Nat) g path s m, acc[j]? = some g → Has g path s (.message m) →
    qualified s m.name ≠ nullName

/-- The table: no extensions, no groups, no defaults; a field without presence that is not repeated
is of a plain kind. -/
def plainTable : Bool := stdSchema.msgs.all fun td => td.extensions.isEmpty && td.fields.all fun g =>
  !g.group && g.default.isNone && (g.presence || decide (g.card = .repeated) || g.kind.plain)

theorem plainTable_true : plainTable = true := by decide +kernel

theorem std_names : (stdSchema.msgs.map (·.name)).Nodup := by decide +kernel

theorem std_plain {i : Nat} {td : MsgDesc} (h : stdSchema.msg? i = some td) : td.extensions = [] ∧
    ∀ g ∈ td.fields, g.group = false ∧ g.default = none ∧
      (g.presence = false → g.card ≠ .repeated → g.kind.plain = true) := by
  have := plainTable_true
  unfold plainTable at this
  rw [List.all_eq_true] at this
  have := this td (List.mem_of_getElem? h)
  simp only [Bool.and_eq_true, List.isEmpty_iff, List.all_eq_true, Bool.not_eq_true', Option.isNone_iff_eq_none,
    Bool.or_eq_true, decide_eq_true_eq] at this
  refine ⟨this.1, fun g hg => ?_⟩
  obtain ⟨⟨h1, h2⟩, h3⟩ := this.2 g hg
  refine ⟨h1, h2, fun h4 h5 => ?_⟩
  rcases h3 with (h3 | h3) | h3
  · rw [h4] at h3; cases h3
  · exact absurd h3 h5
  · exact h3

theorem nodup_map_get {α β : Type} {l : List α} {f : α → β} (h : (l.map f).Nodup) {i j : Nat} {a b : α}
    (hi : l[i]? = some a) (hj : l[j]? = some b) (he : f a = f b) : i = j := by
  have h1 : (l.map f)[i]? = some (f a) := by rw [List.getElem?_map, hi]; rfl
  have h2 : (l.map f)[j]? = some (f a) := by rw [List.getElem?_map, hj, he]; rfl
  have hlt : i < (l.map f).length := (List.getElem?_eq_some_iff.1 h1).1
  exact (List.getElem?_inj hlt h).1 (h1.trans h2.symm)

/-! ### The same fields -/

/-- Two fields that agree, message types related by `R`. -/
structure Sim (R : Nat → Nat → Prop) (f g : FieldDesc) : Prop where
  number : f.number = g.number
  card : f.card = g.card
  presence : f.presence = g.presence
  packed : f.packed = g.packed
  group : f.group = g.group
  fdef : f.default = none
  gdef : g.default = none
  oneof : f.oneof = g.oneof
  kind : (∃ i j, f.kind = .message i ∧ g.kind = .message j ∧ R i j) ∨
    (∃ i j, f.kind = .enum i ∧ g.kind = .enum j) ∨ (f.kind = g.kind ∧ f.kind.plain = true)
  lone : g.presence = false → g.card ≠ .repeated → g.kind.plain = true

theorem Sim.plain {R : Nat → Nat → Prop} {f g : FieldDesc} (h : Sim R f g) : f.kind.plain = g.kind.plain := by
  rcases h.kind with ⟨i, j, h1, h2, _⟩ | ⟨i, j, h1, h2⟩ | ⟨h1, _⟩
  · rw [h1, h2]; rfl
  · rw [h1, h2]; rfl
  · rw [h1]

theorem kindSim_plain {ρ : Nat → Nat} {I : Nat → Prop} {k : Kind} (h : k.plain = true) : KindSim ρ I k k := by
  cases k <;> first | rfl | cases h

theorem Sim.left {R : Nat → Nat → Prop} {f g : FieldDesc} (h : Sim R f g) {ρ : Nat → Nat} {I : Nat → Prop}
    (hR : ∀ i j, R i j → I i ∧ j = ρ i) : FSim ρ I f g where
  number := h.number.symm
  card := h.card.symm
  presence := h.presence.symm
  packed := h.packed.symm
  group := h.group.symm
  fdef := h.fdef
  gdef := h.gdef
  kind := by
    rcases h.kind with ⟨i, j, h1, h2, h3⟩ | ⟨i, j, h1, h2⟩ | ⟨h1, h2⟩
    · rw [h1, h2]
      obtain ⟨g1, rfl⟩ := hR i j h3
      exact ⟨g1, rfl⟩
    · rw [h1, h2]; exact ⟨j, rfl⟩
    · rw [← h1]; exact kindSim_plain h2
  lone := fun h1 h2 => by rw [h.plain]; exact h.lone (h.presence ▸ h1) (h.card ▸ h2)

theorem Sim.right {R : Nat → Nat → Prop} {f g : FieldDesc} (h : Sim R f g) {σ : Nat → Nat} {J : Nat → Prop}
    (hR : ∀ i j, R i j → J j ∧ i = σ j) : FSim σ J g f where
  number := h.number
  card := h.card
  presence := h.presence
  packed := h.packed
  group := h.group
  fdef := h.gdef
  gdef := h.fdef
  kind := by
    rcases h.kind with ⟨i, j, h1, h2, h3⟩ | ⟨i, j, h1, h2⟩ | ⟨h1, h2⟩
    · rw [h1, h2]
      obtain ⟨g1, rfl⟩ := hR i j h3
      exact ⟨g1, rfl⟩
    · rw [h1, h2]; exact ⟨i, rfl⟩
    · rw [← h1]; exact kindSim_plain h2
  lone := h.lone

/-- The fields of two messages agree one by one. -/
def Sims (R : Nat → Nat → Prop) (fs gs : List FieldDesc) : Prop :=
  fs.length = gs.length ∧ ∀ (i : Nat) f g, fs[i]? = some f → gs[i]? = some g → Sim R f g

theorem Sims.cons {R : Nat → Nat → Prop} {f g : FieldDesc} {fs gs : List FieldDesc}
    (h : Sims R (f :: fs) (g :: gs)) : Sim R f g ∧ Sims R fs gs :=
  ⟨h.2 0 f g rfl rfl, by have := h.1; simpa using this, fun i a b ha hb => h.2 (i + 1) a b ha hb⟩

theorem Sims.find {R : Nat → Nat → Prop} : ∀ {fs gs : List FieldDesc}, Sims R fs gs → ∀ n,
    (fs.find? (fun f => f.number == n) = none ∧ gs.find? (fun f => f.number == n) = none) ∨
    ∃ f g, fs.find? (fun f => f.number == n) = some f ∧ gs.find? (fun f => f.number == n) = some g ∧ Sim R f g
  | [], [], _, _ => .inl ⟨rfl, rfl⟩
  | [], _ :: _, h, _ => by cases h.1
  | _ :: _, [], h, _ => by cases h.1
  | f :: fs, g :: gs, h, n => by
    obtain ⟨h1, h2⟩ := h.cons
    rw [List.find?_cons, List.find?_cons, h1.number]
    split
    · exact .inr ⟨f, g, rfl, rfl, h1⟩
    · exact h2.find n

theorem Sims.siblings {R : Nat → Nat → Prop} (o n : Nat) : ∀ {fs gs : List FieldDesc}, Sims R fs gs →
    (fs.filter (fun g => g.oneof == some o && g.number != n)).map (·.number) =
    (gs.filter (fun g => g.oneof == some o && g.number != n)).map (·.number)
  | [], [], _ => rfl
  | [], _ :: _, h => by cases h.1
  | _ :: _, [], h => by cases h.1
  | f :: fs, g :: gs, h => by
    obtain ⟨h1, h2⟩ := h.cons
    have ih := Sims.siblings o n h2
    rw [List.filter_cons, List.filter_cons, h1.number, h1.oneof]
    split
    · rw [List.map_cons, List.map_cons, ih, h1.number]
    · exact ih

theorem siblings_eq {R : Nat → Nat → Prop} {md td : MsgDesc} (h : Sims R md.fields td.fields) {f g : FieldDesc}
    (hs : Sim R f g) : siblings td g = siblings md f := by
  unfold siblings
  rw [hs.oneof]
  split
  · rfl
  · next o _ => rw [hs.number]; exact (h.siblings o _).symm

end Verif.Reflect
