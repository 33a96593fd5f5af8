import Verif.Pool.Exts
import Verif.Dyn.Typing
/-!
The descriptors of a pool as dynamic messages see them.  The dynamic module, the JSON and the
text format read descriptors only through the accessors of `descriptor/api.rs`; `Pool.view`
collects what these accessors return, and is an error where one of them would panic.
-/
set_option autoImplicit false
namespace Verif.Pool
open Verif.Wire Verif.Dyn

/-- The accessors of `FieldDescriptor` (api.rs:1004-1144). -/
def FieldD.view (d : FieldD) : FieldDesc where
  number := d.number
  name := d.id.name
  jsonName := d.jsonName
  kind := d.kind
  card := d.card
  group := d.group
  presence := d.presence
  packed := d.packed
  default := d.default
  oneof := d.oneof

/-- The accessors of `ExtensionDescriptor` (api.rs:1202-1342): presence is read off the
cardinality (api.rs:1298-1300), there is no oneof, and messages name an extension by its full
name. -/
def ExtD.view (d : ExtD) : FieldDesc where
  number := d.number
  name := d.id.fullName
  jsonName := d.jsonName
  kind := d.kind
  card := d.card
  group := d.group
  presence := d.card != .repeated
  packed := d.packed
  default := d.default
  oneof := none

/-- `MessageDescriptor::extensions` (api.rs:841-849). -/
def Pool.extensionsOf (p : Pool) (md : MsgD) : Res (List ExtD) := mapR (getR p.extensions) md.extensions

/-- The accessors of `MessageDescriptor` (api.rs:700-972). -/
def Pool.msgView (p : Pool) (k : Nat) : Res MsgDesc :=
  match getR p.messages k, p.isMapEntry k with
  | .ok md, .ok e =>
    match p.extensionsOf md with
    | .ok xs => .ok { name := md.id.fullName, fields := md.fields.map FieldD.view, mapEntry := e,
                      extensions := xs.map ExtD.view }
    | .error e => .error e
  | .error e, _ => .error e
  | _, .error e => .error e

/-- The accessors of `EnumDescriptor` (api.rs:1405-1501); numbers are `i32`. -/
def EnumD.view (e : EnumD) : EnumDesc where
  name := e.id.fullName
  values := e.values.map fun v => (v.id.name, BitVec.ofInt 32 v.number)

/-- What dynamic messages see of the pool. -/
def Pool.view (p : Pool) : Res Schema :=
  match mapR p.msgView (List.range p.messages.length) with
  | .ok ms => .ok { msgs := ms, enums := p.enums.map EnumD.view }
  | .error e => .error e

theorem mapR_ok {α β : Type} {f : α → Res β} : ∀ {l : List α} {r : List β}, mapR f l = .ok r ↔
    (r.length = l.length ∧ ∀ (i : Nat) a, l[i]? = some a → ∃ b, r[i]? = some b ∧ f a = .ok b)
  | [], r => by
    simp only [mapR, Except.ok.injEq, List.length_nil, List.length_eq_zero_iff, List.getElem?_nil,
      reduceCtorEq, false_imp_iff, implies_true, and_true]
    exact eq_comm
  | a :: l, r => by
    simp only [mapR]
    constructor
    · intro h
      cases ha : f a with
      | error e => rw [ha] at h; cases h
      | ok b =>
        rw [ha] at h
        cases hl : mapR f l with
        | error e => rw [hl] at h; cases h
        | ok bs =>
          rw [hl] at h
          simp only [Except.ok.injEq] at h
          subst h
          obtain ⟨h1, h2⟩ := mapR_ok.1 hl
          refine ⟨by simp [h1], fun i x hx => ?_⟩
          cases i with
          | zero => simp only [List.getElem?_cons_zero, Option.some.injEq] at hx; subst hx; exact ⟨b, rfl, ha⟩
          | succ i => exact h2 i x (by simpa using hx)
    · rintro ⟨h1, h2⟩
      obtain ⟨b, hb, hf⟩ := h2 0 a rfl
      cases r with
      | nil => simp at hb
      | cons b' r =>
        simp only [List.getElem?_cons_zero, Option.some.injEq] at hb
        subst hb
        have : mapR f l = .ok r := mapR_ok.2 ⟨by simpa using h1, fun i x hx => by
          simpa using h2 (i + 1) x (by simpa using hx)⟩
        rw [hf, this]

theorem mapR_total {α β : Type} {f : α → Res β} : ∀ {l : List α}, (∀ a ∈ l, ∃ b, f a = .ok b) →
    ∃ r, mapR f l = .ok r
  | [], _ => ⟨[], rfl⟩
  | a :: l, h => by
    obtain ⟨b, hb⟩ := h a (by simp)
    obtain ⟨r, hr⟩ := mapR_total (f := f) (l := l) fun x hx => h x (by simp [hx])
    exact ⟨b :: r, by simp only [mapR, hb, hr]⟩

/-- The view of a message, spelled out. -/
structure Views (p : Pool) (k : Nat) (md : MsgD) (m : MsgDesc) : Prop where
  name : m.name = md.id.fullName
  fields : m.fields = md.fields.map FieldD.view
  entry : p.isMapEntry k = .ok m.mapEntry
  exts : ∃ xs : List ExtD, m.extensions = xs.map ExtD.view ∧ xs.length = md.extensions.length ∧
    ∀ (i e : Nat), md.extensions[i]? = some e → ∃ x, xs[i]? = some x ∧ p.extensions[e]? = some x

theorem msgView_ok {p : Pool} {k : Nat} {m : MsgDesc} (h : p.msgView k = .ok m) :
    ∃ md, p.messages[k]? = some md ∧ Views p k md m := by
  unfold Pool.msgView at h
  split at h
  · next md e h1 h2 =>
    split at h
    · next xs h3 =>
      simp only [Except.ok.injEq] at h
      subst h
      obtain ⟨h4, h5⟩ := mapR_ok.1 h3
      exact ⟨md, getR_ok.1 h1, rfl, rfl, h2, xs, rfl, h4, fun i e he => by
        obtain ⟨x, h6, h7⟩ := h5 i e he
        exact ⟨x, h6, getR_ok.1 h7⟩⟩
    · cases h
  · cases h
  · cases h

theorem view_ok {p : Pool} {S : Schema} (h : p.view = .ok S) : S.msgs.length = p.messages.length ∧
    S.enums = p.enums.map EnumD.view ∧
    ∀ (k : Nat) md, p.messages[k]? = some md → ∃ m, S.msg? k = some m ∧ Views p k md m := by
  unfold Pool.view at h
  split at h
  · next ms h1 =>
    simp only [Except.ok.injEq] at h
    subst h
    obtain ⟨h2, h3⟩ := mapR_ok.1 h1
    rw [List.length_range] at h2
    refine ⟨h2, rfl, fun k md hk => ?_⟩
    obtain ⟨m, h4, h5⟩ := h3 k k (by rw [List.getElem?_range (getElem?_lt hk)])
    obtain ⟨md', h6, h7⟩ := msgView_ok h5
    rw [hk] at h6; cases h6
    exact ⟨m, h4, h7⟩
  · cases h

theorem view_msg {p : Pool} {S : Schema} (h : p.view = .ok S) {k : Nat} {m : MsgDesc}
    (hm : S.msg? k = some m) : ∃ md, p.messages[k]? = some md ∧ Views p k md m := by
  obtain ⟨h1, _, h2⟩ := view_ok h
  have hlt : k < p.messages.length := h1 ▸ getElem?_lt hm
  obtain ⟨m', h3, h4⟩ := h2 k _ (List.getElem?_eq_getElem hlt)
  rw [hm] at h3; cases h3
  exact ⟨_, List.getElem?_eq_getElem hlt, h4⟩

end Verif.Pool
