import Verif.Pool.Rebuild1
import Verif.Pool.Twin2
import Verif.Props.PoolStored
/-!
The descriptors a pool hands out describe that pool.
-/
set_option autoImplicit false
namespace Verif.Pool
open Verif.Wire Verif.Dyn Verif.Props

/-- `DescriptorPool::file_descriptor_protos` (api.rs:225-231). -/
def Pool.protos (p : Pool) : List FileP := p.files.map FileD.prost

/-! ### The declarations are the given ones, filled in -/

section
variable {env : Env} {acc : List FileP} {p : Pool}

theorem Desc.protos (D : Desc env acc p) : p.protos.map stripFile = acc.map stripFile := by
  apply List.ext_getElem?
  intro i
  simp only [Pool.protos, List.getElem?_map]
  cases hi : p.files[i]? with
  | none =>
    rw [List.getElem?_eq_none_iff, D.files_len, ← List.getElem?_eq_none_iff] at hi
    rw [hi]; rfl
  | some fd =>
    obtain ⟨f, h1, _, h2, h3, _⟩ := D.file_inv hi
    rw [h1]
    simp only [Option.map_some, h3, h2]

theorem Desc.proto_at (D : Desc env acc p) {i : Nat} {f : FileP} (hf : p.protos[i]? = some f) :
    ∃ fd, p.files[i]? = some fd ∧ fd.raw = f ∧ fd.prost = f := by
  rw [Pool.protos, List.getElem?_map, Option.map_eq_some_iff] at hf
  obtain ⟨fd, h1, rfl⟩ := hf
  obtain ⟨_, _, _, _, h3, _⟩ := D.file_inv h1
  exact ⟨fd, h1, h3.symm, rfl⟩

end

/-- The field or extension `y` is `x` with its type and JSON name filled in. -/
def FilledIn (p : Pool) (k : Kind) (x y : FieldP) : Prop :=
  (x.typeName = [] ∧ y = { x with jsonName := some (jsonOf x), extendee := y.extendee }) ∨
  (x.typeName ≠ [] ∧ ∃ n, KindNamed p n k ∧
    y = { x with typeName := '.' :: n, ty := resolvedTy x.ty k, jsonName := some (jsonOf x),
                 extendee := y.extendee })

/-- What stands in the descriptors for a declaration. -/
def FilledEvent (acc : List FileP) (p : Pool) : Event → Prop
  | .field path full fi k i y => ∃ x md d, .field path full fi k i x ∈ visit {} acc ∧
      p.messages[k]? = some md ∧ md.fields[i]? = some d ∧ FilledIn p d.kind x y ∧ y.extendee = x.extendee
  | .extension path full fi parent i y => ∃ x d n, .extension path full fi parent i x ∈ visit {} acc ∧
      p.extensions[i]? = some d ∧ FilledIn p d.kind x y ∧ MessageNamed p n d.extendee ∧
      y.extendee = some ('.' :: n)
  | .method path full fi k i y => ∃ x sd d n n', .method path full fi k i x ∈ visit {} acc ∧
      p.services[k]? = some sd ∧ sd.methods[i]? = some d ∧ MessageNamed p n d.input ∧
      MessageNamed p n' d.output ∧ y = { x with input := '.' :: n, output := '.' :: n' }
  | e => ∃ e' ∈ visit {} acc, e'.strip = e.strip

theorem FilledIn.of {env : Env} {acc : List FileP} {p : Pool} (D : Desc env acc p) {e : Event} {k : Kind}
    {x z : FieldP} {o : Option (Option Bool)} {ext : Option Name} (hf : FieldFilled p.names x k z)
    (ho : OptOf env e x.options o) (he : ∀ o', x.options = some o' → ∀ r, env.fieldOpt r e = o') :
    FilledIn p k x { z with options := o, extendee := ext } := by
  have hsame : o = x.options := by
    rcases ho with rfl | ⟨r, rfl⟩
    · rfl
    · cases h : x.options with
      | none => rfl
      | some o' => rw [Option.map_some, he o' h]
  subst hsame
  obtain ⟨w, hw, rfl⟩ := hf
  rcases hw with ⟨h0, rfl⟩ | ⟨h0, n, hn, rfl⟩
  · exact .inl ⟨h0, rfl⟩
  · exact .inr ⟨h0, n, kindNamed_of D hn, rfl⟩

section
variable {env : Env} (hsr : SearchOk env.search) {acc : List FileP} {p : Pool}
include hsr

/-- Every declaration in the descriptors is a given one with its types filled in. -/
theorem Hist.filled (h : Hist env acc p) (hkp : KeepsPacked env) {e : Event} (he : e ∈ visit {} p.protos) :
    FilledEvent acc p e := by
  have D := h.desc hsr
  have hst := D.protos
  obtain ⟨e', he', hs⟩ := visit_alike hst he
  have slot : ∀ {fi path full x}, e.item = some (fi, path, full, x) → ∃ fd s, p.files[fi]? = some fd ∧
      Has fd.raw path s x := by
    intro fi path full x hx
    obtain ⟨j, f, s, h1, h2, _, h4⟩ := visited_has he hx
    have hj : fi = j := by rw [h1]; exact Nat.zero_add j
    subst hj
    obtain ⟨fd, g1, g2, _⟩ := D.proto_at h2
    exact ⟨fd, s, g1, g2 ▸ h4⟩
  cases e with
  | field path full fi k i y =>
    cases e' <;> simp only [Event.strip, Event.field.injEq, reduceCtorEq] at hs
    obtain ⟨rfl, rfl, rfl, rfl, rfl, hs⟩ := hs
    next path full fi k i x =>
    obtain ⟨fd, s, h1, h2⟩ := slot rfl
    obtain ⟨md, d, z, o, g1, g2, g3, g4, g5⟩ := h.stored hsr _ he'
    simp only [Pool.fieldIn, h1, h2.fieldAt, Option.some.injEq] at g5
    have hz : z.extendee = x.extendee := by
      obtain ⟨w, hw, rfl⟩ := g3
      rcases hw with ⟨_, rfl⟩ | ⟨_, n, _, rfl⟩ <;> rfl
    refine ⟨x, md, d, he', g1, g2, ?_, by rw [g5]; exact hz⟩
    rw [g5]
    exact FilledIn.of D (ext := z.extendee) g3 g4 fun o' ho' r => hkp r _ _ ho'
  | extension path full fi parent i y =>
    cases e' <;> simp only [Event.strip, Event.extension.injEq, reduceCtorEq] at hs
    obtain ⟨rfl, rfl, rfl, rfl, rfl, hs⟩ := hs
    next path full fi parent i x =>
    obtain ⟨fd, s, h1, h2⟩ := slot rfl
    obtain ⟨d, z, o, n, g1, g2, g3, g4, g5⟩ := h.stored hsr _ he'
    simp only [Pool.fieldIn, h1, h2.extensionAt, Option.some.injEq] at g5
    refine ⟨x, d, n, he', g1, ?_, kindNamed_of D g4, by rw [g5]⟩
    rw [g5]
    exact FilledIn.of D g2 g3 fun o' ho' r => hkp r _ _ ho'
  | method path full fi k i y =>
    cases e' <;> simp only [Event.strip, Event.method.injEq, reduceCtorEq] at hs
    obtain ⟨rfl, rfl, rfl, rfl, rfl, hs⟩ := hs
    next path full fi k i x =>
    obtain ⟨fd, s, h1, h2⟩ := slot rfl
    obtain ⟨sd, d, n, n', g1, g2, g3, g4, g5⟩ := h.stored hsr _ he'
    simp only [Pool.methodIn, h1, h2.methodAt, Option.some.injEq] at g5
    exact ⟨x, sd, d, n, n', he', g1, g2, kindNamed_of D g3, kindNamed_of D g4, g5⟩
  | _ => exact ⟨e', he', hs⟩

end

/-! ### The pool as described by its descriptors -/

section
variable {env : Env} {p : Pool} {k : Kind} {g : Bool} {x y : FieldP}

theorem FilledIn.rest (h : FilledIn p k x y) : y.name = x.name ∧ y.number = x.number ∧ y.label = x.label ∧
    y.default = x.default ∧ y.oneofIndex = x.oneofIndex ∧ y.proto3Optional = x.proto3Optional ∧
    y.options = x.options ∧ jsonOf y = jsonOf x := by
  rcases h with ⟨_, h⟩ | ⟨_, n, _, h⟩ <;> (rw [h]; refine ⟨rfl, rfl, rfl, rfl, rfl, rfl, rfl, rfl⟩)

theorem FilledIn.kind (h : FilledIn p k x y) (hk : KindOk p x k g) : KindOk p y k g := by
  rcases h with ⟨h0, h⟩ | ⟨h0, n, _, h⟩
  · cases hk with
    | scalar _ h1 h2 => exact .scalar _ (by rw [h]; exact h0) (by rw [h]; exact h2)
    | message i h1 => exact absurd h0 h1
    | enum i h1 => exact absurd h0 h1
  · have hn : y.typeName ≠ [] := by rw [h]; simp
    cases hk with
    | scalar _ h1 => exact absurd h1 h0
    | message i _ h2 =>
      have : decide (x.ty = .group) = decide (y.ty = .group) := by
        have e : y.ty = resolvedTy x.ty (.message i) := by rw [h]
        rw [e]
        simp only [resolvedTy]
        split <;> rename_i hg <;> simp [hg]
      rw [this]
      exact .message i hn h2
    | enum i _ h2 => exact .enum i hn h2

theorem FilledIn.packed (h : FilledIn p k x y) (syn : Syn) (kd : Option (Kind × Bool)) :
    isPacked syn y kd = isPacked syn x kd := by
  obtain ⟨_, _, h3, _, _, _, h7, _⟩ := h.rest
  simp only [isPacked, h3, h7]

theorem FilledIn.presence (h : FilledIn p k x y) (syn : Syn) (kd : Option (Kind × Bool)) :
    supportsPresence syn y kd = supportsPresence syn x kd := by
  obtain ⟨_, _, h3, _, h5, h6, _, _⟩ := h.rest
  simp only [supportsPresence, h3, h5, h6]

theorem FilledIn.number (h : FilledIn p k x y) (he : y.extendee.isSome = x.extendee.isSome) {t : Nat}
    (hn : NumberOkIn p t x) : NumberOkIn p t y := by
  obtain ⟨m, fd, mp, h1, h2, h3, h4⟩ := hn
  have e := h.rest.2.1
  exact ⟨m, fd, mp, h1, h2, h3, by rw [e]; exact h4.valid, by rw [e]; exact h4.reserved,
    by rw [e, he]; exact h4.ext⟩

theorem FilledIn.fieldIs (h : FilledIn p k x y) {syn : Syn} {file : Nat} {path : Path} {full : Name} {n : Nat}
    {d : FieldD} (hk : d.kind = k) (hd : FieldIs env p syn file path full x n d) :
    FieldIs env p syn file path full y n d := by
  subst hk
  obtain ⟨h1, h2, h3, h4, h5, h6, h7, h8⟩ := h.rest
  exact
    { id := by rw [h1]; exact hd.id
      number := by rw [h2]; exact hd.number
      valid := by rw [h2]; exact hd.valid
      json := by rw [h8]; exact hd.json
      kind := h.kind hd.kind
      oneof := by rw [h5]; exact hd.oneof
      oneofLt := hd.oneofLt
      packed := by rw [h.packed]; exact hd.packed
      presence := by rw [h.presence]; exact hd.presence
      card := by rw [h3]; exact hd.card
      default := by rw [h4]; exact hd.default }

theorem FilledIn.extIs (h : FilledIn p k x y) {syn : Syn} {file : Nat} {path : Path} {full : Name}
    {parent : Option Nat} {d : ExtD} (hk : d.kind = k) (hd : ExtIs env p syn file path full parent x d) :
    ExtIs env p syn file path full parent y d := by
  subst hk
  obtain ⟨h1, h2, h3, h4, h5, h6, h7, h8⟩ := h.rest
  exact
    { id := by rw [h1]; exact hd.id
      parent := hd.parent
      number := by rw [h2]; exact hd.number
      valid := by rw [h2]; exact hd.valid
      json := hd.json
      kind := h.kind hd.kind
      extendee := hd.extendee
      packed := by rw [h.packed]; exact hd.packed
      card := by rw [h3]; exact hd.card
      default := by rw [h4]; exact hd.default }

end

theorem stripFile_rest {a b : FileP} (h : stripFile a = stripFile b) : a.name = b.name ∧ a.package = b.package ∧
    a.syn = b.syn ∧ a.weakDeps = b.weakDeps := by
  have h1 := congrArg FileP.name h
  have h2 := congrArg FileP.package h
  have h3 := congrArg FileP.syn h
  have h4 := congrArg FileP.weakDeps h
  exact ⟨h1, h2, h3, h4⟩

theorem stripMsg_rest {a b : MsgP} (h : stripMsg a = stripMsg b) : a.name = b.name ∧
    a.fields.map stripField = b.fields.map stripField ∧ a.oneofs = b.oneofs := by
  rw [stripMsg_eq, stripMsg_eq] at h
  simp only [MsgP.mk.injEq] at h
  exact ⟨h.1, h.2.1, h.2.2.2.2.2.2.1⟩

theorem map_of_strip {α : Type} {g : FieldP → α} (hg : ∀ f, g (stripField f) = g f) {a b : List FieldP}
    (h : a.map stripField = b.map stripField) : a.map g = b.map g := by
  have := congrArg (List.map g) h
  simpa only [List.map_map, Function.comp_def, hg] using this

/-! ### An extension names what it extends -/

/-- No declaration of a well-named file is called by the empty name. -/
theorem no_empty_ref {acc : List FileP} (hw : WellNamed acc) {vis : Nat → Prop} {enums : Bool} {scope n : Name}
    (h : Refers acc vis enums scope [] n) : False := by
  generalize hm : ([] : Name) = name at h
  have no : ∀ {j : Nat} {q : Name} {x : Item}, ¬ DeclaredAs acc j (qualified q []) x := by
    rintro j q x ⟨f, path, s, h1, h2, h3⟩
    obtain ⟨n1, n2⟩ := hw f (List.mem_of_getElem? h1) _ _ _ h2
    obtain ⟨l, c, hl⟩ : ∃ l c, x.name = l ++ [c] := ⟨_, _, (List.dropLast_concat_getLast n1).symm⟩
    have hc : c ≠ '.' := by rintro rfl; exact n2 (by rw [hl]; simp)
    have h5 : ∃ r, qualified s x.name = r ++ [c] := by
      unfold qualified
      split
      · exact ⟨l, hl⟩
      · exact ⟨s ++ '.' :: l, by rw [hl]; simp⟩
    obtain ⟨r, h5⟩ := h5
    rw [h5] at h3
    unfold qualified at h3
    split at h3
    · cases r <;> cases h3
    · have h4 := congrArg List.getLast? h3
      simp only [List.getLast?_append, List.getLast?_singleton, Option.some_or, Option.some.injEq] at h4
      exact hc h4.symm
  cases h with
  | full n h => cases hm
  | simple name q h1 h2 =>
    subst hm
    obtain ⟨j, _, ⟨m, h⟩ | ⟨_, m, h⟩⟩ := h2.2.1
    · exact no h
    · exact no h
  | dotted first rest q h1 h2 h3 h4 => cases first <;> cases hm

end Verif.Pool
