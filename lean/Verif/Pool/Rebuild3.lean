import Verif.Pool.Rebuild2
/-!
The pool as described by its own descriptors.
-/
set_option autoImplicit false
namespace Verif.Pool
open Verif.Wire Verif.Dyn Verif.Props

theorem Refers.typeAt {acc : List FileP} {vis : Nat → Prop} {enums : Bool} {scope name n : Name}
    (h : Refers acc vis enums scope name n) : TypeAt acc vis enums n := by
  cases h with
  | full _ h => exact h
  | simple _ _ _ h => exact h.2.1
  | dotted _ _ _ _ _ _ h => exact h

section
variable {env : Env} {acc : List FileP} {p : Pool}

/-- The type a name means is found under its full name. -/
theorem Desc.meant_good (D : Desc env acc p) {fi : Nat} {fd : FileD} {enums : Bool} {scope name n : Name}
    (hf : p.files[fi]? = some fd) (h : Meant acc p fi enums scope name n) :
    ∃ d, Good fd.trans p.names (wants enums) n d := by
  obtain ⟨fd', m, h1, _, h3, h4⟩ := h
  rw [hf] at h1; cases h1
  exact D.namesAre.typeAt_iff.1 ((typeAt_take h3).1 h4.typeAt)

theorem good_found {deps : List Nat} {names : List (Name × Def)} {fl : Filter} {n scope : Name} {d : Def}
    (h : Good deps names fl n d) : resolveName deps names scope ('.' :: n) fl = .found n d :=
  RR.new_found_iff.2 ⟨rfl, h⟩

/-- A full name of a visible message. -/
theorem Desc.message_abs (D : Desc env acc p) {fi : Nat} {fd : FileD} {scope s name n : Name} {k : Nat}
    (hf : p.files[fi]? = some fd) (h : Meant acc p fi false scope name n) (hn : MessageNamed p n k) :
    MessageOk fd.trans p.names s ('.' :: n) k := by
  obtain ⟨d, hd⟩ := D.meant_good hf h
  refine ⟨n, d, good_found hd, ?_⟩
  obtain ⟨a, b, h1⟩ := (D.message_name n k).2 hn
  rw [hd.1] at h1
  cases h1
  rfl

theorem kindNamed_functional {n n' : Name} {k : Kind} (h : KindNamed p n k)
    (h' : KindNamed p n' k) : n = n' := by
  cases k <;> try exact h.elim
  all_goals
    obtain ⟨d, h1, h2⟩ := h
    obtain ⟨d', g1, g2⟩ := h'
    rw [h1] at g1; cases g1
    exact h2.symm.trans g2

theorem messageNamed_functional {n n' : Name} {k : Nat} (h : MessageNamed p n k)
    (h' : MessageNamed p n' k) : n = n' := by
  obtain ⟨d, h1, h2⟩ := h
  obtain ⟨d', g1, g2⟩ := h'
  rw [h1] at g1; cases g1
  exact h2.symm.trans g2

/-- The filled in type is found. -/
theorem FilledIn.typeOk (D : Desc env acc p) {fi : Nat} {fd : FileD} {scope s : Name} {k : Kind} {g : Bool}
    {x y : FieldP} (h : FilledIn p k x y) (hf : p.files[fi]? = some fd) (hk : KindOk p y k g)
    (hm : x.typeName ≠ [] → ∃ n, KindNamed p n k ∧ Meant acc p fi true scope x.typeName n) :
    TypeOk fd.trans p.names s y k g := by
  rcases h with ⟨h0, h⟩ | ⟨h0, n, hn, h⟩
  · have h1 : y.typeName = [] := by rw [h]; exact h0
    cases hk with
    | scalar _ _ h2 => exact .scalar _ h1 h2
    | message i h2 => exact absurd h1 h2
    | enum i h2 => exact absurd h1 h2
  · obtain ⟨n', hn', hm⟩ := hm h0
    cases kindNamed_functional hn hn'
    obtain ⟨d, hd⟩ := D.meant_good hf hm
    have h1 : y.typeName = '.' :: n := by rw [h]
    cases hk with
    | scalar _ h2 => rw [h1] at h2; cases h2
    | message i h2 _ =>
      refine .message n d i h2 (by rw [h1]; exact good_found hd) ?_
      obtain ⟨a, b, h1⟩ := (D.message_name n i).2 hn
      rw [hd.1] at h1; cases h1; rfl
    | enum i h2 _ =>
      refine .enum n d i h2 (by rw [h1]; exact good_found hd) ?_
      obtain ⟨a, b, h1⟩ := (D.enum_name n i).2 hn
      rw [hd.1] at h1; cases h1; rfl

theorem WellNamed.full_ne (hw : WellNamed acc) {e : Event} (he : e ∈ visit {} acc) {fi : Nat} {path : Path}
    {full : Name} {x : Item} (hx : e.item = some (fi, path, full, x)) : full ≠ [] := by
  obtain ⟨j, f, s, _, h2, h3, h4⟩ := visited_has he hx
  rw [h3]
  exact qualified_ne_nil (hw f (List.mem_of_getElem? h2) _ _ _ h4).1

/-- An extension says what it extends. -/
theorem Settled.extendee (S : Settled env acc p) (hw : WellNamed acc) {path : Path} {full : Name} {fi i : Nat}
    {parent : Option Nat} {x : FieldP} (he : .extension path full fi parent i x ∈ visit {} acc) :
    x.extendee.isSome = true := by
  obtain ⟨d, _, h⟩ := S.refs _ he
  obtain ⟨⟨n, _, fd, m, _, _, _, h⟩, _⟩ := h (hw.full_ne he rfl)
  cases hx : x.extendee with
  | some n => rfl
  | none =>
    have h0 : x.extendeeName = [] := by simp only [FieldP.extendeeName, hx]
    rw [h0] at h
    exact (no_empty_ref (fun f hf => hw f (List.mem_of_mem_take hf)) h).elim

end

section
variable {env : Env} (hsr : SearchOk env.search) {acc : List FileP} {p : Pool}
include hsr

/-- A pool is what its own descriptors describe. -/
theorem Hist.redesc (h : Hist env acc p) (hkp : KeepsPacked env) (hw : WellNamed acc) : Desc env p.protos p := by
  have S := h.settled hsr
  have D := S.desc
  have hst := D.protos
  refine ⟨D.ok, by rw [D.offs, offsAfter_alike hst], ?_, ?_, ?_⟩
  · intro e he
    have F := h.filled hsr hkp he
    obtain ⟨e', he', hs⟩ := visit_alike hst he
    refine ⟨fun n d hd => (D.evs _ he').1 n d (by rw [← Event.strip_defn, hs, Event.strip_defn, hd]), ?_⟩
    cases e with
    | file path i f =>
      cases e' <;> simp only [Event.strip, Event.file.injEq, reduceCtorEq] at hs
      obtain ⟨rfl, rfl, hs⟩ := hs
      next path i g =>
      obtain ⟨_, ⟨fd, h1, h2, h3, h4, h5, h6, h7⟩, h8, h9⟩ := D.evs _ he'
      obtain ⟨e1, e2, e3, e4⟩ := stripFile_rest hs
      obtain ⟨e5, e6⟩ := stripFile_deps hs
      rw [e1] at h8
      rw [e2] at h9
      exact ⟨⟨fd, h1, by rw [← e3]; exact h2, by rw [h3, hs], h4, by rw [← e5]; exact h5,
        by rw [← e5, ← e6]; exact h6, by rw [← e5, ← e4]; exact h7⟩, h8, h9⟩
    | message path full fi parent k m =>
      cases e' <;> simp only [Event.strip, Event.message.injEq, reduceCtorEq] at hs
      obtain ⟨rfl, rfl, rfl, rfl, rfl, hs⟩ := hs
      obtain ⟨_, ⟨md, h1, h2, h3, h4, h5, h6⟩, fd, h7, h8⟩ := D.evs _ he'
      obtain ⟨e1, e2, e3⟩ := stripMsg_rest hs
      have e4 := congrArg List.length e2
      rw [List.length_map, List.length_map] at e4
      refine ⟨⟨md, h1, by rw [← e1]; exact h2, h3, by rw [← e4]; exact h4, by rw [← e3]; exact h5, h6⟩, fd, h7,
        fun h => ?_⟩
      have := h8 h
      rwa [map_of_strip (g := fun f => toLowerWithoutUnderscores f.name) (fun _ => rfl) e2] at this
    | field path full fi k i y =>
      obtain ⟨x, md, d, hx, h1, h2, h3, h4⟩ := F
      obtain ⟨_, fd, md', d', g1, g2, g3, g4, g5⟩ := D.evs _ hx
      rw [h1] at g2; cases g2
      rw [h2] at g3; cases g3
      exact ⟨fd, md, d, g1, h1, h2, h3.number (by rw [h4]) g4, h3.fieldIs rfl g5⟩
    | extension path full fi parent i y =>
      obtain ⟨x, d, n, hx, h1, h2, h3, h4⟩ := F
      obtain ⟨_, fd, d', g1, g2, g3, g4⟩ := D.evs _ hx
      rw [h1] at g2; cases g2
      exact ⟨fd, d, g1, h1, h2.number (by rw [h4, S.extendee hw hx]; rfl) g3, h2.extIs rfl g4⟩
    | method path full fi k i y =>
      obtain ⟨x, sd, d, n, n', hx, h1, h2, h3, h4, h5⟩ := F
      obtain ⟨_, sd', d', g1, g2, g3, g4, g5⟩ := D.evs _ hx
      rw [h1] at g1; cases g1
      rw [h2] at g2; cases g2
      exact ⟨sd, d, h1, h2, by rw [h5]; exact g3, g4, g5⟩
    | service path full fi k s =>
      cases e' <;> simp only [Event.strip, Event.service.injEq, reduceCtorEq] at hs
      obtain ⟨rfl, rfl, rfl, rfl, hs⟩ := hs
      obtain ⟨_, sd, h1, h2, h3⟩ := D.evs _ he'
      have e1 := congrArg ServiceP.name hs
      have e2 := congrArg (List.length ∘ ServiceP.methods) hs
      simp only [stripService, Function.comp, List.length_map] at e1 e2
      exact ⟨sd, h1, by rw [← e1]; exact h2, by rw [← e2]; exact h3⟩
    | oneof path full fi k i o =>
      cases e' <;> simp only [Event.strip, Event.oneof.injEq, reduceCtorEq] at hs
      obtain ⟨rfl, rfl, rfl, rfl, rfl, rfl⟩ := hs
      exact (D.evs _ he').2
    | «enum» path full fi parent k m =>
      cases e' <;> simp only [Event.strip, Event.enum.injEq, reduceCtorEq] at hs
      obtain ⟨rfl, rfl, rfl, rfl, rfl, rfl⟩ := hs
      exact (D.evs _ he').2
    | enumValue path full fi k i v =>
      cases e' <;> simp only [Event.strip, Event.enumValue.injEq, reduceCtorEq] at hs
      obtain ⟨rfl, rfl, rfl, rfl, rfl, rfl⟩ := hs
      exact (D.evs _ he').2
  · intro x hx
    rcases D.names x hx with ⟨e, he, hd⟩ | ⟨h1, h2⟩
    · obtain ⟨e', he', hs⟩ := visit_alike hst.symm he
      exact .inl ⟨e', he', by rw [← Event.strip_defn, hs, Event.strip_defn, hd]⟩
    · refine .inr ⟨h1, h2.imp id ?_⟩
      rintro ⟨f, hf, hm⟩
      obtain ⟨i, hi⟩ := List.getElem?_of_mem hf
      obtain ⟨g, hg, hs⟩ := file_alike hst.symm hi
      exact ⟨g, List.mem_of_getElem? hg, by rw [(stripFile_rest hs).2.1]; exact hm⟩
  · intro x hx
    obtain ⟨f, hf, hn⟩ := D.fileNames x hx
    obtain ⟨g, hg, hs⟩ := file_alike hst.symm hf
    exact ⟨g, hg, by rw [(stripFile_rest hs).1]; exact hn⟩

/-- Every reference in the descriptors is found. -/
theorem Hist.remade (h : Hist env acc p) (hkp : KeepsPacked env) (hw : WellNamed acc) :
    ∀ e ∈ visit {} p.protos, Ev2 env p p.files.length e := by
  have S := h.settled hsr
  have D := S.desc
  have D' := h.redesc hsr hkp hw
  intro e he
  have F := h.filled hsr hkp he
  have hd := (D'.evs _ he).2
  cases e with
  | file path i f =>
    obtain ⟨⟨fd, h1, _, _, _, h5, h6, h7⟩, _⟩ := hd
    exact ⟨fd, h1, getElem?_lt h1, h5, S.seen _ _ h1, h6, h7⟩
  | field path full fi k i y =>
    obtain ⟨x, md, d, hx, h1, h2, h3, h4⟩ := F
    obtain ⟨fd, md', d', g1, g2, g3, g4, g5⟩ := hd
    rw [h1] at g2; cases g2
    rw [h2] at g3; cases g3
    obtain ⟨md', d', k1, k2, k3⟩ := S.refs _ hx
    rw [h1] at k1; cases k1
    rw [h2] at k2; cases k2
    exact ⟨fd, md, d, g1, getElem?_lt g1, h1, h2, g4, g5.id, g5.number, g5.valid, g5.json,
      h3.typeOk D g1 g5.kind (k3 (hw.full_ne hx rfl)), g5.oneof, g5.oneofLt, g5.packed, g5.presence, g5.card,
      g5.default⟩
  | extension path full fi parent i y =>
    obtain ⟨x, d, n, hx, h1, h2, h3, h4⟩ := F
    obtain ⟨fd, d', g1, g2, g3, g4⟩ := hd
    rw [h1] at g2; cases g2
    obtain ⟨d', k1, k2⟩ := S.refs _ hx
    rw [h1] at k1; cases k1
    obtain ⟨⟨n', k3, k4⟩, k5⟩ := k2 (hw.full_ne hx rfl)
    cases messageNamed_functional h3 k3
    have hn : y.extendeeName = '.' :: n := by simp only [FieldP.extendeeName, h4]
    exact ⟨fd, d, g1, getElem?_lt g1, h1, g3, g4.id, g4.parent, g4.number, g4.valid, g4.json,
      h2.typeOk D g1 g4.kind k5, by rw [hn]; exact D.message_abs g1 k4 h3, g4.packed, g4.card, g4.default⟩
  | method path full fi k i y =>
    obtain ⟨x, sd, d, n, n', hx, h1, h2, h3, h4, h5⟩ := F
    obtain ⟨sd', d', g1, g2, g3, _⟩ := hd
    rw [h1] at g1; cases g1
    rw [h2] at g2; cases g2
    obtain ⟨sd', d', k1, k2, k3⟩ := S.refs _ hx
    rw [h1] at k1; cases k1
    rw [h2] at k2; cases k2
    obtain ⟨⟨m, k4, k5⟩, m', k6, k7⟩ := k3 (hw.full_ne hx rfl)
    cases messageNamed_functional h3 k4
    cases messageNamed_functional h4 k6
    have hk5 := k5
    obtain ⟨fd, _, g4, _⟩ := hk5
    exact ⟨fd, sd, d, g4, getElem?_lt g4, h1, h2, g3, by rw [h5]; exact D.message_abs g4 k5 h3,
      by rw [h5]; exact D.message_abs g4 k7 h4⟩
  | service path full fi k s =>
    obtain ⟨sd, h1, h2, _⟩ := hd
    exact ⟨sd, h1, h2⟩
  | enumValue path full fi k i v =>
    obtain ⟨ed, fd, ep, h1, _, h2, h3, h4⟩ := hd
    exact ⟨ed, fd, ep, h1, h2, h3, h4⟩
  | oneof path full fi k i o => trivial
  | «enum» path full fi parent k m => trivial
  | message path full fi parent k m => trivial

end
end Verif.Pool
