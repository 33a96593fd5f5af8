import Verif.Pool.Shared3
import Verif.Props.PoolRebuild
/-!
C97: what a pool says of a file depends on that file and its imports only.
-/
set_option autoImplicit false
namespace Verif.Props
open Verif.Wire Verif.Dyn Verif.Pool

/-- The second pool has a file of the name of file number `i` of the first; it is number `j`. -/
def FileInBoth (p q : Pool) (i j : Nat) : Prop := ∃ fd, p.files[i]? = some fd ∧ q.fileByName fd.prost.name = some j

section
variable {env : Env} {acc acc' : List FileP} {p q : Pool}

private theorem shared_of (hc : Coherent acc acc') (D : Desc env acc p) (D' : Desc env acc' q) {i j : Nat}
    (h : FileInBoth p q i j) : Shared acc acc' i j := by
  obtain ⟨fd, h1, h2⟩ := h
  obtain ⟨f, h3, _, h4, h5, _⟩ := D.file_inv h1
  obtain ⟨g, g1, g2⟩ := D'.filesAre.name_iff.1 h2
  have e : f.name = g.name := by
    rw [g2, h5]; exact (congrArg FileP.name h4).symm
  cases hc f (List.mem_of_getElem? h3) g (List.mem_of_getElem? g1) e
  exact ⟨f, h3, g1⟩

private theorem byName_message {p : Pool} {n : Name} {k : Nat} :
    p.messageByName n = some k ↔ ∃ fi path, lookupN p.names (stripDot n) = some ⟨fi, path, .message k⟩ := by
  unfold Pool.messageByName Pool.getByName
  rcases h : lookupN p.names (stripDot n) with _ | ⟨fi, path, d⟩ <;> (try cases d) <;> simp

private theorem byName_enum {p : Pool} {n : Name} {k : Nat} :
    p.enumByName n = some k ↔ ∃ fi path, lookupN p.names (stripDot n) = some ⟨fi, path, .enum k⟩ := by
  unfold Pool.enumByName Pool.getByName
  rcases h : lookupN p.names (stripDot n) with _ | ⟨fi, path, d⟩ <;> (try cases d) <;> simp

private theorem byName_ext {p : Pool} {n : Name} {k : Nat} :
    p.extensionByName n = some k ↔ ∃ fi path, lookupN p.names (stripDot n) = some ⟨fi, path, .extension k⟩ := by
  unfold Pool.extensionByName Pool.getByName
  rcases h : lookupN p.names (stripDot n) with _ | ⟨fi, path, d⟩ <;> (try cases d) <;> simp

private theorem byName_svc {p : Pool} {n : Name} {k : Nat} :
    p.serviceByName n = some k ↔ ∃ fi path, lookupN p.names (stripDot n) = some ⟨fi, path, .service k⟩ := by
  unfold Pool.serviceByName Pool.getByName
  rcases h : lookupN p.names (stripDot n) with _ | ⟨fi, path, d⟩ <;> (try cases d) <;> simp

end

section
variable {env : Env} (hsr : SearchOk env.search) {acc acc' : List FileP} {p q : Pool}
include hsr

/-- **C97, messages.** Two pools were built from any files, in any order and in any number of additions, such
that files of the same name are equal. A message declared in a file that both have is found in both under the
same name and is described alike: the same fields with the same types, the same oneofs and look-ups. Types are
compared by their full names. -/
theorem C97_message (h : Hist env acc p) (h' : Hist env acc' q) (hc : Coherent acc acc') (hw : WellNamed acc)
    (hw' : WellNamed acc') {n : Name} {k j : Nat} {a : MsgD} (hn : p.messageByName n = some k)
    (ha : p.messages[k]? = some a) (hf : FileInBoth p q a.id.file j) :
    ∃ k' b, q.messageByName n = some k' ∧ q.messages[k']? = some b ∧ b.id.file = j ∧ MsgAlike p q a b := by
  have D := h.desc hsr
  obtain ⟨md, e1, e2⟩ := (D.message_name _ _).1 (byName_message.1 hn)
  rw [ha] at e1; cases e1
  obtain ⟨k', b, h1, h2, h3, h4⟩ := (h.settled hsr).shared_message hc (h'.settled hsr) hw hw'
    (shared_of hc D (h'.desc hsr) hf) ha rfl
  exact ⟨k', b, byName_message.2 ⟨_, _, e2 ▸ h2⟩, h1, h3, h4⟩

theorem C97_enum (h : Hist env acc p) (h' : Hist env acc' q) (hc : Coherent acc acc')
    {n : Name} {k j : Nat} {a : EnumD} (hn : p.enumByName n = some k)
    (ha : p.enums[k]? = some a) (hf : FileInBoth p q a.id.file j) :
    ∃ k' b, q.enumByName n = some k' ∧ q.enums[k']? = some b ∧ b.id.file = j ∧ EnumAlike p q a b := by
  have D := h.desc hsr
  obtain ⟨md, e1, e2⟩ := (D.enum_name _ _).1 (byName_enum.1 hn)
  rw [ha] at e1; cases e1
  obtain ⟨k', b, h1, h2, h3, h4⟩ := (h.settled hsr).shared_enum (h'.settled hsr)
    (shared_of hc D (h'.desc hsr) hf) ha rfl
  exact ⟨k', b, byName_enum.2 ⟨_, _, e2 ▸ h2⟩, h1, h3, h4⟩

theorem C97_extension (h : Hist env acc p) (h' : Hist env acc' q) (hc : Coherent acc acc') (hw : WellNamed acc)
    (hw' : WellNamed acc') {n : Name} {k j : Nat} {a : ExtD} (hn : p.extensionByName n = some k)
    (ha : p.extensions[k]? = some a) (hf : FileInBoth p q a.id.file j) :
    ∃ k' b, q.extensionByName n = some k' ∧ q.extensions[k']? = some b ∧ b.id.file = j ∧ ExtAlike p q a b := by
  have D := h.desc hsr
  obtain ⟨md, e1, e2⟩ := (D.extension_name _ _).1 (byName_ext.1 hn)
  rw [ha] at e1; cases e1
  obtain ⟨k', b, h1, h2, h3, h4⟩ := (h.settled hsr).shared_extension hc (h'.settled hsr) hw hw'
    (shared_of hc D (h'.desc hsr) hf) ha rfl
  exact ⟨k', b, byName_ext.2 ⟨_, _, e2 ▸ h2⟩, h1, h3, h4⟩

theorem C97_service (h : Hist env acc p) (h' : Hist env acc' q) (hc : Coherent acc acc') (hw : WellNamed acc)
    (hw' : WellNamed acc') {n : Name} {k j : Nat} {a : SvcD} (hn : p.serviceByName n = some k)
    (ha : p.services[k]? = some a) (hf : FileInBoth p q a.id.file j) :
    ∃ k' b, q.serviceByName n = some k' ∧ q.services[k']? = some b ∧ b.id.file = j ∧ SvcAlike p q a b := by
  have D := h.desc hsr
  obtain ⟨md, e1, e2⟩ := (D.service_name _ _).1 (byName_svc.1 hn)
  rw [ha] at e1; cases e1
  obtain ⟨k', b, h1, h2, h3, h4⟩ := (h.settled hsr).shared_service hc (h'.settled hsr) hw hw'
    (shared_of hc D (h'.desc hsr) hf) ha rfl
  exact ⟨k', b, byName_svc.2 ⟨_, _, e2 ▸ h2⟩, h1, h3, h4⟩

/-- A message is a map entry in both or in neither. -/
theorem C97_entry (hk : KeepsEntry env) (h : Hist env acc p) (h' : Hist env acc' q) (hc : Coherent acc acc') {k k' : Nat}
    {a b : MsgD} (ha : p.messages[k]? = some a) (hb : q.messages[k']? = some b)
    (hf : FileInBoth p q a.id.file b.id.file) (hm : MsgAlike p q a b) : p.isMapEntry k = q.isMapEntry k' := by
  have D := h.desc hsr
  have D' := h'.desc hsr
  obtain ⟨x, y, hs, _⟩ := D.message_stands ha
  obtain ⟨x', y', hs', _⟩ := D'.message_stands hb
  rw [h.entry hsr hk ha hs, h'.entry hsr hk hb hs']
  obtain ⟨g, e1, e2⟩ := shared_of hc D D' hf
  obtain ⟨f, _, s, h1, _, h2, _⟩ := hs
  obtain ⟨f', _, s', g1, _, g2, _⟩ := hs'
  rw [e1] at h1; cases h1
  rw [e2] at g1; cases g1
  rw [← hm.id.path] at g2
  have := h2.found.unique g2.found rfl
  cases this
  rfl

/-- An extension of a message belongs to the message of the same name in the other pool, if no addition was
rejected there. -/
theorem C97_extends (h : Hist env acc p) (h' : Accepts env acc' q) (hc : Coherent acc acc') (hw : WellNamed acc)
    (hw' : WellNamed acc') (hx : ExtsExact p) {k k' e j : Nat} {a b : MsgD} {x : ExtD} (ha : p.messages[k]? = some a)
    (hb : q.messages[k']? = some b) (hm : a.id.fullName = b.id.fullName) (he : e ∈ a.extensions)
    (hex : p.extensions[e]? = some x) (hf : FileInBoth p q x.id.file j) :
    ∃ e' y, e' ∈ b.extensions ∧ q.extensions[e']? = some y ∧ ExtAlike p q x y := by
  have D := h.desc hsr
  have D' := h'.hist.desc hsr
  obtain ⟨k2, y, h1, h2, h3, h4⟩ := (h.settled hsr).shared_extension hc (h'.hist.settled hsr) hw hw'
    (shared_of hc D D' hf) hex rfl
  refine ⟨k2, y, ?_, h1, h4⟩
  obtain ⟨x', c1, c2⟩ := ((hx k a ha).2 e).1 he
  rw [hex] at c1; cases c1
  refine ((h'.exts hsr k' b hb).2 k2).2 ⟨y, h1, ?_⟩
  obtain ⟨n, ⟨m1, m2, m3⟩, m4⟩ := h4.extendee
  rw [c2, ha] at m2; cases m2
  obtain ⟨_, _, u1⟩ := (D'.message_name _ _).2 m4
  obtain ⟨_, _, u2⟩ := (D'.message_name n k').2 ⟨b, hb, by rw [← hm]; exact m3⟩
  rw [u1] at u2
  cases u2
  rfl

end

/-- All of one pool is found in another, described alike. -/
structure FoundIn (p q : Pool) : Prop where
  files : ∀ (i : Nat) fd, p.files[i]? = some fd → ∃ j, FileInBoth p q i j
  messages : ∀ n k a, p.messageByName n = some k → p.messages[k]? = some a →
    ∃ k' b, q.messageByName n = some k' ∧ q.messages[k']? = some b ∧ MsgAlike p q a b
  enums : ∀ n k a, p.enumByName n = some k → p.enums[k]? = some a →
    ∃ k' b, q.enumByName n = some k' ∧ q.enums[k']? = some b ∧ EnumAlike p q a b
  extensions : ∀ n k a, p.extensionByName n = some k → p.extensions[k]? = some a →
    ∃ k' b, q.extensionByName n = some k' ∧ q.extensions[k']? = some b ∧ ExtAlike p q a b
  services : ∀ n k a, p.serviceByName n = some k → p.services[k]? = some a →
    ∃ k' b, q.serviceByName n = some k' ∧ q.services[k']? = some b ∧ SvcAlike p q a b

section
variable {env : Env} (hsr : SearchOk env.search) {acc acc' : List FileP} {p q : Pool}
include hsr

/-- **C97.** If one pool has all files of another, wherever they stand among its files, then all of the other
is found in it, described alike. So neither the order of the files nor files that are not imported change what
a descriptor says. -/
theorem C97_within (h : Hist env acc p) (h' : Hist env acc' q) (hsub : ∀ f ∈ acc, f ∈ acc')
    (hw' : WellNamed acc') : FoundIn p q := by
  have D := h.desc hsr
  have D' := h'.desc hsr
  have hw : WellNamed acc := fun f hf => hw' f (hsub f hf)
  have hc : Coherent acc acc' := by
    intro f hf g hg he
    obtain ⟨i, hi⟩ := List.getElem?_of_mem (hsub f hf)
    obtain ⟨j, hj⟩ := List.getElem?_of_mem hg
    have h1 := D'.filesAre.name_iff.2 ⟨f, hi, he⟩
    have h2 := D'.filesAre.name_iff.2 ⟨g, hj, rfl⟩
    cases h1.symm.trans h2
    exact Option.some.inj (hi.symm.trans hj)
  have hfile : ∀ (i : Nat) fd, p.files[i]? = some fd → ∃ j, FileInBoth p q i j := by
    intro i fd hi
    obtain ⟨f, h3, _, h4, h5, _⟩ := D.file_inv hi
    obtain ⟨j, hj⟩ := List.getElem?_of_mem (hsub f (List.mem_of_getElem? h3))
    refine ⟨j, fd, hi, D'.filesAre.name_iff.2 ⟨f, hj, ?_⟩⟩
    rw [h5]; exact (congrArg FileP.name h4).symm
  have hat : ∀ {i : Nat} {f : FileP}, acc[i]? = some f → ∃ j, FileInBoth p q i j := by
    intro i f hi
    obtain ⟨fd, h1, _⟩ := D.file_at hi
    exact hfile i fd h1
  refine ⟨hfile, ?_, ?_, ?_, ?_⟩
  · intro n k a hn ha
    obtain ⟨path, full, fi, parent, m, he, h1, _⟩ := D.message_at ha
    obtain ⟨i, f, s, g1, g2, _⟩ := visited_has he rfl
    obtain ⟨j, hj⟩ := hat (i := a.id.file) (f := f) (by rw [h1]; show acc[fi]? = _; rw [g1]; simpa using g2)
    obtain ⟨k', b, c1, c2, _, c3⟩ := C97_message hsr h h' hc hw hw' hn ha hj
    exact ⟨k', b, c1, c2, c3⟩
  · intro n k a hn ha
    obtain ⟨path, full, fi, parent, m, he, h1, _⟩ := D.enum_at ha
    obtain ⟨i, f, s, g1, g2, _⟩ := visited_has he rfl
    obtain ⟨j, hj⟩ := hat (i := a.id.file) (f := f) (by rw [h1]; show acc[fi]? = _; rw [g1]; simpa using g2)
    obtain ⟨k', b, c1, c2, _, c3⟩ := C97_enum hsr h h' hc hn ha hj
    exact ⟨k', b, c1, c2, c3⟩
  · intro n k a hn ha
    obtain ⟨path, full, fi, parent, f', fd, he, _, _, h1⟩ := D.extension_at ha
    obtain ⟨i, f, s, g1, g2, _⟩ := visited_has he rfl
    obtain ⟨j, hj⟩ := hat (i := a.id.file) (f := f) (by rw [h1.id]; show acc[fi]? = _; rw [g1]; simpa using g2)
    obtain ⟨k', b, c1, c2, _, c3⟩ := C97_extension hsr h h' hc hw hw' hn ha hj
    exact ⟨k', b, c1, c2, c3⟩
  · intro n k a hn ha
    obtain ⟨path, full, fi, m, he, h1, _⟩ := D.service_at ha
    obtain ⟨i, f, s, g1, g2, _⟩ := visited_has he rfl
    obtain ⟨j, hj⟩ := hat (i := a.id.file) (f := f) (by rw [h1]; show acc[fi]? = _; rw [g1]; simpa using g2)
    obtain ⟨k', b, c1, c2, _, c3⟩ := C97_service hsr h h' hc hw hw' hn ha hj
    exact ⟨k', b, c1, c2, c3⟩

/-- **C97, order.** Two pools that hold the same files, each in its own order, describe the same. -/
theorem C97_order (h : Hist env acc p) (h' : Hist env acc' q) (hp : acc.Perm acc') (hw : WellNamed acc) :
    FoundIn p q ∧ FoundIn q p :=
  ⟨C97_within hsr h h' (fun f hf => hp.mem_iff.1 hf) fun f hf => hw f (hp.mem_iff.2 hf),
    C97_within hsr h' h (fun f hf => hp.mem_iff.2 hf) hw⟩

end

/-! ### Examples -/

theorem shared_ex {bs bs' : List (List FileP)} (c : Pool → Pool → Bool)
    (h : (match runNew Pool.empty bs, runNew Pool.empty bs' with | some p, some q => c p q | _, _ => false) = true)
    (hsub : ∀ f ∈ bs.flatten, f ∈ bs'.flatten) (hw : wellNamed bs'.flatten = true) :
    ∃ p q, Accepts env0 bs.flatten p ∧ Accepts env0 bs'.flatten q ∧ FoundIn p q ∧ c p q = true := by
  split at h
  · next p q h1 h2 =>
    have a1 := runNew_accepts Accepts.empty h1
    have a2 := runNew_accepts Accepts.empty h2
    rw [List.nil_append] at a1 a2
    exact ⟨p, q, a1, a2, C97_within linearSearch_ok a1.hist a2.hist hsub (wellNamed_ok hw), h⟩
  · cases h

/-- Declares messages of its own, and is imported by no one. -/
def fileAside : FileP where
  name := nm "aside.proto"
  package := nm "z"
  messages := [{ name := nm "M" }, { name := nm "P" }]
  enums := [{ name := nm "E", values := [⟨nm "NIL", 0⟩] }]

/-- The premises are met: the numbers of the messages differ, what is said of them does not. -/
example : ∃ p q, Accepts env0 [fileA, fileB] p ∧ Accepts env0 [fileAside, fileA, fileB] q ∧ FoundIn p q ∧
    (p.messageByName (nm "c.P") == some 2 && q.messageByName (nm "c.P") == some 4) = true :=
  shared_ex (bs := [[fileA, fileB]]) (bs' := [[fileAside, fileA], [fileB]]) _ (by decide +kernel) (by simp)
    (by decide +kernel)

/-- So are those of the theorem about the order. -/
example : ∃ p q, Accepts env0 [fileA, fileB, fileAside] p ∧ Accepts env0 [fileAside, fileA, fileB] q ∧ FoundIn q p ∧
    (p.messageByName (nm "z.M") == some 3 && q.messageByName (nm "z.M") == some 0) = true := by
  obtain ⟨p, q, h1, h2, _, h3⟩ := shared_ex (bs := [[fileA, fileB], [fileAside]]) (bs' := [[fileAside, fileA], [fileB]])
    (fun p q => p.messageByName (nm "z.M") == some 3 && q.messageByName (nm "z.M") == some 0) (by decide +kernel)
    (by simp) (by decide +kernel)
  refine ⟨p, q, h1, h2, (C97_order linearSearch_ok h1.hist h2.hist ?_ (wellNamed_ok (by decide +kernel))).2, h3⟩
  exact (List.perm_append_comm : ([fileA, fileB] ++ [fileAside]).Perm ([fileAside] ++ [fileA, fileB]))

end Verif.Props
