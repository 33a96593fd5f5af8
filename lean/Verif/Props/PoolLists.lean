import Verif.Pool.Listing
import Verif.Props.PoolNames
import Verif.Props.PoolFields
/-!
Properties of the listings of a pool: C70 (files), C71 (messages and their members), C72 (oneofs),
C73 (ranges) and C74 (extensions by name).
-/
set_option autoImplicit false
namespace Verif.Props
open Verif.Wire Verif.Dyn Verif.Pool

section
variable {env : Env} (hsr : SearchOk env.search) {acc : List FileP} {p : Pool}
include hsr

/-! ### C70 -/

/-- **C70, files.** The pool lists the accepted files in order; each shows the name, package, imports
and syntax it was declared with. -/
theorem C70_file (h : Hist env acc p) : p.files.length = acc.length ∧
    ∀ (i : Nat) f, acc[i]? = some f → p.fileName i = .ok f.name ∧ p.filePackage i = .ok f.package ∧
      ∃ syn, p.fileSyntax i = .ok syn ∧
        (syn = .proto3 ↔ f.syn = some "proto3".toList) ∧
        (syn = .proto2 ↔ f.syn = none ∨ f.syn = some "proto2".toList) := by
  have hD := h.desc hsr
  refine ⟨hD.files_len, fun i f hf => ?_⟩
  obtain ⟨_, fd, h1, h2, h3, h4, h5⟩ := hD.file_full hf
  obtain ⟨g1, g2, _⟩ := strip_names h5
  refine ⟨?_, ?_, fd.syn, ?_, ?_⟩
  · simp only [Pool.fileName, bind_ok]
    exact ⟨_, h2, by rw [g1]⟩
  · simp only [Pool.filePackage, bind_ok]
    exact ⟨_, h2, by rw [g2]⟩
  · simp only [Pool.fileSyntax, bind_ok, getR_ok]
    exact ⟨_, h1, rfl⟩
  · unfold parseSyn at h4
    split at h4
    · next hs =>
      have e := (Option.some.inj h4).symm
      simp only [e, reduceCtorEq, false_iff, true_iff]
      refine ⟨fun h3 => ?_, hs⟩
      rw [h3] at hs
      revert hs; decide
    · next hs =>
      split at h4
      · next hs' =>
        have e := (Option.some.inj h4).symm
        simp only [e, reduceCtorEq, false_iff, true_iff]
        exact ⟨hs', hs⟩
      · cases h4

/-- **C70, imports.** `dependencies` and `public_dependencies` never panic and list, in declared order,
the files with the imported names. -/
theorem C70_dependencies (h : Hist env acc p) {i : Nat} {f : FileP} (hf : acc[i]? = some f) :
    (∃ ds, p.fileDeps i = .ok ds ∧ ds.length = f.deps.length ∧
      ∀ (j k : Nat), ds[j]? = some k → ∃ g, acc[k]? = some g ∧ f.deps[j]? = some g.name) ∧
    ∃ ds, p.filePublicDeps i = .ok ds ∧ ds.length = f.publicDeps.length ∧
      ∀ (j k : Nat), ds[j]? = some k → ∃ g n, acc[k]? = some g ∧ f.publicDeps[j]? = some (n : Int) ∧
        0 ≤ n ∧ f.deps[n.toNat]? = some g.name := by
  have hD := h.desc hsr
  obtain ⟨_, fd, h1, h2, h3, h4, h5⟩ := hD.file_full hf
  obtain ⟨_, _, g3, g4, _⟩ := strip_names h5
  obtain ⟨fd', k1, _, _, _, k5, k6, _⟩ := hD.file_at hf
  rw [h1] at k1; cases k1
  have dep : ∀ (j : Nat) n, f.deps[j]? = some n → ∃ k g, p.fileByName n = some k ∧ acc[k]? = some g ∧
      g.name = n := by
    intro j n hn
    have : (f.deps.map (lookupN p.fileNames))[j]? = some (lookupN p.fileNames n) := by
      rw [List.getElem?_map, hn]; rfl
    rw [k5, List.getElem?_map, Option.map_eq_some_iff] at this
    obtain ⟨k, _, hk⟩ := this
    obtain ⟨g, hg, hgn⟩ := (C18_file hsr h n k).1 hk.symm
    exact ⟨k, g, hk.symm, hg, hgn⟩
  constructor
  · obtain ⟨ds, hds⟩ := mapR_total (f := fun n => unwrapR (p.fileByName n)) (l := f.deps) (fun n hn => by
      obtain ⟨j, hj⟩ := List.getElem?_of_mem hn
      obtain ⟨k, g, hk, _⟩ := dep j n hj
      exact ⟨k, by rw [hk]; rfl⟩)
    obtain ⟨l1, l2⟩ := mapR_ok.1 hds
    refine ⟨ds, ?_, l1, fun j k hk => ?_⟩
    · simp only [Pool.fileDeps, bind_ok]
      exact ⟨_, h2, by rw [g3]; exact hds⟩
    · have hlt := getElem?_lt hk
      have hn := List.getElem?_eq_getElem (show j < f.deps.length by omega)
      obtain ⟨k', m1, m2⟩ := l2 j _ hn
      rw [hk] at m1; cases m1
      obtain ⟨k'', g, n1, n2, n3⟩ := dep j _ hn
      rw [n1] at m2; cases m2
      exact ⟨g, n2, by rw [hn, n3]⟩
  · have pub : ∀ n ∈ f.publicDeps, 0 ≤ n ∧ ∃ k g, (getI f.deps n).bind p.fileByName = some k ∧
        acc[k]? = some g ∧ f.deps[n.toNat]? = some g.name := by
      intro n hn
      obtain ⟨m1, m2⟩ := k6 n hn
      have hd := List.getElem?_eq_getElem (show n.toNat < f.deps.length by omega)
      obtain ⟨k, g, n1, n2, n3⟩ := dep _ _ hd
      refine ⟨m1, k, g, ?_, n2, by rw [hd, n3]⟩
      rw [getI, if_pos m1, hd]
      exact n1
    obtain ⟨ds, hds⟩ := mapR_total (f := fun j => unwrapR ((getI f.deps j).bind p.fileByName))
      (l := f.publicDeps) (fun n hn => by
        obtain ⟨_, k, g, hk, _⟩ := pub n hn
        exact ⟨k, by rw [hk]; rfl⟩)
    obtain ⟨l1, l2⟩ := mapR_ok.1 hds
    refine ⟨ds, ?_, l1, fun j k hk => ?_⟩
    · simp only [Pool.filePublicDeps, bind_ok]
      exact ⟨_, h2, by rw [g3, g4]; exact hds⟩
    · have hlt := getElem?_lt hk
      have hn := List.getElem?_eq_getElem (show j < f.publicDeps.length by omega)
      obtain ⟨k', m1, m2⟩ := l2 j _ hn
      rw [hk] at m1; cases m1
      obtain ⟨n0, k'', g, n1, n2, n3⟩ := pub _ (List.mem_of_getElem? hn)
      rw [n1] at m2; cases m2
      exact ⟨g, _, n2, hn, n0, n3⟩

/-- **C70, messages of a file.** `messages()` never panics and lists, in declared order, exactly the
messages declared at the top of the file. (For full names that do not start with a dot; see
`C70_false`.) -/
theorem C70_messages_partial (h : Hist env acc p) {i : Nat} {f : FileP} (hf : acc[i]? = some f)
    (hdot : ∀ x ∈ f.messages, (qualified f.package x.name).head? ≠ some '.') :
    ∃ ks, p.fileMessages i = .ok ks ∧ ks.length = f.messages.length ∧
      (∀ (j k : Nat), ks[j]? = some k → ∃ x d, f.messages[j]? = some x ∧ p.messages[k]? = some d ∧
        d.id.file = i ∧ d.id.path = [4, j] ∧ d.parent = none ∧
        d.id.name = x.name ∧ d.id.fullName = qualified f.package x.name) ∧
      ∀ k, k ∈ ks ↔ ∃ d, p.messages[k]? = some d ∧ d.id.file = i ∧ d.parent = none := by
  have hD := h.desc hsr
  obtain ⟨hv, fd, h1, h2, h3, h4, h5⟩ := hD.file_full hf
  have hnames := strip_names h5
  obtain ⟨ks, l1, l2, l3, l4⟩ := listing (look := p.messageByName) (nm := fun x => x.name) (s := f.package)
    (Q := fun j k => ∃ x d, f.messages[j]? = some x ∧ p.messages[k]? = some d ∧
        d.id.file = i ∧ d.id.path = [4, j] ∧ d.parent = none ∧
        d.id.name = x.name ∧ d.id.fullName = qualified f.package x.name)
    (ys := fd.prost.messages) (xs := f.messages) (by obtain ⟨_, _, _, _, a, b, c, d⟩ := hnames; assumption) (by
      intro j x hx
      obtain ⟨k, hk⟩ := (visit_full acc {} _ hv).1 j x hx
      obtain ⟨_, ⟨d, k1, k2, k3, _⟩, _⟩ := hD.evs _ hk
      refine ⟨k, ?_, x, d, hx, k1, by rw [k2]; rfl, by rw [k2]; rfl, k3,
        by rw [k2]; exact Ident.mk'_name _ _ _ _, by rw [k2, qualified_eq]; rfl⟩
      rw [← qualified_eq]
      refine (C18_message hsr h _ _).2 ⟨d, k1, ?_⟩
      rw [stripDot_of_ne (hdot x (List.mem_of_getElem? hx)), k2, qualified_eq]; rfl)
  refine ⟨ks, ?_, l2, l3, fun k => ⟨fun hk => ?_, ?_⟩⟩
  · simp only [Pool.fileMessages, bind_ok]
    exact ⟨_, h2, by rw [hnames.2.1]; exact l1⟩
  · obtain ⟨j, hj⟩ := List.getElem?_of_mem hk
    obtain ⟨x, d, _, k1, k2, _, k3⟩ := l3 j k hj
    exact ⟨d, k1, k2, k3.1⟩
  · rintro ⟨d, hk, hfile, hp⟩
    rw [l4]
    obtain ⟨path, full, fi, parent, m, he, hid, hpar, _⟩ := hD.message_at hk
    rw [hid] at hfile; subst hfile
    obtain ⟨m1, m2⟩ := top_message hf (hp ▸ hpar ▸ he)
    refine ⟨m, m1, (C18_message hsr h _ _).2 ⟨d, hk, ?_⟩⟩
    rw [← qualified_eq, stripDot_of_ne (hdot m m1), qualified_eq, hid]
    exact m2

/-- **C70, enums of a file.** `enums()` never panics and lists, in declared order, exactly the
enums declared at the top of the file. (For full names that do not start with a dot; see
`C70_false`.) -/
theorem C70_enums_partial (h : Hist env acc p) {i : Nat} {f : FileP} (hf : acc[i]? = some f)
    (hdot : ∀ x ∈ f.enums, (qualified f.package x.name).head? ≠ some '.') :
    ∃ ks, p.fileEnums i = .ok ks ∧ ks.length = f.enums.length ∧
      (∀ (j k : Nat), ks[j]? = some k → ∃ x d, f.enums[j]? = some x ∧ p.enums[k]? = some d ∧
        d.id.file = i ∧ d.id.path = [5, j] ∧ d.parent = none ∧
        d.id.name = x.name ∧ d.id.fullName = qualified f.package x.name) ∧
      ∀ k, k ∈ ks ↔ ∃ d, p.enums[k]? = some d ∧ d.id.file = i ∧ d.parent = none := by
  have hD := h.desc hsr
  obtain ⟨hv, fd, h1, h2, h3, h4, h5⟩ := hD.file_full hf
  have hnames := strip_names h5
  obtain ⟨ks, l1, l2, l3, l4⟩ := listing (look := p.enumByName) (nm := fun x => x.name) (s := f.package)
    (Q := fun j k => ∃ x d, f.enums[j]? = some x ∧ p.enums[k]? = some d ∧
        d.id.file = i ∧ d.id.path = [5, j] ∧ d.parent = none ∧
        d.id.name = x.name ∧ d.id.fullName = qualified f.package x.name)
    (ys := fd.prost.enums) (xs := f.enums) (by obtain ⟨_, _, _, _, a, b, c, d⟩ := hnames; assumption) (by
      intro j x hx
      obtain ⟨k, hk⟩ := (visit_full acc {} _ hv).2.1 j x hx
      obtain ⟨_, ⟨d, k1, k2, k3, _⟩, _⟩ := hD.evs _ hk
      refine ⟨k, ?_, x, d, hx, k1, by rw [k2]; rfl, by rw [k2]; rfl, k3,
        by rw [k2]; exact Ident.mk'_name _ _ _ _, by rw [k2, qualified_eq]; rfl⟩
      rw [← qualified_eq]
      refine (C18_enum hsr h _ _).2 ⟨d, k1, ?_⟩
      rw [stripDot_of_ne (hdot x (List.mem_of_getElem? hx)), k2, qualified_eq]; rfl)
  refine ⟨ks, ?_, l2, l3, fun k => ⟨fun hk => ?_, ?_⟩⟩
  · simp only [Pool.fileEnums, bind_ok]
    exact ⟨_, h2, by rw [hnames.2.1]; exact l1⟩
  · obtain ⟨j, hj⟩ := List.getElem?_of_mem hk
    obtain ⟨x, d, _, k1, k2, _, k3⟩ := l3 j k hj
    exact ⟨d, k1, k2, k3.1⟩
  · rintro ⟨d, hk, hfile, hp⟩
    rw [l4]
    obtain ⟨path, full, fi, parent, m, he, hid, hpar, _⟩ := hD.enum_at hk
    rw [hid] at hfile; subst hfile
    obtain ⟨m1, m2⟩ := top_enum hf (hp ▸ hpar ▸ he)
    refine ⟨m, m1, (C18_enum hsr h _ _).2 ⟨d, hk, ?_⟩⟩
    rw [← qualified_eq, stripDot_of_ne (hdot m m1), qualified_eq, hid]
    exact m2

/-- **C70, services of a file.** `services()` never panics and lists, in declared order, exactly the
services declared at the top of the file. (For full names that do not start with a dot; see
`C70_false`.) -/
theorem C70_services_partial (h : Hist env acc p) {i : Nat} {f : FileP} (hf : acc[i]? = some f)
    (hdot : ∀ x ∈ f.services, (qualified f.package x.name).head? ≠ some '.') :
    ∃ ks, p.fileServices i = .ok ks ∧ ks.length = f.services.length ∧
      (∀ (j k : Nat), ks[j]? = some k → ∃ x d, f.services[j]? = some x ∧ p.services[k]? = some d ∧
        d.id.file = i ∧ d.id.path = [6, j] ∧
        d.id.name = x.name ∧ d.id.fullName = qualified f.package x.name) ∧
      ∀ k, k ∈ ks ↔ ∃ d, p.services[k]? = some d ∧ d.id.file = i := by
  have hD := h.desc hsr
  obtain ⟨hv, fd, h1, h2, h3, h4, h5⟩ := hD.file_full hf
  have hnames := strip_names h5
  obtain ⟨ks, l1, l2, l3, l4⟩ := listing (look := p.serviceByName) (nm := fun x => x.name) (s := f.package)
    (Q := fun j k => ∃ x d, f.services[j]? = some x ∧ p.services[k]? = some d ∧
        d.id.file = i ∧ d.id.path = [6, j] ∧
        d.id.name = x.name ∧ d.id.fullName = qualified f.package x.name)
    (ys := fd.prost.services) (xs := f.services) (by obtain ⟨_, _, _, _, a, b, c, d⟩ := hnames; assumption) (by
      intro j x hx
      obtain ⟨k, hk⟩ := (visit_full acc {} _ hv).2.2.1 j x hx
      obtain ⟨_, d, k1, k2, _⟩ := hD.evs _ hk
      refine ⟨k, ?_, x, d, hx, k1, by rw [k2]; rfl, by rw [k2]; rfl,
        by rw [k2]; exact Ident.mk'_name _ _ _ _, by rw [k2, qualified_eq]; rfl⟩
      rw [← qualified_eq]
      refine (C18_service hsr h _ _).2 ⟨d, k1, ?_⟩
      rw [stripDot_of_ne (hdot x (List.mem_of_getElem? hx)), k2, qualified_eq]; rfl)
  refine ⟨ks, ?_, l2, l3, fun k => ⟨fun hk => ?_, ?_⟩⟩
  · simp only [Pool.fileServices, bind_ok]
    exact ⟨_, h2, by rw [hnames.2.1]; exact l1⟩
  · obtain ⟨j, hj⟩ := List.getElem?_of_mem hk
    obtain ⟨x, d, _, k1, k2, _, k3⟩ := l3 j k hj
    exact ⟨d, k1, k2⟩
  · rintro ⟨d, hk, hfile⟩
    rw [l4]
    obtain ⟨path, full, fi, m, he, hid, _⟩ := hD.service_at hk
    rw [hid] at hfile; subst hfile
    obtain ⟨m1, m2⟩ := top_service hf he
    refine ⟨m, m1, (C18_service hsr h _ _).2 ⟨d, hk, ?_⟩⟩
    rw [← qualified_eq, stripDot_of_ne (hdot m m1), qualified_eq, hid]
    exact m2

/-- **C70, extensions of a file.** `extensions()` never panics and lists, in declared order, exactly the
extensions declared at the top of the file. (For full names that do not start with a dot; see
`C70_false`.) -/
theorem C70_extensions_partial (h : Hist env acc p) {i : Nat} {f : FileP} (hf : acc[i]? = some f)
    (hdot : ∀ x ∈ f.exts, (qualified f.package x.name).head? ≠ some '.') :
    ∃ ks, p.fileExtensions i = .ok ks ∧ ks.length = f.exts.length ∧
      (∀ (j k : Nat), ks[j]? = some k → ∃ x d, f.exts[j]? = some x ∧ p.extensions[k]? = some d ∧
        d.id.file = i ∧ d.id.path = [7, j] ∧ d.parent = none ∧
        d.id.name = x.name ∧ d.id.fullName = qualified f.package x.name) ∧
      ∀ k, k ∈ ks ↔ ∃ d, p.extensions[k]? = some d ∧ d.id.file = i ∧ d.parent = none := by
  have hD := h.desc hsr
  obtain ⟨hv, fd, h1, h2, h3, h4, h5⟩ := hD.file_full hf
  have hnames := strip_names h5
  obtain ⟨ks, l1, l2, l3, l4⟩ := listing (look := p.extensionByName) (nm := fun x => x.name) (s := f.package)
    (Q := fun j k => ∃ x d, f.exts[j]? = some x ∧ p.extensions[k]? = some d ∧
        d.id.file = i ∧ d.id.path = [7, j] ∧ d.parent = none ∧
        d.id.name = x.name ∧ d.id.fullName = qualified f.package x.name)
    (ys := fd.prost.exts) (xs := f.exts) (by obtain ⟨_, _, _, _, a, b, c, d⟩ := hnames; assumption) (by
      intro j x hx
      obtain ⟨k, hk⟩ := (visit_full acc {} _ hv).2.2.2 j x hx
      obtain ⟨_, _, d, _, k1, _, k2⟩ := hD.evs _ hk
      refine ⟨k, ?_, x, d, hx, k1, by rw [k2.id]; rfl, by rw [k2.id]; rfl, k2.parent,
        by rw [k2.id]; exact Ident.mk'_name _ _ _ _, by rw [k2.id, qualified_eq]; rfl⟩
      rw [← qualified_eq]
      refine (C18_extension hsr h _ _).2 ⟨d, k1, ?_⟩
      rw [stripDot_of_ne (hdot x (List.mem_of_getElem? hx)), k2.id, qualified_eq]; rfl)
  refine ⟨ks, ?_, l2, l3, fun k => ⟨fun hk => ?_, ?_⟩⟩
  · simp only [Pool.fileExtensions, bind_ok]
    exact ⟨_, h2, by rw [hnames.2.1]; exact l1⟩
  · obtain ⟨j, hj⟩ := List.getElem?_of_mem hk
    obtain ⟨x, d, _, k1, k2, _, k3⟩ := l3 j k hj
    exact ⟨d, k1, k2, k3.1⟩
  · rintro ⟨d, hk, hfile, hp⟩
    rw [l4]
    obtain ⟨path, full, fi, parent, m, _, he, _, _, hE⟩ := hD.extension_at hk
    have hid := hE.id
    rw [hid] at hfile; subst hfile
    obtain ⟨m1, m2⟩ := top_extension hf (hp ▸ hE.parent ▸ he)
    refine ⟨m, m1, (C18_extension hsr h _ _).2 ⟨d, hk, ?_⟩⟩
    rw [← qualified_eq, stripDot_of_ne (hdot m m1), qualified_eq, hid]
    exact m2

/-! ### C71 -/

/-- **C71, messages inside a message.** `child_messages` never panics and lists, in declared order,
exactly the messages whose `parent_message` is the message; the parent lies in the same file. (For full
names that do not start with a dot; see `C70_false`.) -/
theorem C71_messages_partial (h : Hist env acc p) {q : Nat} {md : MsgD}
    (hq : p.messages[q]? = some md) :
    ∃ m y, Stands acc p md.id (.message m) (.message y) ∧
    ((∀ x ∈ m.nested, (qualified md.id.fullName x.name).head? ≠ some '.') →
      ∃ ks, p.childMessages q = .ok ks ∧ ks.length = m.nested.length ∧
      (∀ (j k : Nat), ks[j]? = some k → ∃ x d, m.nested[j]? = some x ∧ p.messages[k]? = some d ∧
        d.id.file = md.id.file ∧ d.id.path = md.id.path ++ [3, j] ∧ d.parent = some q ∧
        d.id.name = x.name ∧ d.id.fullName = qualified md.id.fullName x.name) ∧
      ∀ k, k ∈ ks ↔ ∃ d, p.messages[k]? = some d ∧ d.parent = some q) := by
  have hD := h.desc hsr
  obtain ⟨m, y, hv, hst, h1, _, h2⟩ := hD.message_full hq
  refine ⟨m, y, hst, fun hdot => ?_⟩
  have hnames := stripMsg_names h2
  obtain ⟨ks, l1, l2, l3, l4⟩ := listing (look := p.messageByName) (nm := fun x => x.name) (s := md.id.fullName)
    (Q := fun j k => ∃ x d, m.nested[j]? = some x ∧ p.messages[k]? = some d ∧
        d.id.file = md.id.file ∧ d.id.path = md.id.path ++ [3, j] ∧ d.parent = some q ∧
        d.id.name = x.name ∧ d.id.fullName = qualified md.id.fullName x.name)
    (ys := y.nested) (xs := m.nested) (by obtain ⟨_, a, b, c, _⟩ := hnames; assumption) (by
      intro j x hx
      obtain ⟨k, hk⟩ := (visit_full acc {} _ hv).2.2.1 j x hx
      obtain ⟨_, ⟨d, k1, k2, k3, _⟩, _⟩ := hD.evs _ hk
      refine ⟨k, ?_, x, d, hx, k1, by rw [k2]; rfl, by rw [k2]; rfl, k3,
        by rw [k2]; exact Ident.mk'_name _ _ _ _, by rw [k2, qualified_eq]; rfl⟩
      rw [← qualified_eq]
      refine (C18_message hsr h _ _).2 ⟨d, k1, ?_⟩
      rw [stripDot_of_ne (hdot x (List.mem_of_getElem? hx)), k2, qualified_eq]; rfl)
  refine ⟨ks, ?_, l2, l3, fun k => ⟨fun hk => ?_, ?_⟩⟩
  · simp only [Pool.childMessages, bind_ok, getR_ok]
    exact ⟨_, hq, _, h1, l1⟩
  · obtain ⟨j, hj⟩ := List.getElem?_of_mem hk
    obtain ⟨x, d, _, k1, _, _, k3, _⟩ := l3 j k hj
    exact ⟨d, k1, k3⟩
  · rintro ⟨d, hk, hp⟩
    rw [l4]
    obtain ⟨path, full, fi, parent, m_, he, hid, hpar, _⟩ := hD.message_at hk
    rw [hp] at hpar; subst hpar
    obtain ⟨m1, m2, _⟩ := hD.in_message hv he
    refine ⟨m_, m1, (C18_message hsr h _ _).2 ⟨d, hk, ?_⟩⟩
    rw [← qualified_eq, stripDot_of_ne (hdot _ m1), qualified_eq, hid]
    exact m2

/-- **C71, enums inside a message.** `child_enums` never panics and lists, in declared order,
exactly the enums whose `parent_message` is the message; the parent lies in the same file. (For full
names that do not start with a dot; see `C70_false`.) -/
theorem C71_enums_partial (h : Hist env acc p) {q : Nat} {md : MsgD}
    (hq : p.messages[q]? = some md) :
    ∃ m y, Stands acc p md.id (.message m) (.message y) ∧
    ((∀ x ∈ m.enums, (qualified md.id.fullName x.name).head? ≠ some '.') →
      ∃ ks, p.childEnums q = .ok ks ∧ ks.length = m.enums.length ∧
      (∀ (j k : Nat), ks[j]? = some k → ∃ x d, m.enums[j]? = some x ∧ p.enums[k]? = some d ∧
        d.id.file = md.id.file ∧ d.id.path = md.id.path ++ [4, j] ∧ d.parent = some q ∧
        d.id.name = x.name ∧ d.id.fullName = qualified md.id.fullName x.name) ∧
      ∀ k, k ∈ ks ↔ ∃ d, p.enums[k]? = some d ∧ d.parent = some q) := by
  have hD := h.desc hsr
  obtain ⟨m, y, hv, hst, h1, _, h2⟩ := hD.message_full hq
  refine ⟨m, y, hst, fun hdot => ?_⟩
  have hnames := stripMsg_names h2
  obtain ⟨ks, l1, l2, l3, l4⟩ := listing (look := p.enumByName) (nm := fun x => x.name) (s := md.id.fullName)
    (Q := fun j k => ∃ x d, m.enums[j]? = some x ∧ p.enums[k]? = some d ∧
        d.id.file = md.id.file ∧ d.id.path = md.id.path ++ [4, j] ∧ d.parent = some q ∧
        d.id.name = x.name ∧ d.id.fullName = qualified md.id.fullName x.name)
    (ys := y.enums) (xs := m.enums) (by obtain ⟨_, a, b, c, _⟩ := hnames; assumption) (by
      intro j x hx
      obtain ⟨k, hk⟩ := (visit_full acc {} _ hv).2.2.2.1 j x hx
      obtain ⟨_, ⟨d, k1, k2, k3, _⟩, _⟩ := hD.evs _ hk
      refine ⟨k, ?_, x, d, hx, k1, by rw [k2]; rfl, by rw [k2]; rfl, k3,
        by rw [k2]; exact Ident.mk'_name _ _ _ _, by rw [k2, qualified_eq]; rfl⟩
      rw [← qualified_eq]
      refine (C18_enum hsr h _ _).2 ⟨d, k1, ?_⟩
      rw [stripDot_of_ne (hdot x (List.mem_of_getElem? hx)), k2, qualified_eq]; rfl)
  refine ⟨ks, ?_, l2, l3, fun k => ⟨fun hk => ?_, ?_⟩⟩
  · simp only [Pool.childEnums, bind_ok, getR_ok]
    exact ⟨_, hq, _, h1, l1⟩
  · obtain ⟨j, hj⟩ := List.getElem?_of_mem hk
    obtain ⟨x, d, _, k1, _, _, k3, _⟩ := l3 j k hj
    exact ⟨d, k1, k3⟩
  · rintro ⟨d, hk, hp⟩
    rw [l4]
    obtain ⟨path, full, fi, parent, m_, he, hid, hpar, _⟩ := hD.enum_at hk
    rw [hp] at hpar; subst hpar
    obtain ⟨m1, m2, _⟩ := hD.in_enum hv he
    refine ⟨m_, m1, (C18_enum hsr h _ _).2 ⟨d, hk, ?_⟩⟩
    rw [← qualified_eq, stripDot_of_ne (hdot _ m1), qualified_eq, hid]
    exact m2

/-- **C71, extensions inside a message.** `child_extensions` never panics and lists, in declared order,
exactly the extensions whose `parent_message` is the message; the parent lies in the same file. (For full
names that do not start with a dot; see `C70_false`.) -/
theorem C71_extensions_partial (h : Hist env acc p) {q : Nat} {md : MsgD}
    (hq : p.messages[q]? = some md) :
    ∃ m y, Stands acc p md.id (.message m) (.message y) ∧
    ((∀ x ∈ m.exts, (qualified md.id.fullName x.name).head? ≠ some '.') →
      ∃ ks, p.childExtensions q = .ok ks ∧ ks.length = m.exts.length ∧
      (∀ (j k : Nat), ks[j]? = some k → ∃ x d, m.exts[j]? = some x ∧ p.extensions[k]? = some d ∧
        d.id.file = md.id.file ∧ d.id.path = md.id.path ++ [6, j] ∧ d.parent = some q ∧
        d.id.name = x.name ∧ d.id.fullName = qualified md.id.fullName x.name) ∧
      ∀ k, k ∈ ks ↔ ∃ d, p.extensions[k]? = some d ∧ d.parent = some q) := by
  have hD := h.desc hsr
  obtain ⟨m, y, hv, hst, h1, _, h2⟩ := hD.message_full hq
  refine ⟨m, y, hst, fun hdot => ?_⟩
  have hnames := stripMsg_names h2
  obtain ⟨ks, l1, l2, l3, l4⟩ := listing (look := p.extensionByName) (nm := fun x => x.name) (s := md.id.fullName)
    (Q := fun j k => ∃ x d, m.exts[j]? = some x ∧ p.extensions[k]? = some d ∧
        d.id.file = md.id.file ∧ d.id.path = md.id.path ++ [6, j] ∧ d.parent = some q ∧
        d.id.name = x.name ∧ d.id.fullName = qualified md.id.fullName x.name)
    (ys := y.exts) (xs := m.exts) (by obtain ⟨_, a, b, c, _⟩ := hnames; assumption) (by
      intro j x hx
      obtain ⟨k, hk⟩ := (visit_full acc {} _ hv).2.2.2.2 j x hx
      obtain ⟨_, _, d, _, k1, _, k2⟩ := hD.evs _ hk
      refine ⟨k, ?_, x, d, hx, k1, by rw [k2.id]; rfl, by rw [k2.id]; rfl, k2.parent,
        by rw [k2.id]; exact Ident.mk'_name _ _ _ _, by rw [k2.id, qualified_eq]; rfl⟩
      rw [← qualified_eq]
      refine (C18_extension hsr h _ _).2 ⟨d, k1, ?_⟩
      rw [stripDot_of_ne (hdot x (List.mem_of_getElem? hx)), k2.id, qualified_eq]; rfl)
  refine ⟨ks, ?_, l2, l3, fun k => ⟨fun hk => ?_, ?_⟩⟩
  · simp only [Pool.childExtensions, bind_ok, getR_ok]
    exact ⟨_, hq, _, h1, l1⟩
  · obtain ⟨j, hj⟩ := List.getElem?_of_mem hk
    obtain ⟨x, d, _, k1, _, _, k3, _⟩ := l3 j k hj
    exact ⟨d, k1, k3⟩
  · rintro ⟨d, hk, hp⟩
    rw [l4]
    obtain ⟨path, full, fi, parent, m_, _, he, _, _, hE⟩ := hD.extension_at hk
    have hid := hE.id
    have hpar := hE.parent
    rw [hp] at hpar; subst hpar
    obtain ⟨m1, m2, _⟩ := hD.in_extension hv he
    refine ⟨m_, m1, (C18_extension hsr h _ _).2 ⟨d, hk, ?_⟩⟩
    rw [← qualified_eq, stripDot_of_ne (hdot _ m1), qualified_eq, hid]
    exact m2

/-- **C71, parents.** The parent of a message, enum or extension is a message of the same file. -/
theorem C71_parent (h : Hist env acc p) {k q : Nat} {id : Ident}
    (hd : (∃ d, p.messages[k]? = some d ∧ d.id = id ∧ d.parent = some q) ∨
      (∃ d, p.enums[k]? = some d ∧ d.id = id ∧ d.parent = some q) ∨
      ∃ d, p.extensions[k]? = some d ∧ d.id = id ∧ d.parent = some q) :
    ∃ md, p.messages[q]? = some md ∧ md.id.file = id.file ∧
      id.fullName = qualified md.id.fullName id.name := by
  have hD := h.desc hsr
  have of_ : ∀ {qpath qfull fi qpar qm}, .message qpath qfull fi qpar q qm ∈ visit {} acc →
      ∃ md, p.messages[q]? = some md ∧ md.id.file = fi ∧ md.id.fullName = qfull := by
    intro qpath qfull fi qpar qm hv
    obtain ⟨_, ⟨md, g1, g2, _⟩, _⟩ := hD.evs _ hv
    exact ⟨md, g1, by rw [g2]; rfl, by rw [g2]; rfl⟩
  rcases hd with ⟨d, h1, rfl, h2⟩ | ⟨d, h1, rfl, h2⟩ | ⟨d, h1, rfl, h2⟩
  · obtain ⟨path, full, fi, parent, m, he, hid, hp, _⟩ := hD.message_at h1
    rw [h2] at hp; subst hp
    obtain ⟨qpath, qfull, qpar, qm, hq⟩ := parent_visited (fi := fi) he (q := q) ⟨rfl, rfl⟩
    obtain ⟨_, hfull, _⟩ := hD.in_message hq he
    obtain ⟨md, g1, g2, g3⟩ := of_ hq
    refine ⟨md, g1, by rw [g2, hid]; rfl, ?_⟩
    rw [g3, hid, qualified_eq, hfull, Ident.mk'_name]; rfl
  · obtain ⟨path, full, fi, parent, m, he, hid, hp, _⟩ := hD.enum_at h1
    rw [h2] at hp; subst hp
    obtain ⟨qpath, qfull, qpar, qm, hq⟩ := parent_visited (fi := fi) he (q := q) ⟨rfl, rfl⟩
    obtain ⟨_, hfull, _⟩ := hD.in_enum hq he
    obtain ⟨md, g1, g2, g3⟩ := of_ hq
    refine ⟨md, g1, by rw [g2, hid]; rfl, ?_⟩
    rw [g3, hid, qualified_eq, hfull, Ident.mk'_name]; rfl
  · obtain ⟨path, full, fi, parent, m, _, he, _, _, hE⟩ := hD.extension_at h1
    have hp := hE.parent
    rw [h2] at hp; subst hp
    obtain ⟨qpath, qfull, qpar, qm, hq⟩ := parent_visited (fi := fi) he (q := q) ⟨rfl, rfl⟩
    obtain ⟨_, hfull, _⟩ := hD.in_extension hq he
    obtain ⟨md, g1, g2, g3⟩ := of_ hq
    refine ⟨md, g1, by rw [g2, hE.id]; rfl, ?_⟩
    rw [g3, hE.id, qualified_eq, hfull, Ident.mk'_name]; rfl

/-- **C71, packages.** `package_name` of a message is the package of its file. -/
theorem C71_package (h : Hist env acc p) {k : Nat} {md : MsgD} (hk : p.messages[k]? = some md) :
    ∃ f, acc[md.id.file]? = some f ∧ p.messagePackage k = .ok f.package := by
  have hD := h.desc hsr
  obtain ⟨x, y, ⟨f, fd, s, h1, h2, _⟩, _⟩ := hD.message_stands hk
  obtain ⟨_, fd', g1, _, g3, _, g5⟩ := hD.file_full h1
  rw [h2] at g1; cases g1
  refine ⟨f, h1, ?_⟩
  simp only [Pool.messagePackage, bind_ok, getR_ok]
  exact ⟨md, hk, fd, h2, by rw [← g3, (strip_names g5).2.1]⟩

/-! ### C72 -/

/-- **C72, the fields of a oneof.** Oneof `i` of a message is the declaration `i`; `fields` lists,
ascending and without repetition, exactly the fields declared with that `oneof_index`, which are
those whose `containing_oneof` is `i`. -/
theorem C72_fields (h : Hist env acc p) {k : Nat} {md : MsgD} (hk : p.messages[k]? = some md) :
    ∃ m y, Stands acc p md.id (.message m) (.message y) ∧ md.oneofs.length = m.oneofs.length ∧
      ∀ (i : Nat), i < m.oneofs.length → ∃ fs, p.oneofFields k i = .ok fs ∧ fs.Pairwise (· < ·) ∧
        (∀ j : Nat, j ∈ fs ↔ ∃ f, m.fields[j]? = some f ∧ f.oneofIndex = some (i : Int)) ∧
        ∀ j : Nat, j ∈ fs ↔ ∃ d, md.fields[j]? = some d ∧ d.oneof = some i := by
  have hD := h.desc hsr
  obtain ⟨m, y, hv, hst, _⟩ := hD.message_full hk
  obtain ⟨_, _, _, _, m', hv', hid, hl, hok, hf⟩ := hD.fields_of hk
  obtain ⟨_, _, _, _, rfl⟩ := hD.one_message hv hv'
  obtain ⟨_, ⟨md', g1, _, _, _, g4, _⟩, _⟩ := hD.evs _ hv
  rw [hk] at g1; cases g1
  refine ⟨m, y, hst, g4, fun i hi => ?_⟩
  have ho := List.getElem?_eq_getElem (show i < md.oneofs.length by omega)
  obtain ⟨o1, o2⟩ := hok.oneofs i _ ho
  refine ⟨_, by simp only [Pool.oneofFields, bind_ok, getR_ok]; exact ⟨md, hk, _, ho, rfl⟩, o1, ?_, o2⟩
  intro j
  rw [o2]
  constructor
  · rintro ⟨d, hd, hdo⟩
    have hlt := getElem?_lt hd
    have hfj := List.getElem?_eq_getElem (show j < m.fields.length by omega)
    obtain ⟨fd, d', _, k2, _, k4⟩ := hf j _ hfj
    rw [hd] at k2; cases k2
    exact ⟨_, hfj, by rw [← k4.oneof, hdo]; rfl⟩
  · rintro ⟨f, hfj, hfo⟩
    obtain ⟨fd, d, _, k2, _, k4⟩ := hf j _ hfj
    refine ⟨d, k2, ?_⟩
    have := k4.oneof
    rw [hfo, Option.map_eq_some_iff] at this
    obtain ⟨a, ha, hai⟩ := this
    rw [ha]
    have : (a : Int) = i := hai
    congr 1; omega

end

theorem allR_ok {α : Type} {g : α → Res Bool} {t : α → Bool} : ∀ {l : List α},
    (∀ a ∈ l, g a = .ok (t a)) → allR g l = .ok (l.all t)
  | [], _ => rfl
  | a :: l, h => by
    have ih := allR_ok (g := g) (t := t) fun b hb => h b (List.mem_cons_of_mem _ hb)
    simp only [allR, h a (List.mem_cons_self ..), List.all_cons]
    cases t a
    · rfl
    · simpa using ih

section
variable {env : Env} (hsr : SearchOk env.search) {acc : List FileP} {p : Pool}
include hsr

/-- **C72, synthetic oneofs.** `is_synthetic` never panics and holds exactly for the oneofs with one
field, declared `proto3_optional`. -/
theorem C72_synthetic (h : Hist env acc p) {k : Nat} {md : MsgD} (hk : p.messages[k]? = some md) :
    ∃ m y, Stands acc p md.id (.message m) (.message y) ∧ md.oneofs.length = m.oneofs.length ∧
      ∀ (i : Nat), i < m.oneofs.length → ∃ b, p.isSynthetic k i = .ok b ∧
        (b = true ↔ ∃ j : Nat, ∃ f, m.fields[j]? = some f ∧ f.oneofIndex = some (i : Int) ∧
          f.proto3Optional = true ∧
          ∀ (j' : Nat) f', m.fields[j']? = some f' → f'.oneofIndex = some (i : Int) → j' = j) := by
  have hD := h.desc hsr
  obtain ⟨m, y, hst, hl, hfs⟩ := C72_fields hsr h hk
  obtain ⟨m', y', hv, hst', hy', _, hs⟩ := hD.message_full hk
  have hm : m' = m ∧ y' = y := by
    obtain ⟨f, fd, s, a1, a2, a3, a4, _⟩ := hst
    obtain ⟨f', fd', s', b1, b2, b3, b4, _⟩ := hst'
    rw [a1] at b1; cases b1
    rw [a2] at b2; cases b2
    have e1 := a3.found.unique b3.found rfl
    have e2 := a4.found.unique b4.found rfl
    cases e1; cases e2; exact ⟨rfl, rfl⟩
  obtain ⟨rfl, rfl⟩ := hm
  refine ⟨m', y', hst, hl, fun i hi => ?_⟩
  obtain ⟨fs, h1, h2, h3, h4⟩ := hfs i hi
  obtain ⟨_, _, _, _, hopt, _⟩ := stripMsg_names hs
  -- the pool's copy of a field says the same about `proto3_optional`
  have hproto : ∀ (j : Nat) f, m'.fields[j]? = some f → ∃ y, p.fieldProto k j = .ok y ∧
      y.proto3Optional = f.proto3Optional := by
    intro j f hf
    obtain ⟨_, _, _, _, m2, hv2, _, _, _, hfo⟩ := hD.fields_of hk
    obtain ⟨_, _, _, _, rfl⟩ := hD.one_message hv hv2
    obtain ⟨_, d, _, hd, _⟩ := hfo j f hf
    obtain ⟨x, y, ⟨g, gd, s, c1, c2, c3, c4, c5, _⟩, e1, e2, hy⟩ := hD.field_stands hk hd
    refine ⟨y, hy, ?_⟩
    obtain ⟨q, j', mm, hq, hmm, hj⟩ := c4.found
    rw [e2] at hq
    obtain ⟨rfl, _, rfl⟩ := append2_inj hq
    obtain ⟨g', gd', s', b1, b2, b3, b4, _⟩ := hst
    rw [e1, b2] at c2; cases c2
    rw [show findMsg gd.prost _ = some y' from b4.found.2] at hmm
    cases hmm
    have := congrArg (fun l => l[j]?) hopt
    simp only [List.getElem?_map] at this
    rw [hf] at this
    rw [show y'.fields[j]? = some y from by simpa [unwrapR] using hj] at this
    simpa using this
  by_cases hlen : fs.length = 1
  · match fs, hlen with
    | [j], _ =>
      obtain ⟨f, hf, hfo⟩ := (h3 j).1 (List.mem_singleton.2 rfl)
      obtain ⟨y, hy, hyo⟩ := hproto j f hf
      refine ⟨f.proto3Optional, ?_, ?_⟩
      · simp only [Pool.isSynthetic, bind_ok]
        refine ⟨_, h1, ?_⟩
        rw [if_pos (show [j].length = 1 from rfl)]
        rw [allR_ok (t := fun _ => f.proto3Optional) (fun a ha => by
          cases List.mem_singleton.1 ha
          rw [hy, ← hyo]; rfl)]
        simp
      · constructor
        · intro hb
          exact ⟨j, f, hf, hfo, hb, fun j' f' hf' hfo' => List.mem_singleton.1 ((h3 j').2 ⟨f', hf', hfo'⟩)⟩
        · rintro ⟨j', f', hf', hfo', hb, _⟩
          cases List.mem_singleton.1 ((h3 j').2 ⟨f', hf', hfo'⟩)
          rw [hf] at hf'; cases hf'
          exact hb
  · refine ⟨false, ?_, ?_⟩
    · simp only [Pool.isSynthetic, bind_ok]
      exact ⟨_, h1, by rw [if_neg hlen]⟩
    · simp only [Bool.false_eq_true, false_iff]
      rintro ⟨j, f, hf, hfo, _, hu⟩
      apply hlen
      have hmem := (h3 j).2 ⟨f, hf, hfo⟩
      have hall : ∀ a ∈ fs, a = j := fun a ha => by
        obtain ⟨f', hf', hfo'⟩ := (h3 a).1 ha
        exact hu a f' hf' hfo'
      match fs, h2, hmem, hall with
      | [a], _, _, _ => rfl
      | a :: b :: r, h2, _, hall =>
        have e1 := hall a (by simp)
        have e2 := hall b (by simp)
        simp only [List.pairwise_cons, List.mem_cons] at h2
        have := h2.1 b (Or.inl rfl)
        omega

/-! ### C73 -/

omit hsr in
theorem asU32_small {n : Int} (h : 0 ≤ n) (h' : n < 2 ^ 31) : (asU32 n : Int) = n := by
  unfold asU32; omega

/-- **C73, messages.** For a message whose declared ranges have no negative ends, `reserved_ranges` and
`extension_ranges` list the declared ranges in order; no field and no extension of the message has a
number in a listed reserved range, and an extension declared with an `extendee` has its number in a
listed extension range. (For ranges with negative ends see `C73_false`.) -/
theorem C73_message_partial (h : Hist env acc p) {k : Nat} {md : MsgD}
    (hk : p.messages[k]? = some md) :
    ∃ m y, Stands acc p md.id (.message m) (.message y) ∧
      ((∀ r ∈ m.reserved ++ m.extRanges, 0 ≤ r.1 ∧ r.1 < 2 ^ 31 ∧ 0 ≤ r.2 ∧ r.2 < 2 ^ 31) →
      ∃ rs xs, p.reservedRanges k = .ok rs ∧ p.extensionRanges k = .ok xs ∧
        rs.map (fun r => ((r.1 : Int), (r.2 : Int))) = m.reserved ∧
        xs.map (fun r => ((r.1 : Int), (r.2 : Int))) = m.extRanges ∧
        (∀ d ∈ md.fields, ∀ r ∈ rs, ¬ (r.1 ≤ d.number ∧ d.number < r.2)) ∧
        (∀ d ∈ p.extensions, d.extendee = k → ∀ r ∈ rs, ¬ (r.1 ≤ d.number ∧ d.number < r.2)) ∧
        ∀ (e : Nat) d x z, p.extensions[e]? = some d → d.extendee = k →
          Stands acc p d.id (.extension x) z → x.extendee ≠ none →
          ∃ r ∈ xs, r.1 ≤ d.number ∧ d.number < r.2) := by
  have hD := h.desc hsr
  obtain ⟨m, y, hv, hst, _, hraw, hs⟩ := hD.message_full hk
  refine ⟨m, y, hst, fun hr => ?_⟩
  obtain ⟨_, _, _, _, _, hres, hext⟩ := stripMsg_names hs
  have back : ∀ l : List (Int × Int), (∀ r ∈ l, 0 ≤ r.1 ∧ r.1 < 2 ^ 31 ∧ 0 ≤ r.2 ∧ r.2 < 2 ^ 31) →
      (l.map fun r => (asU32 r.1, asU32 r.2)).map (fun r => ((r.1 : Int), (r.2 : Int))) = l := by
    intro l hl
    rw [List.map_map]
    conv => rhs; rw [← List.map_id l]
    refine List.map_congr_left fun r hr => ?_
    obtain ⟨a, b, c, d⟩ := hl r hr
    show ((asU32 r.1 : Int), (asU32 r.2 : Int)) = r
    rw [asU32_small a b, asU32_small c d]
  have hr1 := back m.reserved fun r hr' => hr r (List.mem_append_left _ hr')
  have hr2 := back m.extRanges fun r hr' => hr r (List.mem_append_right _ hr')
  have unmap : ∀ (l : List (Nat × Nat)) (l' : List (Int × Int)) (r : Nat × Nat),
      l.map (fun r => ((r.1 : Int), (r.2 : Int))) = l' → r ∈ l → ((r.1 : Int), (r.2 : Int)) ∈ l' := by
    intro l l' r e hr; rw [← e]; exact List.mem_map_of_mem hr
  refine ⟨_, _, by simp only [Pool.reservedRanges, bind_ok]; exact ⟨y, hraw, rfl⟩,
    by simp only [Pool.extensionRanges, bind_ok]; exact ⟨y, hraw, rfl⟩,
    by rw [hres]; exact hr1, by rw [hext]; exact hr2, ?_, ?_, ?_⟩
  · intro d hd r hrr
    rw [hres] at hrr
    have hmem := unmap _ _ r hr1 hrr
    obtain ⟨j, hj⟩ := List.getElem?_of_mem hd
    obtain ⟨_, _, _, _, m2, hv2, _, hl, _, hfo⟩ := hD.fields_of hk
    obtain ⟨_, _, _, _, rfl⟩ := hD.one_message hv hv2
    have hlt := getElem?_lt hj
    obtain ⟨_, d', _, hd', hN, hI⟩ := hfo j _ (List.getElem?_eq_getElem (by omega))
    rw [hj] at hd'; cases hd'
    obtain ⟨md', x, z, k1, k2, k3⟩ := hD.number_ok hN
    rw [hk] at k1; cases k1
    have hx : x = m := by
      obtain ⟨f, fd, s, a1, a2, a3, a4, _⟩ := hst
      obtain ⟨f', fd', s', b1, b2, b3, b4, _⟩ := k2
      rw [a1] at b1; cases b1
      have e1 := a3.found.unique b3.found rfl
      cases e1; rfl
    subst hx
    have := k3.reserved _ hmem
    have hn := hI.number
    simp only at this
    omega
  · intro d hd he r hrr
    rw [hres] at hrr
    have hmem := unmap _ _ r hr1 hrr
    obtain ⟨j, hj⟩ := List.getElem?_of_mem hd
    obtain ⟨path, full, fi, parent, f, fd, _, _, hN, hE⟩ := hD.extension_at hj
    rw [he] at hN
    obtain ⟨md', x, z, k1, k2, k3⟩ := hD.number_ok hN
    rw [hk] at k1; cases k1
    have hx : x = m := by
      obtain ⟨f, fd, s, a1, a2, a3, a4, _⟩ := hst
      obtain ⟨f', fd', s', b1, b2, b3, b4, _⟩ := k2
      rw [a1] at b1; cases b1
      have e1 := a3.found.unique b3.found rfl
      cases e1; rfl
    subst hx
    have := k3.reserved _ hmem
    have hn := hE.number
    simp only at this
    omega
  · intro e d x z hd he hxs hne
    obtain ⟨path, full, fi, parent, f, fd, hvE, _, hN, hE⟩ := hD.extension_at hd
    obtain ⟨w, hw⟩ := hD.stands hvE rfl hE.id
    have hx : x = f := by
      obtain ⟨g, fd, s, a1, a2, a3, a4, _⟩ := hxs
      obtain ⟨g', fd', s', b1, b2, b3, b4, _⟩ := hw
      rw [a1] at b1; cases b1
      have e1 := a3.found.unique b3.found rfl
      cases e1; rfl
    subst hx
    rw [he] at hN
    obtain ⟨md', x', z', k1, k2, k3⟩ := hD.number_ok hN
    rw [hk] at k1; cases k1
    have hx : x' = m := by
      obtain ⟨f, fd, s, a1, a2, a3, a4, _⟩ := hst
      obtain ⟨f', fd', s', b1, b2, b3, b4, _⟩ := k2
      rw [a1] at b1; cases b1
      have e1 := a3.found.unique b3.found rfl
      cases e1; rfl
    subst hx
    have := k3.ext
    rw [Option.isSome_iff_ne_none.mpr hne] at this
    obtain ⟨r, hr', hir⟩ := List.any_eq_true.mp this.symm
    have hir : r.1 ≤ x.number ∧ x.number < r.2 := by simpa [inRange] using hir
    obtain ⟨a, b, c, d'⟩ := hr r (List.mem_append_right _ hr')
    refine ⟨(asU32 r.1, asU32 r.2), by rw [hext]; exact List.mem_map_of_mem hr', ?_⟩
    have e1 := asU32_small a b
    have e2 := asU32_small c d'
    have hn := hE.number
    simp only
    omega

/-- **C73, enums.** `reserved_ranges` of an enum lists the declared ranges, and no value has its number in
one (both ends count). -/
theorem C73_enum (h : Hist env acc p) {k : Nat} {ed : EnumD} (hk : p.enums[k]? = some ed) :
    ∃ x, Stands acc p ed.id (.enum x) (.enum x) ∧ p.enumReservedRanges k = .ok x.reserved ∧
      ∀ d ∈ ed.values, ∀ r ∈ x.reserved, ¬ (r.1 ≤ d.number ∧ d.number ≤ r.2) := by
  have hD := h.desc hsr
  obtain ⟨x, hst, _, _, hl, _, hv⟩ := hD.values_of hk
  refine ⟨x, hst, ?_, ?_⟩
  · obtain ⟨f, fd, s, a1, a2, a3, a4, _⟩ := hst
    obtain ⟨_, _, _, _, hp, _⟩ := hD.file_inv a2
    simp only [Pool.enumReservedRanges, bind_ok, getR_ok]
    exact ⟨ed, hk, fd, a2, x, by rw [← hp]; rw [show findEnum fd.prost _ = some x from a4.found]; rfl, rfl⟩
  · intro d hd r hr
    obtain ⟨j, hj⟩ := List.getElem?_of_mem hd
    have hlt := getElem?_lt hj
    obtain ⟨⟨d', h1, _, h3⟩, h4⟩ := hv j _ (List.getElem?_eq_getElem (by omega))
    rw [hj] at h1; cases h1
    rw [h3]; exact h4 r hr

/-! ### C74 -/

/-- **C74, extensions by full name.** As long as no addition failed, `get_extension_by_full_name` never
panics and returns exactly the extension of that message with that full name. -/
theorem C74_full_name_partial (h : Accepts env acc p) {k : Nat} (hk : k < p.messages.length)
    (n : Name) : ∃ r, p.extensionByFullName? k n = .ok r ∧
      ∀ e, r = some e ↔ ∃ d, p.extensions[e]? = some d ∧ d.extendee = k ∧ d.id.fullName = n := by
  have hm := List.getElem?_eq_getElem hk
  obtain ⟨_, hx⟩ := h.exts hsr k _ hm
  obtain ⟨r, h1, h2, h3⟩ := findExtension_spec (p := p) (t := fun e => e.id.fullName == n)
    (l := (p.messages[k]).extensions) (fun i hi => by
      obtain ⟨d, hd, _⟩ := (hx i).1 hi
      exact getElem?_lt hd)
  have hit : ∀ e, r = some e → ∃ d, p.extensions[e]? = some d ∧ d.extendee = k ∧ d.id.fullName = n := by
    intro e he
    obtain ⟨g1, d, g2, g3⟩ := h2 e he
    obtain ⟨d', g4, g5⟩ := (hx e).1 g1
    rw [g2] at g4; cases g4
    exact ⟨d, g2, g5, by simpa using g3⟩
  refine ⟨r, ?_, fun e => ⟨hit e, ?_⟩⟩
  · simp only [Pool.extensionByFullName?, getR, hm]; exact h1
  · rintro ⟨d, g1, g2, g3⟩
    cases hr : r with
    | none =>
      have := h3 hr e ((hx e).2 ⟨d, g1, g2⟩) d g1
      simp [g3] at this
    | some e' =>
      obtain ⟨d', k1, k2, k3⟩ := hit e' hr
      have e1 := (C18_extension hsr h.hist ('.' :: n) e).2 ⟨d, g1, g3⟩
      have e2 := (C18_extension hsr h.hist ('.' :: n) e').2 ⟨d', k1, k3⟩
      rw [e1] at e2; cases e2; rfl

/-- **C74, extensions by JSON name.** The JSON name of an extension is its full name in brackets, and
`get_extension_by_json_name` returns exactly the extension of that message with that name. -/
theorem C74_json_name_partial (h : Accepts env acc p) {k : Nat} (hk : k < p.messages.length)
    (n : Name) : ∃ r, p.extensionByJson? k n = .ok r ∧
      ∀ e, r = some e ↔ ∃ d, p.extensions[e]? = some d ∧ d.extendee = k ∧
        '[' :: d.id.fullName ++ [']'] = n := by
  have hm := List.getElem?_eq_getElem hk
  obtain ⟨_, hx⟩ := h.exts hsr k _ hm
  obtain ⟨r, h1, h2, h3⟩ := findExtension_spec (p := p) (t := fun e => e.jsonName == n)
    (l := (p.messages[k]).extensions) (fun i hi => by
      obtain ⟨d, hd, _⟩ := (hx i).1 hi
      exact getElem?_lt hd)
  have js : ∀ (e : Nat) d, p.extensions[e]? = some d → d.jsonName = '[' :: d.id.fullName ++ [']'] := by
    intro e d hd
    obtain ⟨path, full, fi, parent, f, fd, _, _, _, hE⟩ := (h.hist.desc hsr).extension_at hd
    rw [hE.json, hE.id]; rfl
  have hit : ∀ e, r = some e → ∃ d, p.extensions[e]? = some d ∧ d.extendee = k ∧
      '[' :: d.id.fullName ++ [']'] = n := by
    intro e he
    obtain ⟨g1, d, g2, g3⟩ := h2 e he
    obtain ⟨d', g4, g5⟩ := (hx e).1 g1
    rw [g2] at g4; cases g4
    exact ⟨d, g2, g5, by rw [← js e d g2]; simpa using g3⟩
  refine ⟨r, ?_, fun e => ⟨hit e, ?_⟩⟩
  · simp only [Pool.extensionByJson?, getR, hm]; exact h1
  · rintro ⟨d, g1, g2, g3⟩
    cases hr : r with
    | none =>
      have := h3 hr e ((hx e).2 ⟨d, g1, g2⟩) d g1
      rw [js e d g1, g3] at this
      simp at this
    | some e' =>
      obtain ⟨d', k1, k2, k3⟩ := hit e' hr
      have hn : d.id.fullName = d'.id.fullName := by
        rw [← k3] at g3
        simpa using g3
      have e1 := (C18_extension hsr h.hist ('.' :: d.id.fullName) e).2 ⟨d, g1, rfl⟩
      have e2 := (C18_extension hsr h.hist ('.' :: d.id.fullName) e').2 ⟨d', k1, hn.symm⟩
      rw [e1] at e2; cases e2; rfl

end

/-! ### Examples and counterexamples -/

/-- A file with something to list. -/
def fileLists : FileP where
  name := nm "l.proto"
  package := nm "l"
  syn := some (nm "proto3")
  messages := [
    { name := nm "A"
      nested := [{ name := nm "C", reserved := [(5, 9)], extRanges := [] }]
      enums := [{ name := nm "E", values := [⟨nm "E0", 0⟩], reserved := [(3, 4)] }]
      oneofs := [⟨nm "o"⟩, ⟨nm "_s"⟩]
      fields := [
        { name := nm "a", number := 1, ty := .int32, oneofIndex := some 0 },
        { name := nm "s", number := 2, ty := .int32, oneofIndex := some 1, proto3Optional := true },
        { name := nm "b", number := 3, ty := .int32, oneofIndex := some 0 }] },
    { name := nm "B" }]
  enums := [{ name := nm "F", values := [⟨nm "F0", 0⟩] }]
  services := [{ name := nm "S" }]

def listsOk (p : Pool) : Bool :=
  (match p.fileMessages 0 with | .ok l => l == [0, 2] | _ => false) &&
  (match p.fileEnums 0 with | .ok l => l.length == 1 | _ => false) &&
  (match p.fileServices 0 with | .ok l => l == [0] | _ => false) &&
  (match p.childMessages 0 with | .ok l => l == [1] | _ => false) &&
  (match p.childEnums 0 with | .ok l => l.length == 1 | _ => false) &&
  (match p.oneofFields 0 0 with | .ok l => l == [0, 2] | _ => false) &&
  (match p.isSynthetic 0 0 with | .ok b => !b | _ => false) &&
  (match p.isSynthetic 0 1 with | .ok b => b | _ => false) &&
  (match p.reservedRanges 1 with | .ok l => l == [(5, 9)] | _ => false)

/-- The listings of a file with nested declarations and two oneofs, one of them synthetic. -/
example : ∃ acc p, Hist env0 acc p ∧ listsOk p = true :=
  run_ex [[fileLists]] (fun _ p => listsOk p) (by decide +kernel)

/-- A message that leaves a range to extensions, and two that extend it. -/
def fileExtends : FileP where
  name := nm "x.proto"
  package := nm "x"
  messages := [{ name := nm "A", extRanges := [(100, 200)], exts := [
    { name := nm "n", number := 101, ty := .int32, extendee := some (nm ".x.A") }] }]
  exts := [{ name := nm "e", number := 100, ty := .int32, extendee := some (nm "A") }]

def extendsOk (p : Pool) : Bool :=
  (match p.fileExtensions 0, p.childExtensions 0 with
    | .ok [a], .ok [b] => a != b
    | _, _ => false) &&
  (match p.extensionRanges 0 with | .ok l => l == [(100, 200)] | _ => false) &&
  (match p.extensionByJson? 0 (nm "[x.e]"), p.extensionByFullName? 0 (nm "x.e") with
    | .ok (some a), .ok (some b) => a == b
    | _, _ => false) &&
  (match p.extensionByJson? 0 (nm "[e]") with | .ok none => true | _ => false)

example : ∃ acc p, Hist env0 acc p ∧ extendsOk p = true :=
  run_ex [[fileExtends]] (fun _ p => extendsOk p) (by decide +kernel)

/-- Two files, one importing the other publicly. -/
example : ∃ acc p, Hist env0 acc p ∧ (match p.fileDeps 1, p.filePublicDeps 1 with
    | .ok [0], .ok [0] => true
    | _, _ => false) = true :=
  run_ex [[fileLists, { name := nm "m.proto", deps := [nm "l.proto"], publicDeps := [0] }]] (fun _ p =>
    match p.fileDeps 1, p.filePublicDeps 1 with
    | .ok [0], .ok [0] => true
    | _, _ => false) (by decide +kernel)

/-- A message whose name starts with a dot, alone. -/
def fileDotOnly : FileP where
  name := nm "dot.proto"
  messages := [{ name := nm ".M" }]

/-- **C70 is false for names that start with a dot.** An accepted file with the messages `.M` and `M` lists
`M` twice and `.M` never; with `.M` alone, `messages()` panics. -/
theorem C70_false : (∃ acc p, Hist env0 acc p ∧ (p.messages.length == 2 &&
      (match p.fileMessages 0 with | .ok l => l == [1, 1] | .error _ => false)) = true) ∧
    ∃ acc p, Hist env0 acc p ∧ (p.messages.length == 1 &&
      (match p.fileMessages 0 with | .ok _ => false | .error _ => true)) = true :=
  ⟨run_ex [[fileDot]] (fun _ p => p.messages.length == 2 &&
      (match p.fileMessages 0 with | .ok l => l == [1, 1] | .error _ => false)) (by decide +kernel),
   run_ex [[fileDotOnly]] (fun _ p => p.messages.length == 1 &&
      (match p.fileMessages 0 with | .ok _ => false | .error _ => true)) (by decide +kernel)⟩

/-- Ranges with a negative end. -/
def fileNegative : FileP where
  name := nm "neg.proto"
  messages := [{ name := nm "M", reserved := [(1, -1)], extRanges := [(-5, 10)], fields := [
    { name := nm "f", number := 50, ty := .int32 }] }]
  exts := [{ name := nm "e", number := 3, ty := .int32, extendee := some (nm "M") }]

def negativeOk (p : Pool) : Bool :=
  (match p.reservedRanges 0 with | .ok l => l == [(1, 4294967295)] | _ => false) &&
  (match p.extensionRanges 0 with | .ok l => l == [(4294967291, 10)] | _ => false) &&
  p.messages.map (fun m => m.fields.map (·.number)) == [[50]] &&
  p.extensions.map (fun e => (e.number, e.extendee)) == [(3, 0)]

/-- **C73 is false for ranges with negative ends.** They are accepted as declared but listed as `u32`: the
field 50 lies inside the listed reserved range `1..4294967295`, and the extension 3 lies in no listed
extension range, the only one being `4294967291..10`. -/
theorem C73_false : ∃ acc p, Hist env0 acc p ∧ negativeOk p = true :=
  run_ex [[fileNegative]] (fun _ p => negativeOk p) (by decide +kernel)

end Verif.Props
