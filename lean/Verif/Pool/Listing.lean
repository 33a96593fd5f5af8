import Verif.Pool.View
import Verif.Pool.Located
/-!
The listings of files, messages and oneofs: model of the remaining accessors of
`descriptor/api.rs`, and how a listing by name relates to the declarations.
-/
set_option autoImplicit false
namespace Verif.Pool
open Verif.Wire Verif.Dyn

/-- `FileDescriptor::name` (api.rs:564-566). -/
def Pool.fileName (p : Pool) (i : Nat) : Res Name := do
  let f ← p.fileProto i
  .ok f.name

/-- `FileDescriptor::package_name` (api.rs:571-573). -/
def Pool.filePackage (p : Pool) (i : Nat) : Res Name := do
  let f ← p.fileProto i
  .ok f.package

/-- `FileDescriptor::syntax` (api.rs:581-583). -/
def Pool.fileSyntax (p : Pool) (i : Nat) : Res Syn := do
  let f ← getR p.files i
  .ok f.syn

/-- `MessageDescriptor::package_name` (api.rs:739-741), read off the pool's own copy of the
file. -/
def Pool.messagePackage (p : Pool) (k : Nat) : Res Name := do
  let m ← getR p.messages k
  let f ← getR p.files m.id.file
  .ok f.raw.package

/-- `MessageDescriptor::child_messages` (api.rs:802-810). -/
def Pool.childMessages (p : Pool) (k : Nat) : Res (List Nat) := do
  let m ← getR p.messages k
  let mp ← p.messageProto k
  mapR (fun n => unwrapR (p.messageByName (pushScope m.id.fullName n.name))) mp.nested

/-- `MessageDescriptor::child_enums` (api.rs:813-821). -/
def Pool.childEnums (p : Pool) (k : Nat) : Res (List Nat) := do
  let m ← getR p.messages k
  let mp ← p.messageProto k
  mapR (fun n => unwrapR (p.enumByName (pushScope m.id.fullName n.name))) mp.enums

/-- `MessageDescriptor::child_extensions` (api.rs:827-835). -/
def Pool.childExtensions (p : Pool) (k : Nat) : Res (List Nat) := do
  let m ← getR p.messages k
  let mp ← p.messageProto k
  mapR (fun n => unwrapR (p.extensionByName (pushScope m.id.fullName n.name))) mp.exts

/-- `OneofDescriptor::fields` (api.rs:1659-1664), for oneof `i` of message `k`. -/
def Pool.oneofFields (p : Pool) (k i : Nat) : Res (List Nat) := do
  let m ← getR p.messages k
  let o ← getR m.oneofs i
  .ok o.fields

/-- `iter.all(f)` where `f` may panic. -/
def allR {α : Type} (f : α → Res Bool) : List α → Res Bool
  | [] => .ok true
  | a :: r =>
    match f a with
    | .error p => .error p
    | .ok true => allR f r
    | .ok false => .ok false

/-- `OneofDescriptor::is_synthetic` (api.rs:1669-1674). -/
def Pool.isSynthetic (p : Pool) (k i : Nat) : Res Bool := do
  let fs ← p.oneofFields k i
  if fs.length = 1 then
    allR (fun j => do
      let f ← p.fieldProto k j
      .ok f.proto3Optional) fs
  else .ok false

/-- The message a descriptor was made from, in the pool's own copy of its file
(`MessageDescriptor::raw`, api.rs:966-968). -/
def Pool.rawMessage (p : Pool) (k : Nat) : Res MsgP := do
  let m ← getR p.messages k
  let f ← getR p.files m.id.file
  unwrapR (findMsg f.raw m.id.path)

/-- `MessageDescriptor::reserved_ranges` (api.rs:927-932): both ends `as u32`. -/
def Pool.reservedRanges (p : Pool) (k : Nat) : Res (List (Nat × Nat)) := do
  let m ← p.rawMessage k
  .ok (m.reserved.map fun r => (asU32 r.1, asU32 r.2))

/-- `MessageDescriptor::extension_ranges` (api.rs:940-945): both ends `as u32`. -/
def Pool.extensionRanges (p : Pool) (k : Nat) : Res (List (Nat × Nat)) := do
  let m ← p.rawMessage k
  .ok (m.extRanges.map fun r => (asU32 r.1, asU32 r.2))

/-- `EnumDescriptor::reserved_ranges` (api.rs:1504-1509): inclusive, `i32`. -/
def Pool.enumReservedRanges (p : Pool) (k : Nat) : Res (List (Int × Int)) := do
  let e ← getR p.enums k
  let f ← getR p.files e.id.file
  let ep ← unwrapR (findEnum f.raw e.id.path)
  .ok ep.reserved

/-- `MessageDescriptor::get_extension_by_json_name` (api.rs:958-960). -/
def Pool.extensionByJson? (p : Pool) (k : Nat) (n : Name) : Res (Option Nat) := do
  let m ← getR p.messages k
  findExtension p (fun e => e.jsonName == n) m.extensions

/-! ### Listing by name -/

/-- A listing that looks every declared name up. -/
theorem listing {α : Type} {xs ys : List α} {nm : α → Name} {look : Name → Option Nat} {s : Name}
    {Q : Nat → Nat → Prop} (hn : ys.map nm = xs.map nm)
    (hit : ∀ (j : Nat) x, xs[j]? = some x → ∃ k, look (pushScope s (nm x)) = some k ∧ Q j k) :
    ∃ ks, mapR (fun y => unwrapR (look (pushScope s (nm y)))) ys = .ok ks ∧
      ks.length = xs.length ∧ (∀ (j : Nat) k, ks[j]? = some k → Q j k) ∧
      ∀ k, k ∈ ks ↔ ∃ x ∈ xs, look (pushScope s (nm x)) = some k := by
  have hl : ys.length = xs.length := by simpa using congrArg List.length hn
  have hx : ∀ (j : Nat) y, ys[j]? = some y → ∃ x, xs[j]? = some x ∧ nm x = nm y := by
    intro j y hy
    exact get_of_map hn.symm hy
  obtain ⟨ks, hks⟩ := mapR_total (f := fun y => unwrapR (look (pushScope s (nm y)))) (l := ys)
    (fun y hy => by
      obtain ⟨j, hj⟩ := List.getElem?_of_mem hy
      obtain ⟨x, h1, h2⟩ := hx j y hj
      obtain ⟨k, h3, _⟩ := hit j x h1
      exact ⟨k, by rw [← h2, h3]; rfl⟩)
  obtain ⟨g1, g2⟩ := mapR_ok.1 hks
  have at_ : ∀ (j : Nat) x k, xs[j]? = some x → look (pushScope s (nm x)) = some k → ks[j]? = some k := by
    intro j x k h1 h2
    have hlt := getElem?_lt h1
    obtain ⟨k', h3, h4⟩ := g2 j _ (List.getElem?_eq_getElem (by omega))
    obtain ⟨x', h5, h6⟩ := hx j _ (List.getElem?_eq_getElem (by omega : j < ys.length))
    rw [h1] at h5; cases h5
    rw [← h6, h2] at h4
    cases h4
    exact h3
  have of_ : ∀ (j : Nat) k, ks[j]? = some k → ∃ x, xs[j]? = some x ∧ look (pushScope s (nm x)) = some k := by
    intro j k hk
    have hlt := getElem?_lt hk
    have h1 := List.getElem?_eq_getElem (show j < xs.length by omega)
    obtain ⟨k', h2, _⟩ := hit j _ h1
    have := at_ j _ _ h1 h2
    rw [hk] at this; cases this
    exact ⟨_, h1, h2⟩
  refine ⟨ks, hks, by omega, fun j k hk => ?_, fun k => ⟨fun hk => ?_, ?_⟩⟩
  · obtain ⟨x, h1, h2⟩ := of_ j k hk
    obtain ⟨k', h3, h4⟩ := hit j x h1
    rw [h2] at h3; cases h3
    exact h4
  · obtain ⟨j, hj⟩ := List.getElem?_of_mem hk
    obtain ⟨x, h1, h2⟩ := of_ j k hj
    exact ⟨x, List.mem_of_getElem? h1, h2⟩
  · rintro ⟨x, hx, hk⟩
    obtain ⟨j, hj⟩ := List.getElem?_of_mem hx
    exact List.mem_of_getElem? (at_ j x k hj hk)

/-- Filling in keeps the names. -/
theorem strip_names {a b : FileP} (h : stripFile a = stripFile b) : a.name = b.name ∧
    a.package = b.package ∧ a.deps = b.deps ∧ a.publicDeps = b.publicDeps ∧
    a.messages.map (·.name) = b.messages.map (·.name) ∧ a.enums.map (·.name) = b.enums.map (·.name) ∧
    a.services.map (·.name) = b.services.map (·.name) ∧ a.exts.map (·.name) = b.exts.map (·.name) := by
  rw [stripFile_eq, stripFile_eq] at h
  simp only [FileP.mk.injEq] at h
  obtain ⟨h1, h2, h3, h4, _, h5, h6, h7, h8, _⟩ := h
  refine ⟨h1, h2, h3, h4, ?_, by rw [h6], ?_, ?_⟩
  · have := congrArg (List.map MsgP.name) h5
    simpa only [List.map_map, Function.comp_def, stripMsg_name] using this
  · have := congrArg (List.map ServiceP.name) h7
    simpa only [List.map_map, Function.comp_def, stripService] using this
  · have := congrArg (List.map FieldP.name) h8
    simpa only [List.map_map, Function.comp_def, stripField] using this

theorem stripMsg_names {a b : MsgP} (h : stripMsg a = stripMsg b) : a.name = b.name ∧
    a.nested.map (·.name) = b.nested.map (·.name) ∧ a.enums.map (·.name) = b.enums.map (·.name) ∧
    a.exts.map (·.name) = b.exts.map (·.name) ∧
    a.fields.map (·.proto3Optional) = b.fields.map (·.proto3Optional) ∧
    a.reserved = b.reserved ∧ a.extRanges = b.extRanges := by
  rw [stripMsg_eq, stripMsg_eq] at h
  simp only [MsgP.mk.injEq] at h
  obtain ⟨h1, h2, h3, h4, h5, h6, h7, h8, h9, h10⟩ := h
  refine ⟨h1, ?_, by rw [h5], ?_, ?_, h9, h6⟩
  · have := congrArg (List.map MsgP.name) h4
    simpa only [List.map_map, Function.comp_def, stripMsg_name] using this
  · have := congrArg (List.map FieldP.name) h3
    simpa only [List.map_map, Function.comp_def, stripField] using this
  · have := congrArg (List.map FieldP.proto3Optional) h2
    simpa only [List.map_map, Function.comp_def, stripField] using this

section
variable {env : Env} {acc : List FileP} {p : Pool}

theorem Desc.message_full (h : Desc env acc p) {k : Nat} {md : MsgD}
    (hk : p.messages[k]? = some md) : ∃ m y,
      .message md.id.path md.id.fullName md.id.file md.parent k m ∈ visit {} acc ∧
      Stands acc p md.id (.message m) (.message y) ∧ p.messageProto k = .ok y ∧
      p.rawMessage k = .ok y ∧ stripMsg y = stripMsg m := by
  obtain ⟨path, full, fi, parent, m, he, hid, hp, _⟩ := h.message_at hk
  obtain ⟨y, f, fd, s, h1, h2, h3, h4, h5, h6⟩ := h.stands he rfl hid
  cases y <;> simp only [Item.strip, reduceCtorEq, Item.message.injEq] at h5
  rename_i y
  have hf : findMsg fd.prost md.id.path = some y := h4.found.2
  have hr : fd.prost = fd.raw := by
    obtain ⟨_, _, _, _, h7, _⟩ := h.file_inv h2; exact h7
  refine ⟨m, y, ?_, ⟨f, fd, s, h1, h2, h3, h4, by simp [Item.strip, h5], h6⟩, ?_, ?_, h5⟩
  · rw [hid, hp]; exact he
  · simp only [Pool.messageProto, bind_ok, getR_ok]
    exact ⟨md, hk, fd, h2, by rw [hf]; rfl⟩
  · simp only [Pool.rawMessage, bind_ok, getR_ok]
    exact ⟨md, hk, fd, h2, by rw [← hr, hf]; rfl⟩

/-- The names of the declarations directly inside a file. -/
theorem Desc.file_full (h : Desc env acc p) {i : Nat} {f : FileP} (hf : acc[i]? = some f) :
    .file [] i f ∈ visit {} acc ∧ ∃ fd, p.files[i]? = some fd ∧ p.fileProto i = .ok fd.prost ∧
      fd.prost = fd.raw ∧ parseSyn f.syn = some fd.syn ∧ stripFile fd.prost = stripFile f := by
  have hv := visit_files acc {} i f hf
  rw [show ({} : Offs).file + i = i by show 0 + i = i; omega] at hv
  obtain ⟨fd, h1, h2, h3, h4, _⟩ := h.file_at hf
  exact ⟨hv, fd, h1, by simp only [Pool.fileProto, h1], h4, h2, by rw [h4]; exact h3⟩

/-- Where a message was visited says what its parent is. -/
theorem top_message {k i : Nat} {path : Path} {full : Name} {m : MsgP} {f : FileP}
    (hf : acc[i]? = some f) (he : .message path full i none k m ∈ visit {} acc) :
    m ∈ f.messages ∧ full = pushScope f.package m.name := by
  rcases visit_inner acc {} _ he with ⟨j, g, hg, h1, _, h2, l, _, h4⟩ | hi
  · have : i = j := by
      rw [h1]; show 0 + j = j; omega
    subst this
    rw [hf] at hg; cases hg
    exact ⟨List.mem_of_getElem? h4, h2⟩
  · obtain ⟨q, qpath, qfull, qpar, qm, j, h1, _⟩ := hi
    cases h1

theorem top_enum {k i : Nat} {path : Path} {full : Name} {m : EnumP} {f : FileP}
    (hf : acc[i]? = some f) (he : .enum path full i none k m ∈ visit {} acc) :
    m ∈ f.enums ∧ full = pushScope f.package m.name := by
  rcases visit_inner acc {} _ he with ⟨j, g, hg, h1, _, h2, l, _, h4⟩ | hi
  · have : i = j := by
      rw [h1]; show 0 + j = j; omega
    subst this
    rw [hf] at hg; cases hg
    exact ⟨List.mem_of_getElem? h4, h2⟩
  · obtain ⟨q, qpath, qfull, qpar, qm, j, h1, _⟩ := hi
    cases h1

theorem top_extension {k i : Nat} {path : Path} {full : Name} {m : FieldP} {f : FileP}
    (hf : acc[i]? = some f) (he : .extension path full i none k m ∈ visit {} acc) :
    m ∈ f.exts ∧ full = pushScope f.package m.name := by
  rcases visit_inner acc {} _ he with ⟨j, g, hg, h1, _, h2, l, _, h4⟩ | hi
  · have : i = j := by
      rw [h1]; show 0 + j = j; omega
    subst this
    rw [hf] at hg; cases hg
    exact ⟨List.mem_of_getElem? h4, h2⟩
  · obtain ⟨q, qpath, qfull, qpar, qm, j, h1, _⟩ := hi
    cases h1

theorem top_service {k i : Nat} {path : Path} {full : Name} {m : ServiceP} {f : FileP}
    (hf : acc[i]? = some f) (he : .service path full i k m ∈ visit {} acc) :
    m ∈ f.services ∧ full = pushScope f.package m.name := by
  rcases visit_inner acc {} _ he with ⟨j, g, hg, h1, h2, l, _, h4⟩ | hi
  · have : i = j := by
      rw [h1]; show 0 + j = j; omega
    subst this
    rw [hf] at hg; cases hg
    exact ⟨List.mem_of_getElem? h4, h2⟩
  · exact hi.elim

/-- There is one message with a given index. -/
theorem Desc.one_message (h : Desc env acc p) {k : Nat} {path path' : Path} {full full' : Name}
    {fi fi' : Nat} {par par' : Option Nat} {m m' : MsgP}
    (he : .message path full fi par k m ∈ visit {} acc)
    (he' : .message path' full' fi' par' k m' ∈ visit {} acc) :
    path = path' ∧ full = full' ∧ fi = fi' ∧ par = par' ∧ m = m' := by
  obtain ⟨c, hc, _⟩ := h.counted
  have := (tally_message {}).uniq hc he he' rfl rfl
  simp only [Event.message.injEq] at this
  obtain ⟨h1, h2, h3, h4, _, h5⟩ := this
  exact ⟨h1, h2, h3, h4, h5⟩

theorem Desc.in_message (h : Desc env acc p) {k q i : Nat} {path qpath : Path} {full qfull : Name}
    {m qm : MsgP} {qpar : Option Nat} (hq : .message qpath qfull i qpar q qm ∈ visit {} acc)
    {fi : Nat} (he : .message path full fi (some q) k m ∈ visit {} acc) :
    m ∈ qm.nested ∧ full = pushScope qfull m.name ∧ fi = i := by
  rcases visit_inner acc {} _ he with ⟨j, g, hg, _, h1, _⟩ | hi
  · cases h1
  · obtain ⟨q', qpath', qfull', qpar', qm', j, h1, h2, h3, h4, h5⟩ := hi
    cases h1
    obtain ⟨rfl, rfl, rfl, rfl, rfl⟩ := h.one_message hq h2
    exact ⟨List.mem_of_getElem? h5, h4, rfl⟩

theorem Desc.in_enum (h : Desc env acc p) {k q i : Nat} {path qpath : Path} {full qfull : Name}
    {m : EnumP} {qm : MsgP} {qpar : Option Nat} (hq : .message qpath qfull i qpar q qm ∈ visit {} acc)
    {fi : Nat} (he : .enum path full fi (some q) k m ∈ visit {} acc) :
    m ∈ qm.enums ∧ full = pushScope qfull m.name ∧ fi = i := by
  rcases visit_inner acc {} _ he with ⟨j, g, hg, _, h1, _⟩ | hi
  · cases h1
  · obtain ⟨q', qpath', qfull', qpar', qm', j, h1, h2, h3, h4, h5⟩ := hi
    cases h1
    obtain ⟨rfl, rfl, rfl, rfl, rfl⟩ := h.one_message hq h2
    exact ⟨List.mem_of_getElem? h5, h4, rfl⟩

theorem Desc.in_extension (h : Desc env acc p) {k q i : Nat} {path qpath : Path} {full qfull : Name}
    {m : FieldP} {qm : MsgP} {qpar : Option Nat} (hq : .message qpath qfull i qpar q qm ∈ visit {} acc)
    {fi : Nat} (he : .extension path full fi (some q) k m ∈ visit {} acc) :
    m ∈ qm.exts ∧ full = pushScope qfull m.name ∧ fi = i := by
  rcases visit_inner acc {} _ he with ⟨j, g, hg, _, h1, _⟩ | hi
  · cases h1
  · obtain ⟨q', qpath', qfull', qpar', qm', j, h1, h2, h3, h4, h5⟩ := hi
    cases h1
    obtain ⟨rfl, rfl, rfl, rfl, rfl⟩ := h.one_message hq h2
    exact ⟨List.mem_of_getElem? h5, h4, rfl⟩

/-- A parent index is that of a message of the same file. -/
theorem parent_visited {fi : Nat} {e : Event} (he : e ∈ visit {} acc) {q : Nat}
    (hq : (match e with
      | .message _ _ f par _ _ | .enum _ _ f par _ _ | .extension _ _ f par _ _ =>
        f = fi ∧ par = some q
      | _ => False)) : ∃ qpath qfull qpar qm, .message qpath qfull fi qpar q qm ∈ visit {} acc := by
  have hv := visit_inner acc {} _ he
  cases e <;> simp only at hq <;> obtain ⟨rfl, rfl⟩ := hq <;>
    rcases hv with ⟨j, g, hg, _, h1, _⟩ | ⟨q', qpath', qfull', qpar', qm', j, h1, h2, _⟩ <;>
    cases h1 <;> exact ⟨_, _, _, _, h2⟩

end
end Verif.Pool
