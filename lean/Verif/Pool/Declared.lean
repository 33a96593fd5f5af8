import Verif.Pool.Listing
/-!
The accessors that repeat what a file declares and the builder never looks at: reserved names
and streaming flags (`descriptor/api.rs`).
-/
set_option autoImplicit false
namespace Verif.Pool
open Verif.Dyn

/-- `MessageDescriptor::reserved_names` (api.rs:935-937). -/
def Pool.reservedNames (p : Pool) (k : Nat) : Res (List Name) := do
  let m ← p.rawMessage k
  .ok m.reservedNames

/-- `EnumDescriptor::reserved_names` (api.rs:1512-1514). -/
def Pool.enumReservedNames (p : Pool) (k : Nat) : Res (List Name) := do
  let e ← getR p.enums k
  let f ← getR p.files e.id.file
  let ep ← unwrapR (findEnum f.raw e.id.path)
  .ok ep.reservedNames

/-- `MethodDescriptor::raw` (api.rs:1901-1903), through `ServiceDescriptor::raw`
(api.rs:1784-1788): the pool's own copy of the method. -/
def Pool.rawMethod (p : Pool) (k i : Nat) : Res MethodP := do
  let s ← getR p.services k
  let f ← getR p.files s.id.file
  let j ← unwrapR s.id.path.getLast?
  let sp ← getR f.raw.services j
  getR sp.methods i

/-- `MethodDescriptor::is_client_streaming` (api.rs:1888-1890); an absent flag is false
(types.rs:167). -/
def Pool.isClientStreaming (p : Pool) (k i : Nat) : Res Bool := do
  let m ← p.rawMethod k i
  .ok (m.clientStreaming == some true)

/-- `MethodDescriptor::is_server_streaming` (api.rs:1893-1895). -/
def Pool.isServerStreaming (p : Pool) (k i : Nat) : Res Bool := do
  let m ← p.rawMethod k i
  .ok (m.serverStreaming == some true)

theorem stripMsg_reservedNames {a b : MsgP} (h : stripMsg a = stripMsg b) :
    a.reservedNames = b.reservedNames := by
  rw [stripMsg_eq, stripMsg_eq] at h
  simp only [MsgP.mk.injEq] at h
  exact h.2.2.2.2.2.2.2.2.2

theorem stripMethod_flags {a b : MethodP} (h : stripMethod a = stripMethod b) :
    a.clientStreaming = b.clientStreaming ∧ a.serverStreaming = b.serverStreaming := by
  simp only [stripMethod, MethodP.mk.injEq] at h
  exact ⟨h.2.2.2.1, h.2.2.2.2⟩

section
variable {env : Env} {acc : List FileP} {p : Pool}

theorem Desc.rawMethod_eq (h : Desc env acc p) {k i : Nat} {y : MethodP}
    (hm : p.methodProto k i = .ok y) : p.rawMethod k i = .ok y := by
  simp only [Pool.methodProto, Pool.serviceProto, bind_ok] at hm
  obtain ⟨sp, ⟨sd, h1, fd, h2, j, h3, h4⟩, h5⟩ := hm
  have hr : fd.prost = fd.raw := by
    obtain ⟨_, _, _, _, h7, _⟩ := h.file_inv (getR_ok.1 h2); exact h7
  simp only [Pool.rawMethod, bind_ok]
  exact ⟨sd, h1, fd, h2, j, h3, sp, by rw [← hr]; exact h4, h5⟩

end

end Verif.Pool
