import Verif.Pool.Declared
import Verif.Props.PoolNames
/-!
C101: reserved names and streaming flags are shown as declared; the pool does not hold anyone to the
reserved names.
-/
set_option autoImplicit false
namespace Verif.Props
open Verif.Wire Verif.Dyn Verif.Pool

section
variable {env : Env} (hsr : SearchOk env.search) {acc : List FileP} {p : Pool}
include hsr

/-- **C101, messages.** `MessageDescriptor::reserved_names` never panics and lists the names the file
reserves, in order and as often as declared. -/
theorem C101_message (h : Hist env acc p) {k : Nat} {md : MsgD} (hk : p.messages[k]? = some md) :
    ∃ m y, Stands acc p md.id (.message m) (.message y) ∧ p.reservedNames k = .ok m.reservedNames := by
  obtain ⟨m, y, _, hst, _, hraw, hs⟩ := (h.desc hsr).message_full hk
  refine ⟨m, y, hst, ?_⟩
  simp only [Pool.reservedNames, bind_ok]
  exact ⟨y, hraw, by rw [stripMsg_reservedNames hs]⟩

/-- **C101, enums.** The same for `EnumDescriptor::reserved_names`. -/
theorem C101_enum (h : Hist env acc p) {k : Nat} {ed : EnumD} (hk : p.enums[k]? = some ed) :
    ∃ x, Stands acc p ed.id (.enum x) (.enum x) ∧ p.enumReservedNames k = .ok x.reservedNames := by
  have hD := h.desc hsr
  obtain ⟨x, hst, _⟩ := hD.values_of hk
  refine ⟨x, hst, ?_⟩
  obtain ⟨f, fd, s, a1, a2, a3, a4, _⟩ := hst
  obtain ⟨_, _, _, _, hp, _⟩ := hD.file_inv a2
  simp only [Pool.enumReservedNames, bind_ok, getR_ok]
  exact ⟨ed, hk, fd, a2, x, by rw [← hp]; rw [show findEnum fd.prost _ = some x from a4.found]; rfl, rfl⟩

/-- **C101, methods.** `is_client_streaming` and `is_server_streaming` never panic and tell whether the file
sets the flag of that name for the method to true. -/
theorem C101_method (h : Hist env acc p) {k i : Nat} {sd : SvcD} {d : MethodD}
    (hk : p.services[k]? = some sd) (hi : sd.methods[i]? = some d) :
    ∃ x y, Stands acc p d.id (.method x) (.method y) ∧ p.rawMethod k i = .ok y ∧
      ∃ c s, p.isClientStreaming k i = .ok c ∧ p.isServerStreaming k i = .ok s ∧
        (c = true ↔ x.clientStreaming = some true) ∧ (s = true ↔ x.serverStreaming = some true) := by
  have D := h.desc hsr
  obtain ⟨x, y, hs, _, _, hp⟩ := D.method_stands hk hi
  have hr := D.rawMethod_eq hp
  obtain ⟨_, _, _, _, _, _, _, hst, _⟩ := id hs
  simp only [Item.strip, Item.method.injEq] at hst
  obtain ⟨e1, e2⟩ := stripMethod_flags hst
  refine ⟨x, y, hs, hr, _, _, by simp only [Pool.isClientStreaming, bind_ok]; exact ⟨y, hr, rfl⟩,
    by simp only [Pool.isServerStreaming, bind_ok]; exact ⟨y, hr, rfl⟩, ?_, ?_⟩
  · rw [e1]; simp
  · rw [e2]; simp

end

/-- `message M { reserved "old", "x", "old"; int32 x = 1; }  enum E { reserved "B"; A = 0; B = 1; }
service S { rpc Up(stream M) returns (M); rpc Down(M) returns (stream M); rpc Both(stream M) returns (stream M);
rpc One(M) returns (M); }` -/
def fileDeclared : FileP where
  name := nm "d.proto"
  package := nm "d"
  syn := some (nm "proto3")
  messages := [{ name := nm "M", reservedNames := [nm "old", nm "x", nm "old"]
                 fields := [{ name := nm "x", number := 1, ty := .int32 }] }]
  enums := [{ name := nm "E", values := [⟨nm "A", 0⟩, ⟨nm "B", 1⟩], reservedNames := [nm "B"] }]
  services := [{ name := nm "S", methods := [
    ⟨nm "Up", nm "M", nm "M", some true, none⟩, ⟨nm "Down", nm "M", nm "M", some false, some true⟩,
    ⟨nm "Both", nm "M", nm "M", some true, some true⟩, ⟨nm "One", nm "M", nm "M", none, some false⟩] }]

def declaredOk (p : Pool) : Bool :=
  (match p.reservedNames 0, p.enumReservedNames 0 with
    | .ok a, .ok b => a == [nm "old", nm "x", nm "old"] && b == [nm "B"]
    | _, _ => false) &&
  [0, 1, 2, 3].map (fun i => match p.isClientStreaming 0 i, p.isServerStreaming 0 i with
    | .ok a, .ok b => some (a, b)
    | _, _ => none) == [some (true, false), some (false, true), some (true, true), some (false, false)]

example : ∃ acc p, Hist env0 acc p ∧ declaredOk p = true :=
  run_ex [[fileDeclared]] (fun _ p => declaredOk p) (by decide +kernel)

/-- **Reserved names are not enforced.** A file is accepted although the message's own field `x` and the
enum's own value `B` bear names that the same message and enum reserve. -/
theorem C101_unenforced : ∃ acc p, Hist env0 acc p ∧
    ((match p.reservedNames 0, p.messages with
      | .ok l, [md] => md.fields.any fun f => l.contains f.id.name
      | _, _ => false) &&
    (match p.enumReservedNames 0, p.enums with
      | .ok l, [ed] => ed.values.any fun v => l.contains v.id.name
      | _, _ => false)) = true :=
  run_ex [[fileDeclared]] (fun _ p => (match p.reservedNames 0, p.messages with
      | .ok l, [md] => md.fields.any fun f => l.contains f.id.name
      | _, _ => false) &&
    (match p.enumReservedNames 0, p.enums with
      | .ok l, [ed] => ed.values.any fun v => l.contains v.id.name
      | _, _ => false)) (by decide +kernel)

end Verif.Props
