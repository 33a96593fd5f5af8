import Verif.Pool.Twin2
import Verif.Props.PoolView
/-!
C94: it does not matter in how many additions a pool was given its files.
-/
set_option autoImplicit false
namespace Verif.Props
open Verif.Wire Verif.Dyn Verif.Pool

/-- Two pools have the same descriptors, but for the lists of extensions of messages: the same files with
the same syntax and imports, the same messages with their fields, oneofs and look-ups, the same enums, the
same extensions and services, and every name leads to the same descriptor. -/
structure SamePool (p q : Pool) : Prop where
  fileCount : p.files.length = q.files.length
  files : ∀ (i : Nat) a b, p.files[i]? = some a → q.files[i]? = some b →
    a.syn = b.syn ∧ a.deps = b.deps ∧ a.trans = b.trans ∧ stripFile a.prost = stripFile b.prost
  messageCount : p.messages.length = q.messages.length
  messages : ∀ (k : Nat) a b, p.messages[k]? = some a → q.messages[k]? = some b → SameMessage a b
  enumCount : p.enums.length = q.enums.length
  enums : ∀ (k : Nat) a b, p.enums[k]? = some a → q.enums[k]? = some b → SameEnum a b
  extensions : p.extensions = q.extensions
  services : p.services = q.services
  fileByName : p.fileByName = q.fileByName
  messageByName : p.messageByName = q.messageByName
  enumByName : p.enumByName = q.enumByName
  extensionByName : p.extensionByName = q.extensionByName
  serviceByName : p.serviceByName = q.serviceByName

private theorem msg_by {p : Pool} {n : Name} {k : Nat} :
    p.messageByName n = some k ↔ ∃ fi path, lookupN p.names (stripDot n) = some ⟨fi, path, .message k⟩ := by
  unfold Pool.messageByName Pool.getByName
  rcases h : lookupN p.names (stripDot n) with _ | ⟨fi, path, d⟩ <;> (try cases d) <;> simp

private theorem enum_by {p : Pool} {n : Name} {k : Nat} :
    p.enumByName n = some k ↔ ∃ fi path, lookupN p.names (stripDot n) = some ⟨fi, path, .enum k⟩ := by
  unfold Pool.enumByName Pool.getByName
  rcases h : lookupN p.names (stripDot n) with _ | ⟨fi, path, d⟩ <;> (try cases d) <;> simp

private theorem ext_by {p : Pool} {n : Name} {k : Nat} :
    p.extensionByName n = some k ↔ ∃ fi path, lookupN p.names (stripDot n) = some ⟨fi, path, .extension k⟩ := by
  unfold Pool.extensionByName Pool.getByName
  rcases h : lookupN p.names (stripDot n) with _ | ⟨fi, path, d⟩ <;> (try cases d) <;> simp

private theorem svc_by {p : Pool} {n : Name} {k : Nat} :
    p.serviceByName n = some k ↔ ∃ fi path, lookupN p.names (stripDot n) = some ⟨fi, path, .service k⟩ := by
  unfold Pool.serviceByName Pool.getByName
  rcases h : lookupN p.names (stripDot n) with _ | ⟨fi, path, d⟩ <;> (try cases d) <;> simp

private theorem at_congr {α : Type} {a b : List α} (hl : a.length = b.length) {key : α → Name}
    (h : ∀ (k : Nat) x y, a[k]? = some x → b[k]? = some y → key x = key y) (k : Nat) (n : Name) :
    (∃ x, a[k]? = some x ∧ key x = n) ↔ ∃ y, b[k]? = some y ∧ key y = n := by
  constructor
  · rintro ⟨x, hx, rfl⟩
    have hy := List.getElem?_eq_getElem (hl ▸ getElem?_lt hx : k < b.length)
    exact ⟨_, hy, (h k _ _ hx hy).symm⟩
  · rintro ⟨y, hy, rfl⟩
    have hx := List.getElem?_eq_getElem (hl ▸ getElem?_lt hy : k < a.length)
    exact ⟨_, hx, h k _ _ hx hy⟩

/-- Two pools that hold the same files have the same descriptors. -/
theorem samePool_of {env : Env} {acc : List FileP} {p q : Pool} (h : Settled env acc p) (h' : Settled env acc q)
    (hw : WellNamed acc) : SamePool p q := by
  have D := h.desc
  have D' := h'.desc
  obtain ⟨l1, l2, l3, l4⟩ := D.lens D'
  have hm := fun k a b ha hb => h.same_message h' hw (k := k) (a := a) (b := b) ha hb
  have he := fun k a b ha hb => D.same_enum D' (k := k) (a := a) (b := b) ha hb
  have hx := h.same_extensions h' hw
  have hs := h.same_services h' hw
  refine ⟨D.files_len.trans D'.files_len.symm, fun i a b ha hb => ?_, l1, hm, l2, he, hx, hs, ?_, ?_, ?_, ?_, ?_⟩
  · obtain ⟨e1, e2, e3⟩ := h.same_trans h' ha hb
    obtain ⟨f, h1, _, h2, h3, _⟩ := D.file_inv ha
    obtain ⟨f', g1, _, g2, g3, _⟩ := D'.file_inv hb
    rw [h1] at g1; cases g1
    exact ⟨e1, e2, e3, by rw [h3, g3, h2, g2]⟩
  · funext n
    apply Option.ext
    intro i
    unfold Pool.fileByName
    rw [D.filesAre.name_iff, D'.filesAre.name_iff]
  · funext n
    apply Option.ext
    intro k
    rw [msg_by, msg_by, D.message_name, D'.message_name]
    exact at_congr l1 (fun k a b ha hb => congrArg Ident.fullName (hm k a b ha hb).id) k _
  · funext n
    apply Option.ext
    intro k
    rw [enum_by, enum_by, D.enum_name, D'.enum_name]
    exact at_congr l2 (fun k a b ha hb => congrArg Ident.fullName (he k a b ha hb).id) k _
  · funext n
    apply Option.ext
    intro k
    rw [ext_by, ext_by, D.extension_name, D'.extension_name, hx]
  · funext n
    apply Option.ext
    intro k
    rw [svc_by, svc_by, D.service_name, D'.service_name, hs]

section
variable {env : Env} (hsr : SearchOk env.search) {acc : List FileP} {p q : Pool}
include hsr

/-- **C94.** Two pools that accepted the same files in the same order have the same descriptors: however the
files were split into additions, whatever additions were rejected in between, and also where names are given
relative to the scope. -/
theorem C94_same (h : Hist env acc p) (h' : Hist env acc q) (hw : WellNamed acc) : SamePool p q :=
  samePool_of (h.settled hsr) (h'.settled hsr) hw

/-- The lists of extensions agree as well if no addition was rejected. -/
theorem C94_extensions (h : Accepts env acc p) (h' : Accepts env acc q) (hw : WellNamed acc) {k : Nat}
    {a b : MsgD} (ha : p.messages[k]? = some a) (hb : q.messages[k]? = some b) : a.extensions = b.extensions :=
  h.same_exts hsr h' hw ha hb

/-- **C94, for messages.** Dynamic messages see the same schema: everything proven of reading, writing and
comparing them holds across the two pools. -/
theorem C94_view (hk : KeepsEntry env) (h : Accepts env acc p) (h' : Accepts env acc q)
    (hw : WellNamed acc) : ∃ S, p.view = .ok S ∧ q.view = .ok S := by
  obtain ⟨S, hS⟩ := C68_total hsr h
  exact ⟨S, hS, h.same_view hsr hk h' hw ▸ hS⟩

end

/-! ### Examples -/

/-- The names of all declarations are proper. -/
def wellNamed (acc : List FileP) : Bool :=
  (visit {} acc).all fun e => match e.item with
    | some (_, _, _, x) => !x.name.isEmpty && !x.name.contains '.'
    | none => true

theorem wellNamed_ok {acc : List FileP} (h : wellNamed acc = true) : WellNamed acc := by
  intro f hf path s x hx
  obtain ⟨i, hi⟩ := List.getElem?_of_mem hf
  obtain ⟨e, he, hit⟩ := has_visited (o := {}) hi hx
  have := List.all_eq_true.1 h e he
  rw [hit] at this
  simp only [Bool.and_eq_true, Bool.not_eq_true', List.contains_eq_mem, decide_eq_false_iff_not] at this
  exact ⟨fun h0 => by rw [h0] at this; exact absurd this.1 (by decide), this.2⟩

theorem runNew_accepts : ∀ {bs : List (List FileP)} {acc : List FileP} {p p' : Pool},
    Accepts env0 acc p → runNew p bs = some p' → Accepts env0 (acc ++ bs.flatten) p'
  | [], acc, p, p', h, hr => by
    simp only [runNew, Option.some.injEq] at hr
    subst hr
    simpa using h
  | b :: bs, acc, p, p', h, hr => by
    simp only [runNew] at hr
    split at hr
    · next hall =>
      split at hr
      · next q hq =>
        have := Accepts.accept _ _ _ _ h hq
        rw [List.filter_eq_self.2 (by simpa using hall)] at this
        have := runNew_accepts this hr
        rw [List.flatten_cons, ← List.append_assoc]
        exact this
      · cases hr
    · cases hr

theorem split_ex (bs : List (List FileP)) (h : (runNew Pool.empty bs).isSome = true) :
    ∃ p, Accepts env0 bs.flatten p := by
  cases hr : runNew Pool.empty bs with
  | none => rw [hr] at h; cases h
  | some p =>
    have := runNew_accepts .empty hr
    rw [List.nil_append] at this
    exact ⟨p, this⟩

/-- The premises are met: two files, given at once and one after the other.  They have a nested message, an
enum, a oneof, a service, an extension, and names relative to the scope. -/
example : ∃ p q, Accepts env0 [fileA, fileB] p ∧ Accepts env0 [fileA, fileB] q ∧ SamePool p q ∧
    p.messages.length = 3 ∧ q.view = p.view := by
  obtain ⟨p, hp⟩ := split_ex [[fileA, fileB]] (by decide +kernel)
  obtain ⟨q, hq⟩ := split_ex [[fileA], [fileB]] (by decide +kernel)
  have hw : WellNamed [fileA, fileB] := wellNamed_ok (by decide +kernel)
  have hk : KeepsEntry env0 := by
    intro p path full file parent k m o ho
    show m.options.join = o
    rw [ho]; rfl
  obtain ⟨S, h1, h2⟩ := C94_view linearSearch_ok hk hp hq hw
  refine ⟨p, q, hp, hq, C94_same linearSearch_ok hp.hist hq.hist hw, ?_, h2.trans h1.symm⟩
  have : p.offs.message = p.messages.length := rfl
  rw [← this, (hp.hist.desc linearSearch_ok).offs]
  decide +kernel

/-! ### Names with dots -/

/-- `package q; message c.T {}`: no such file can be written, but its descriptor can be made. -/
def dottedFile : FileP where
  name := nm "d.proto"
  package := nm "q"
  messages := [{ name := nm "c.T" }]

/-- `import "c.proto"; import "d.proto"; package q; message U { c.T t = 1; }` -/
def dottedUser : FileP where
  name := nm "user.proto"
  package := nm "q"
  deps := [nm "c.proto", nm "d.proto"]
  messages := [{
    name := nm "U"
    fields := [{ name := nm "t", number := 1, ty := .message, typeName := nm "c.T" }] }]

/-- The full name of the message that is the type of the only field of `q.U`. -/
def typeOfT (p : Pool) : Option Name :=
  match p.messages[2]? with
  | some md =>
    match md.fields with
    | [f] =>
      match f.kind with
      | .message k => (p.messages[k]?).map (·.id.fullName)
      | _ => none
    | _ => none
  | none => none

/-- **C94 fails for names with dots.** The same four files are accepted at once and in two additions, but
a field has the type `q.c.T` in one pool and `c.T` in the other. -/
theorem C94_dots_false : ∃ p q, Accepts env0 [pubC, dottedFile, dottedUser, strayFile] p ∧
    Accepts env0 [pubC, dottedFile, dottedUser, strayFile] q ∧
    typeOfT p = some (nm "q.c.T") ∧ typeOfT q = some (nm "c.T") := by
  have key : ∀ (bs : List (List FileP)) (n : Name), (match runNew Pool.empty bs with
      | some p => typeOfT p == some n
      | none => false) = true → ∃ p, Accepts env0 bs.flatten p ∧ typeOfT p = some n := by
    intro bs n h
    split at h
    · next p hr =>
      have := runNew_accepts .empty hr
      rw [List.nil_append] at this
      exact ⟨p, this, eq_of_beq h⟩
    · cases h
  obtain ⟨p, h1, h2⟩ := key [[pubC, dottedFile, dottedUser, strayFile]] (nm "q.c.T") (by decide +kernel)
  obtain ⟨q, h3, h4⟩ := key [[pubC, dottedFile, dottedUser], [strayFile]] (nm "c.T") (by decide +kernel)
  exact ⟨p, q, h1, h3, h2, h4⟩

end Verif.Props
