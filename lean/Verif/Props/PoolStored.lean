import Verif.Pool.Stored3
import Verif.Props.PoolScope
/-!
C95: what the descriptors that a pool hands out say about types and names.
-/
set_option autoImplicit false
namespace Verif.Props
open Verif.Wire Verif.Dyn Verif.Pool

/-- The third pass leaves the options of fields as they are: nothing in them is uninterpreted. -/
def KeepsPacked (env : Env) : Prop := ∀ p e o,
  (match e with
    | .field _ _ _ _ _ f => f.options = some o
    | .extension _ _ _ _ _ f => f.options = some o
    | _ => False) → env.fieldOpt p e = o

/-- The declaration `y` that a pool hands out for the given field or extension `x`, whose type is `kind`.
The type is named in full, with a leading dot, the kind of type and the JSON name are spelled out, and
nothing else differs but what the options mean and the extended message. -/
structure Kept (env : Env) (p : Pool) (kind : Kind) (x y : FieldP) : Prop where
  scalar : x.typeName = [] → y.typeName = [] ∧ y.ty = x.ty
  named : x.typeName ≠ [] → ∃ n, KindNamed p n kind ∧ y.typeName = '.' :: n
  group : x.ty = .group → y.ty = .group
  message : x.typeName ≠ [] → x.ty ≠ .group → ∀ t, kind = .message t → y.ty = .message
  enum : x.typeName ≠ [] → x.ty ≠ .group → ∀ t, kind = .enum t → y.ty = .enum
  json : ∀ j, x.jsonName = some j → y.jsonName = some j
  jsonNew : x.jsonName = none → y.jsonName = some (toJsonName false x.name)
  options : y.options.isSome = x.options.isSome
  same : KeepsPacked env → y.options = x.options
  rest : y.name = x.name ∧ y.number = x.number ∧ y.label = x.label ∧ y.default = x.default ∧
    y.oneofIndex = x.oneofIndex ∧ y.proto3Optional = x.proto3Optional

section
variable {env : Env} {acc : List FileP} {p : Pool}

theorem kindNamed_of (D : Desc env acc p) {n : Name} {k : Kind} (h : TypeNamed p.names n k) :
    KindNamed p n k := by
  cases k <;> try exact h.elim
  · obtain ⟨d, h1, h2⟩ := h
    exact (D.message_name n _).1 ⟨d.file, d.path, by rw [h1, ← h2]⟩
  · obtain ⟨d, h1, h2⟩ := h
    exact (D.enum_name n _).1 ⟨d.file, d.path, by rw [h1, ← h2]⟩

theorem kept_of (D : Desc env acc p) {e : Event} {kind : Kind} {x y : FieldP} {o : Option (Option Bool)}
    {ext : Option Name}
    (hf : FieldFilled p.names x kind y) (ho : OptOf env e x.options o)
    (he : ∀ o', x.options = some o' → KeepsPacked env → ∀ r, env.fieldOpt r e = o') :
    Kept env p kind x { y with options := o, extendee := ext } := by
  obtain ⟨z, hz, rfl⟩ := hf
  have hopt : o.isSome = x.options.isSome := by
    rcases ho with rfl | ⟨r, rfl⟩
    · rfl
    · simp
  have hsame : KeepsPacked env → o = x.options := by
    intro hk
    rcases ho with rfl | ⟨r, rfl⟩
    · rfl
    · cases h : x.options with
      | none => rfl
      | some o' => rw [Option.map_some, he o' h hk]
  have hj : ∀ j, x.jsonName = some j → some (jsonOf x) = some j := fun j h => by simp [jsonOf, h]
  have hjn : x.jsonName = none → some (jsonOf x) = some (toJsonName false x.name) := fun h => by
    simp [jsonOf, h]
  rcases hz with ⟨h0, rfl⟩ | ⟨h0, n, hn, rfl⟩
  · exact ⟨fun _ => ⟨h0, rfl⟩, fun h => absurd h0 h, fun h => h, fun h => absurd h0 h, fun h => absurd h0 h,
      hj, hjn, hopt, hsame, rfl, rfl, rfl, rfl, rfl, rfl⟩
  · refine ⟨fun h => absurd h h0, fun _ => ⟨n, kindNamed_of D hn, rfl⟩, fun h => ?_, fun _ hg t ht => ?_,
      fun _ hg t ht => ?_, hj, hjn, hopt, hsame, rfl, rfl, rfl, rfl, rfl, rfl⟩
    · show resolvedTy x.ty kind = _
      rw [h]; cases kind <;> rfl
    · show resolvedTy x.ty kind = _
      rw [ht]; exact if_neg hg
    · show resolvedTy x.ty kind = _
      rw [ht]; exact if_neg hg

theorem field_link (D : Desc env acc p) {id : Ident} {x y f : FieldP} {w : FieldP} {fi : Nat} {path : Path}
    {full : Name} (hs : Stands acc p id (.field x) (.field y))
    (hv : ∃ j g s, fi = ({} : Offs).file + j ∧ acc[j]? = some g ∧ full = qualified s (Item.field f).name ∧
      Has g path s (.field f))
    (h1 : id.file = fi) (h2 : id.path = path) (hw : p.fieldIn fi path = some w) : x = f ∧ y = w := by
  obtain ⟨g, gd, s, a1, a2, a3, a4, _⟩ := hs
  obtain ⟨j, g', s', b1, b2, _, b4⟩ := hv
  have hj : fi = j := by rw [b1]; exact Nat.zero_add j
  subst h1 h2 hj
  rw [a1] at b2; cases b2
  have e1 := a3.found.unique b4.found rfl
  obtain ⟨gd', c1, _, _, c4, _⟩ := D.file_at a1
  rw [a2] at c1; cases c1
  rw [c4] at a4
  simp only [Pool.fieldIn, a2, a4.fieldAt, Option.some.injEq] at hw
  exact ⟨Item.field.inj e1, hw⟩

theorem ext_link (D : Desc env acc p) {id : Ident} {x y f : FieldP} {w : FieldP} {fi : Nat} {path : Path}
    {full : Name} (hs : Stands acc p id (.extension x) (.extension y))
    (hv : ∃ j g s, fi = ({} : Offs).file + j ∧ acc[j]? = some g ∧ full = qualified s (Item.extension f).name ∧
      Has g path s (.extension f))
    (h1 : id.file = fi) (h2 : id.path = path) (hw : p.fieldIn fi path = some w) : x = f ∧ y = w := by
  obtain ⟨g, gd, s, a1, a2, a3, a4, _⟩ := hs
  obtain ⟨j, g', s', b1, b2, _, b4⟩ := hv
  have hj : fi = j := by rw [b1]; exact Nat.zero_add j
  subst h1 h2 hj
  rw [a1] at b2; cases b2
  have e1 := a3.found.unique b4.found rfl
  obtain ⟨gd', c1, _, _, c4, _⟩ := D.file_at a1
  rw [a2] at c1; cases c1
  rw [c4] at a4
  simp only [Pool.fieldIn, a2, a4.extensionAt, Option.some.injEq] at hw
  exact ⟨Item.extension.inj e1, hw⟩

theorem method_link (D : Desc env acc p) {id : Ident} {x y f : MethodP} {w : MethodP} {fi : Nat} {path : Path}
    {full : Name} (hs : Stands acc p id (.method x) (.method y))
    (hv : ∃ j g s, fi = ({} : Offs).file + j ∧ acc[j]? = some g ∧ full = qualified s (Item.method f).name ∧
      Has g path s (.method f))
    (h1 : id.file = fi) (h2 : id.path = path) (hw : p.methodIn fi path = some w) : x = f ∧ y = w := by
  obtain ⟨g, gd, s, a1, a2, a3, a4, _⟩ := hs
  obtain ⟨j, g', s', b1, b2, _, b4⟩ := hv
  have hj : fi = j := by rw [b1]; exact Nat.zero_add j
  subst h1 h2 hj
  rw [a1] at b2; cases b2
  have e1 := a3.found.unique b4.found rfl
  obtain ⟨gd', c1, _, _, c4, _⟩ := D.file_at a1
  rw [a2] at c1; cases c1
  rw [c4] at a4
  simp only [Pool.methodIn, a2, a4.methodAt, Option.some.injEq] at hw
  exact ⟨Item.method.inj e1, hw⟩

variable (hsr : SearchOk env.search)
include hsr

/-- **C95, fields.** `FieldDescriptor::field_descriptor_proto` gives the declaration of the field with its
type and its JSON name resolved. -/
theorem C95_field (h : Hist env acc p) {k i : Nat} {md : MsgD} {d : FieldD}
    (hk : p.messages[k]? = some md) (hi : md.fields[i]? = some d) :
    ∃ x y, Stands acc p d.id (.field x) (.field y) ∧ p.fieldProto k i = .ok y ∧
      Kept env p d.kind x y ∧ y.jsonName = some d.jsonName ∧ y.extendee = x.extendee := by
  have D := h.desc hsr
  obtain ⟨x, y, hs, _, _, hp⟩ := D.field_stands hk hi
  obtain ⟨path, full, fi, f, fd, he, hfd, _, hF⟩ := D.field_at hk hi
  obtain ⟨md', d', z, o, h1, h2, h3, h4, h5⟩ := h.stored hsr _ he
  rw [hk] at h1; cases h1
  rw [hi] at h2; cases h2
  obtain ⟨rfl, hy⟩ := field_link D hs (visited_has he (x := .field f) rfl) (by rw [hF.id]; rfl)
    (by rw [hF.id]; rfl) h5
  have hx : z.extendee = x.extendee := by
    obtain ⟨w, hw, rfl⟩ := h3
    rcases hw with ⟨_, rfl⟩ | ⟨_, _, _, rfl⟩ <;> rfl
  have hj : z.jsonName = some d.jsonName := by
    obtain ⟨w, _, rfl⟩ := h3
    rw [hF.json]
  refine ⟨x, y, hs, hp, ?_, ?_, ?_⟩
  · rw [hy, show ({ z with options := o } : FieldP) = { z with options := o, extendee := z.extendee } from rfl]
    exact kept_of D h3 h4 fun o' ho hk r => hk r _ o' ho
  · rw [hy]; exact hj
  · rw [hy]; exact hx

/-- **C95, extensions.** The same for `ExtensionDescriptor`; the extended message is named in full as well. -/
theorem C95_extension (h : Hist env acc p) {k : Nat} {d : ExtD} (hk : p.extensions[k]? = some d) :
    ∃ x y, Stands acc p d.id (.extension x) (.extension y) ∧ p.extensionProto k = .ok y ∧
      Kept env p d.kind x y ∧ ∃ n, MessageNamed p n d.extendee ∧ y.extendee = some ('.' :: n) := by
  have D := h.desc hsr
  obtain ⟨x, y, hs, hp⟩ := D.extension_stands hk
  obtain ⟨path, full, fi, parent, f, fd, he, hfd, _, hF⟩ := D.extension_at hk
  obtain ⟨d', z, o, n, h1, h3, h4, h6, h5⟩ := h.stored hsr _ he
  rw [hk] at h1; cases h1
  obtain ⟨rfl, hy⟩ := ext_link D hs (visited_has he (x := .extension f) rfl) (by rw [hF.id]; rfl)
    (by rw [hF.id]; rfl) h5
  refine ⟨x, y, hs, hp, ?_, n, kindNamed_of D h6, ?_⟩
  · rw [hy]
    exact kept_of D h3 h4 fun o' ho hk r => hk r _ o' ho
  · rw [hy]

/-- **C95, methods.** `MethodDescriptor::method_descriptor_proto` names input and output in full. -/
theorem C95_method (h : Hist env acc p) {k i : Nat} {sd : SvcD} {d : MethodD}
    (hk : p.services[k]? = some sd) (hi : sd.methods[i]? = some d) :
    ∃ x y, Stands acc p d.id (.method x) (.method y) ∧ p.methodProto k i = .ok y ∧ y.name = x.name ∧
      (∃ n, MessageNamed p n d.input ∧ y.input = '.' :: n) ∧
      ∃ n, MessageNamed p n d.output ∧ y.output = '.' :: n := by
  have D := h.desc hsr
  obtain ⟨x, y, hs, _, _, hp⟩ := D.method_stands hk hi
  obtain ⟨path, full, fi, m, he, hid, hl⟩ := D.service_at hk
  have hlt := getElem?_lt hi
  obtain ⟨f, hf⟩ : ∃ f, m.methods[i]? = some f := ⟨_, List.getElem?_eq_getElem (by omega)⟩
  have hv := visit_full acc {} _ he i _ hf
  obtain ⟨_, sd', d', g2, g3, g5, _⟩ := D.evs _ hv
  rw [hk] at g2; cases g2
  rw [hi] at g3; cases g3
  obtain ⟨sd', d', n, n', h1, h2, h3, h4, h5⟩ := h.stored hsr _ hv
  rw [hk] at h1; cases h1
  rw [hi] at h2; cases h2
  obtain ⟨rfl, hy⟩ := method_link D hs (visited_has hv (x := .method f) rfl) (by rw [g5]; rfl)
    (by rw [g5]; rfl) h5
  subst hy
  exact ⟨x, _, hs, hp, rfl, ⟨n, kindNamed_of D h3, rfl⟩, n', kindNamed_of D h4, rfl⟩

/-- **C95, packing.** Where no option of a field is uninterpreted, `is_packed` follows from the declaration
that the pool hands out. -/
theorem C95_packed_partial (hkp : KeepsPacked env) (h : Hist env acc p) {k i : Nat} {md : MsgD} {d : FieldD}
    (hk : p.messages[k]? = some md) (hi : md.fields[i]? = some d) :
    ∃ y fd, p.fieldProto k i = .ok y ∧ p.files[d.id.file]? = some fd ∧
      (d.packed = true ↔ y.label = .repeated ∧ d.kind.packable = true ∧
        (y.options = none ∧ fd.syn = .proto3 ∨ y.options = some (some true))) := by
  have D := h.desc hsr
  obtain ⟨x, y, hs, hp, hK, _⟩ := C95_field hsr h hk hi
  obtain ⟨x', y', fd, hs', hfd, _, hF⟩ := D.field_is hk hi
  obtain ⟨f, _, s, a1, _, a3, _⟩ := hs
  obtain ⟨f', _, s', b1, _, b3, _⟩ := hs'
  rw [a1] at b1; cases b1
  have e := Item.field.inj (a3.found.unique b3.found rfl)
  subst e
  refine ⟨y, fd, hp, hfd, ?_⟩
  rw [hF.packed, hK.rest.2.2.1, hK.same hkp]
  unfold isPacked
  simp only [Bool.and_eq_true, beq_iff_eq, and_assoc]
  refine and_congr Iff.rfl (and_congr Iff.rfl ?_)
  cases x.options with
  | none => simp
  | some o => simp

end

/-! ### Examples -/

theorem env0_packed : KeepsPacked env0 := by
  intro p e o h
  cases e <;> simp only at h <;> try exact h.elim
  all_goals (show Option.join _ = o; rw [h]; rfl)

/-- What one field says: type, type name, JSON name. -/
def shownType (r : Res FieldP) : Option (PType × Name × Option Name) :=
  match r with
  | .ok y => some (y.ty, y.typeName, y.jsonName)
  | .error _ => none

/-- The premises are met by the two files of the other examples, where names are relative: the second field
has no type name, the third and fourth have one that is looked up, and there are an extension and a method. -/
example : ∃ p, Hist env0 [fileA, fileB] p ∧
    (shownType (p.fieldProto 0 0) == some (.int32, [], some (nm "xY")) &&
    shownType (p.fieldProto 0 2) == some (.message, nm ".a.b.M.N", some (nm "n")) &&
    shownType (p.fieldProto 0 3) == some (.enum, nm ".a.b.M.E", some (nm "e")) &&
    shownType (p.fieldProto 2 0) == some (.message, nm ".a.b.M", some (nm "m")) &&
    (match p.extensionProto 0 with
      | .ok y => y.extendee == some (nm ".a.b.M")
      | _ => false) &&
    (match p.methodProto 0 0 with
      | .ok y => y.input == nm ".a.b.M" && y.output == nm ".a.b.M.N"
      | _ => false)) = true :=
  new_ex [[fileA, fileB]] _ (by decide +kernel)

example : ∃ p md d x y, Hist env0 [fileA, fileB] p ∧ p.messages[0]? = some md ∧ md.fields[3]? = some d ∧
    p.fieldProto 0 3 = .ok y ∧ Kept env0 p d.kind x y ∧ x.typeName = nm "M.E" ∧ y.typeName = nm ".a.b.M.E" := by
  obtain ⟨p, h, hc⟩ := new_ex [[fileA, fileB]] (fun p => match p.messages[0]? with
    | some md => md.fields.length == 4 && (md.fields[3]?).map (·.id.file) == some 0 &&
      (md.fields[3]?).map (·.id.path) == some [4, 0, 2, 3] &&
      shownType (p.fieldProto 0 3) == some (.enum, nm ".a.b.M.E", some (nm "e"))
    | none => false) (by decide +kernel)
  split at hc
  · next md hm =>
    simp only [Bool.and_eq_true, beq_iff_eq] at hc
    obtain ⟨⟨⟨hl, hfi⟩, hpa⟩, hsh⟩ := hc
    have hi := List.getElem?_eq_getElem (show 3 < md.fields.length by omega)
    obtain ⟨x, y, hs, hp, hK, _⟩ := C95_field linearSearch_ok h hm hi
    rw [hi] at hfi hpa
    simp only [Option.map_some, Option.some.injEq] at hfi hpa
    refine ⟨p, md, _, x, y, h, hm, hi, hp, hK, ?_, ?_⟩
    · obtain ⟨f, _, s, a1, _, a3, _⟩ := hs
      rw [hfi] at a1
      cases a1
      rw [hpa] at a3
      obtain ⟨q, j, m, hq, hm', hj⟩ := a3.found
      obtain ⟨rfl, _, rfl⟩ := append2_inj (q := [4, 0]) hq
      cases hm'
      cases hj
      rfl
    · rw [hp] at hsh
      simp only [shownType, Option.some.injEq, Prod.mk.injEq] at hsh
      exact hsh.2.1
  · cases hc

/-- `message M { repeated int32 xs = 1 [packed = true]; }` with the option not interpreted yet. -/
def filePackedLater : FileP where
  name := nm "l.proto"
  messages := [{
    name := nm "M"
    fields := [{ name := nm "xs", number := 1, label := .repeated, ty := .int32, options := some none }] }]

/-- The options of fields set `packed`, all of them through uninterpreted options. -/
def envPacked : Env := { env0 with fieldOpt := fun _ _ => some true }

/-- **C95 fails for uninterpreted options**: `is_packed` is settled before they are read, so that the
declaration handed out says `packed = true` for a field that is not packed. -/
theorem C95_packed_false : ∃ acc p, Hist envPacked acc p ∧
    (p.messages.map (fun m => m.fields.map (·.packed)) == [[false]] &&
    (match p.fieldProto 0 0 with
      | .ok y => y.label == .repeated && y.ty == .int32 && y.options == some (some true)
      | _ => false)) = true := by
  have h : (match buildFiles envPacked Pool.empty [filePackedLater] with
      | .ok ⟨p, []⟩ => p.messages.map (fun m => m.fields.map (·.packed)) == [[false]] &&
        (match p.fieldProto 0 0 with
          | .ok y => y.label == .repeated && y.ty == .int32 && y.options == some (some true)
          | _ => false)
      | _ => false) = true := by decide +kernel
  split at h
  · next p hb => exact ⟨_, p, .accept _ _ _ _ .empty hb, h⟩
  · cases h

end Verif.Props
