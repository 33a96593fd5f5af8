import Verif.Reflect.Files
import Verif.Reflect.Like
import Verif.Pool.Check
import Verif.Props.PoolAccept
/-!
The pool of well-known types and the types that have `ReflectMessage` built in
(prost-reflect/src/reflect/wkt.rs).
-/
set_option autoImplicit false
namespace Verif.Reflect
open Verif.Wire Verif.Dyn Verif.Pool Verif.Props Verif.Json

/-- `build_files` of an empty pool, as `make_wkt_descriptor_pool` calls it (reflect/wkt.rs:5474-5476): the
pool, nothing for an `Err`. -/
def makeFrom (env : Env) (fs : List FileP) : Res (Option Pool) :=
  match buildFiles env Pool.empty fs with
  | .ok ⟨q, []⟩ => .ok (some q)
  | .ok ⟨_, _ :: _⟩ => .ok none
  | .error e => .error e

/-- `make_wkt_descriptor_pool` (reflect/wkt.rs:5472-5477). -/
def makePool (env : Env) : Res (Option Pool) := makeFrom env wktFiles

theorem makeFrom_iff {env : Env} {fs : List FileP} {q : Pool} : makeFrom env fs = .ok (some q) ↔
    buildFiles env Pool.empty fs = .ok ⟨q, []⟩ := by
  unfold makeFrom
  constructor
  · intro h
    split at h
    · next q' hb => cases h; exact hb
    · cases h
    · cases h
  · intro h
    rw [h]

theorem accepts_first {env : Env} {fs : List FileP} {q : Pool} (h : makeFrom env fs = .ok (some q)) :
    Accepts env fs q := by
  have := Accepts.accept [] Pool.empty fs q .empty (makeFrom_iff.1 h)
  have hnew : fs.filter (fun f => (lookupN Pool.empty.fileNames f.name).isNone) = fs :=
    List.filter_eq_self.2 fun f _ => rfl
  rw [List.nil_append, hnew] at this
  exact this

/-- The types of `impl_reflect_message!` and the names given to them (reflect/wkt.rs:5502-5561). -/
def builtin : List (String × Name) :=
   [("()", "google.protobuf.Empty".toList),
    ("bool", "google.protobuf.BoolValue".toList),
    ("f32", "google.protobuf.FloatValue".toList),
    ("f64", "google.protobuf.DoubleValue".toList),
    ("i32", "google.protobuf.Int32Value".toList),
    ("i64", "google.protobuf.Int64Value".toList),
    ("std::string::String", "google.protobuf.StringValue".toList),
    ("u32", "google.protobuf.UInt32Value".toList),
    ("u64", "google.protobuf.UInt64Value".toList),
    ("Vec<u8>", "google.protobuf.BytesValue".toList),
    ("prost_types::Any", "google.protobuf.Any".toList),
    ("prost_types::Api", "google.protobuf.Api".toList),
    ("prost_types::compiler::CodeGeneratorRequest", "google.protobuf.compiler.CodeGeneratorRequest".toList),
    ("prost_types::compiler::CodeGeneratorResponse", "google.protobuf.compiler.CodeGeneratorResponse".toList),
    ("prost_types::compiler::code_generator_response::File", "google.protobuf.compiler.CodeGeneratorResponse.File".toList),
    ("prost_types::compiler::Version", "google.protobuf.compiler.Version".toList),
    ("prost_types::DescriptorProto", "google.protobuf.DescriptorProto".toList),
    ("prost_types::descriptor_proto::ExtensionRange", "google.protobuf.DescriptorProto.ExtensionRange".toList),
    ("prost_types::descriptor_proto::ReservedRange", "google.protobuf.DescriptorProto.ReservedRange".toList),
    ("prost_types::Duration", "google.protobuf.Duration".toList),
    ("prost_types::Enum", "google.protobuf.Enum".toList),
    ("prost_types::EnumDescriptorProto", "google.protobuf.EnumDescriptorProto".toList),
    ("prost_types::enum_descriptor_proto::EnumReservedRange", "google.protobuf.EnumDescriptorProto.EnumReservedRange".toList),
    ("prost_types::EnumOptions", "google.protobuf.EnumOptions".toList),
    ("prost_types::EnumValue", "google.protobuf.EnumValue".toList),
    ("prost_types::EnumValueDescriptorProto", "google.protobuf.EnumValueDescriptorProto".toList),
    ("prost_types::EnumValueOptions", "google.protobuf.EnumValueOptions".toList),
    ("prost_types::ExtensionRangeOptions", "google.protobuf.ExtensionRangeOptions".toList),
    ("prost_types::Field", "google.protobuf.Field".toList),
    ("prost_types::FieldDescriptorProto", "google.protobuf.FieldDescriptorProto".toList),
    ("prost_types::FieldMask", "google.protobuf.FieldMask".toList),
    ("prost_types::FieldOptions", "google.protobuf.FieldOptions".toList),
    ("prost_types::FileDescriptorProto", "google.protobuf.FileDescriptorProto".toList),
    ("prost_types::FileDescriptorSet", "google.protobuf.FileDescriptorSet".toList),
    ("prost_types::FileOptions", "google.protobuf.FileOptions".toList),
    ("prost_types::GeneratedCodeInfo", "google.protobuf.GeneratedCodeInfo".toList),
    ("prost_types::generated_code_info::Annotation", "google.protobuf.GeneratedCodeInfo.Annotation".toList),
    ("prost_types::ListValue", "google.protobuf.ListValue".toList),
    ("prost_types::MessageOptions", "google.protobuf.MessageOptions".toList),
    ("prost_types::Method", "google.protobuf.Method".toList),
    ("prost_types::MethodDescriptorProto", "google.protobuf.MethodDescriptorProto".toList),
    ("prost_types::MethodOptions", "google.protobuf.MethodOptions".toList),
    ("prost_types::Mixin", "google.protobuf.Mixin".toList),
    ("prost_types::OneofDescriptorProto", "google.protobuf.OneofDescriptorProto".toList),
    ("prost_types::OneofOptions", "google.protobuf.OneofOptions".toList),
    ("prost_types::Option", "google.protobuf.Option".toList),
    ("prost_types::ServiceDescriptorProto", "google.protobuf.ServiceDescriptorProto".toList),
    ("prost_types::ServiceOptions", "google.protobuf.ServiceOptions".toList),
    ("prost_types::SourceCodeInfo", "google.protobuf.SourceCodeInfo".toList),
    ("prost_types::source_code_info::Location", "google.protobuf.SourceCodeInfo.Location".toList),
    ("prost_types::SourceContext", "google.protobuf.SourceContext".toList),
    ("prost_types::Struct", "google.protobuf.Struct".toList),
    ("prost_types::Timestamp", "google.protobuf.Timestamp".toList),
    ("prost_types::Type", "google.protobuf.Type".toList),
    ("prost_types::UninterpretedOption", "google.protobuf.UninterpretedOption".toList),
    ("prost_types::uninterpreted_option::NamePart", "google.protobuf.UninterpretedOption.NamePart".toList),
    ("prost_types::Value", "google.protobuf.Value".toList),
    ("prost::bytes::Bytes", "google.protobuf.BytesValue".toList)]

/-- `ReflectMessage::descriptor` of these types, once it has its copy of the global pool; nothing for
the panic (reflect/wkt.rs:5484-5489). -/
def descriptor (p : Pool) (name : Name) : Option Nat := p.messageByName name

/-! ### Checks of the tables -/

set_option maxRecDepth 100000 in
theorem wkt_check : checkB wktFiles = true := by decide +kernel

theorem wkt_no_public : ∀ f ∈ wktFiles, f.publicDeps = [] := by
  intro f hf
  simp only [wktFiles, List.mem_cons, List.not_mem_nil, or_false] at hf
  rcases hf with rfl | rfl | rfl | rfl | rfl | rfl | rfl | rfl | rfl | rfl | rfl | rfl <;> rfl

/-- The declared messages. -/
def declared : List (Nat × Nat × MsgP) := (visit {} wktFiles).filterMap fun
  | .message _ full fi _ _ m => some (code full, fi, m)
  | _ => none

theorem declared_has {c fi : Nat} {m : MsgP} (h : (c, fi, m) ∈ declared) : ∃ f path s, wktFiles[fi]? = some f ∧
    Has f path s (.message m) ∧ code (qualified s m.name) = c := by
  obtain ⟨e, he, hm⟩ := List.mem_filterMap.1 h
  cases e <;> simp only [reduceCtorEq, Option.some.injEq, Prod.mk.injEq] at hm
  obtain ⟨rfl, rfl, rfl⟩ := hm
  obtain ⟨j, f, s, h1, h2, h3, h4⟩ := visited_has he rfl
  have : j = _ := (show 0 + j = j by omega).symm.trans h1.symm
  subst this
  exact ⟨f, _, s, h2, h4, by rw [h3]; rfl⟩

/-- Every built-in type names a declared message. -/
def builtinB : Bool :=
  let l := declared.map (·.1)
  builtin.all fun r => Nat.blt 0 (code r.2) && !freshB (code r.2) l

set_option maxRecDepth 100000 in
theorem builtinB_true : builtinB = true := by decide +kernel

theorem builtin_declared {t : String} {n : Name} (h : (t, n) ∈ builtin) : ∃ f path s m, f ∈ wktFiles ∧
    Has f path s (.message m) ∧ qualified s m.name = n := by
  have := builtinB_true
  unfold builtinB at this
  simp only [List.all_eq_true, Bool.and_eq_true, Bool.not_eq_true'] at this
  have := (this _ h).2
  have hm : code n ∈ declared.map (·.1) := by
    apply Classical.byContradiction
    intro hc
    rw [freshB_iff.2 hc] at this
    cases this
  obtain ⟨⟨c, fi, m⟩, h1, h2⟩ := List.mem_map.1 hm
  obtain ⟨f, path, s, h3, h4, h5⟩ := declared_has h1
  exact ⟨f, path, s, m, List.mem_of_getElem? h3, h4, code_inj (h5.trans h2)⟩

theorem builtin_dot : ∀ r ∈ builtin, r.2.head? ≠ some '.' := by decide +kernel

/-! ### The well-known types among them -/

/-- Decides `TypeIs`. -/
def typeIsB (x : FieldP) : Kind → Bool
  | .message i =>
    match stdSchema.msg? i with
    | some td => Nat.beq (code x.typeName) (code ('.' :: td.name)) && decide (x.ty ≠ .group)
    | none => false
  | .enum _ => Nat.beq (code x.typeName) (code ('.' :: nullName))
  | k => x.typeName.isEmpty && decide (scalarKind x.ty = some k)

theorem typeIsB_is {x : FieldP} {k : Kind} (h : typeIsB x k = true) : TypeIs x k := by
  cases k with
  | message i =>
    simp only [typeIsB] at h
    split at h
    · next td ht =>
      simp only [Bool.and_eq_true, decide_eq_true_eq] at h
      exact ⟨td, ht, code_inj (Nat.eq_of_beq_eq_true h.1), h.2⟩
    · cases h
  | enum i => exact code_inj (Nat.eq_of_beq_eq_true h)
  | _ =>
    simp only [typeIsB, Bool.and_eq_true, List.isEmpty_iff, decide_eq_true_eq] at h
    exact h

/-- Decides `FieldLike`. -/
def fieldLikeB (syn : Syn) (x : FieldP) (g : FieldDesc) : Bool :=
  decide (x.number = (g.number : Int)) && decide (x.label = g.card) && typeIsB x g.kind &&
    (supportsPresence syn x (some (g.kind, false)) == g.presence) &&
    (isPacked syn x (some (g.kind, false)) == g.packed) && x.default.isNone &&
    decide (x.oneofIndex = g.oneof.map Int.ofNat)

theorem fieldLikeB_like {syn : Syn} {x : FieldP} {g : FieldDesc} (h : fieldLikeB syn x g = true) :
    FieldLike syn x g := by
  simp only [fieldLikeB, Bool.and_eq_true, decide_eq_true_eq, beq_iff_eq, Option.isNone_iff_eq_none] at h
  obtain ⟨⟨⟨⟨⟨⟨h1, h2⟩, h3⟩, h4⟩, h5⟩, h6⟩, h7⟩ := h
  exact ⟨h1, h2, typeIsB_is h3, h4, h5, h6, h7⟩

/-- Decides `MsgLike` of the fields. -/
def fieldsLikeB (syn : Syn) : List FieldP → List FieldDesc → Bool
  | [], [] => true
  | x :: xs, g :: gs => fieldLikeB syn x g && fieldsLikeB syn xs gs
  | _, _ => false

theorem fieldsLikeB_like {syn : Syn} : ∀ {xs : List FieldP} {gs : List FieldDesc}, fieldsLikeB syn xs gs = true →
    xs.length = gs.length ∧ ∀ (i : Nat) f g, xs[i]? = some f → gs[i]? = some g → FieldLike syn f g
  | [], [], _ => ⟨rfl, fun i f g h => by cases h⟩
  | [], _ :: _, h => by cases h
  | _ :: _, [], h => by cases h
  | x :: xs, g :: gs, h => by
    simp only [fieldsLikeB, Bool.and_eq_true] at h
    obtain ⟨h1, h2⟩ := fieldsLikeB_like h.2
    refine ⟨by simp [h1], fun i f g hf hg => ?_⟩
    cases i with
    | zero => cases hf; cases hg; exact fieldLikeB_like h.1
    | succ i => exact h2 i f g hf hg

/-- Decides `MsgLike`. -/
def msgLikeB (syn : Syn) (x : MsgP) (td : MsgDesc) : Bool :=
  fieldsLikeB syn x.fields td.fields && ((x.options == some (some true)) == td.mapEntry) && x.extRanges.isEmpty

theorem msgLikeB_like {syn : Syn} {x : MsgP} {td : MsgDesc} (h : msgLikeB syn x td = true) : MsgLike syn x td := by
  simp only [msgLikeB, Bool.and_eq_true, beq_iff_eq, List.isEmpty_iff] at h
  obtain ⟨h1, h2⟩ := fieldsLikeB_like h.1.1
  refine ⟨h1, h2, ?_, h.2⟩
  rw [← h.1.2]

/-- The files declare the types of the table as the table says. -/
def stdB : Bool :=
  let l := declared
  stdSchema.msgs.all fun td => l.any fun r => Nat.beq r.1 (code td.name) &&
    match wktFiles[r.2.1]? with
    | some f =>
      match parseSyn f.syn with
      | some syn => msgLikeB syn r.2.2 td
      | none => false
    | none => false

set_option maxRecDepth 100000 in
theorem stdB_true : stdB = true := by decide +kernel

theorem std_declared {i : Nat} {td : MsgDesc} (h : stdSchema.msg? i = some td) : ∃ f path s m syn, f ∈ wktFiles ∧
    Has f path s (.message m) ∧ qualified s m.name = td.name ∧ parseSyn f.syn = some syn ∧ MsgLike syn m td := by
  have := stdB_true
  unfold stdB at this
  simp only [List.all_eq_true, List.any_eq_true, Bool.and_eq_true] at this
  obtain ⟨⟨c, fi, m⟩, h1, h2, h3⟩ := this td (List.mem_of_getElem? h)
  obtain ⟨f, path, s, h4, h5, h6⟩ := declared_has h1
  simp only [h4] at h3
  split at h3
  · next syn hsyn =>
    exact ⟨f, path, s, m, syn, List.mem_of_getElem? h4, h5,
      code_inj (h6.trans (Nat.eq_of_beq_eq_true h2)), hsyn, msgLikeB_like h3⟩
  · cases h3

/-- `NullValue` is declared as an enum. -/
theorem null_declared : ∃ f path s e, f ∈ wktFiles ∧ Has f path s (.enum e) ∧ qualified s e.name = nullName := by
  refine ⟨structProto, _, _, _, by simp [wktFiles], .enum 0 _ rfl, ?_⟩
  decide +kernel

section
variable {env : Env} (hsr : SearchOk env.search) {acc : List FileP} {p : Pool}
include hsr

/-- In a pool that was built from these files among others, the types of the table are declared as
the table says. -/
theorem standard_of_files (h : Hist env acc p) (hw : ∀ f ∈ wktFiles, f ∈ acc) : Standard acc where
  message j g path s m syn i td hj hm hsyn ht hn := by
    obtain ⟨f', path', s', m', syn', h1, h2, h3, h4, h5⟩ := std_declared ht
    obtain ⟨j', hj'⟩ := List.getElem?_of_mem (hw f' h1)
    obtain ⟨rfl, _, h6⟩ := C18_unique hsr h hj hj' hm h2 (hn.trans h3.symm)
    rw [hj] at hj'; cases hj'
    cases h6
    rw [hsyn] at h4; cases h4
    exact h5
  noEnum j g path s e i td hj he ht hn := by
    obtain ⟨f', path', s', m', syn', h1, h2, h3, h4, h5⟩ := std_declared ht
    obtain ⟨j', hj'⟩ := List.getElem?_of_mem (hw f' h1)
    obtain ⟨_, _, h6⟩ := C18_unique hsr h hj hj' he h2 (hn.trans h3.symm)
    cases h6
  null j g path s m hj hm hn := by
    obtain ⟨f', path', s', e', h1, h2, h3⟩ := null_declared
    obtain ⟨j', hj'⟩ := List.getElem?_of_mem (hw f' h1)
    obtain ⟨_, _, h6⟩ := C18_unique hsr h hj hj' hm h2 (hn.trans h3.symm)
    cases h6

/-- The files are accepted by an empty pool. -/
theorem wkt_accepted (hstack : 12 ≤ env.stack) (hopt : ∀ q, ∀ e ∈ visit {} wktFiles, env.optErr q e = .ok false) :
    ∃ q, buildFiles env Pool.empty wktFiles = .ok ⟨q, []⟩ := by
  have hnew : newFiles Pool.empty wktFiles = wktFiles := by
    unfold newFiles
    exact List.filter_eq_self.2 fun f _ => rfl
  refine C88_accepted_partial hsr (given := []) (acc := []) .empty nofun ?_ ?_ ?_ ?_ ?_ <;>
    rw [hnew]
  · exact fun i => no_public_plus wkt_no_public i
  · exact hstack
  · exact hopt
  · refine no_empty ?_
    exact (checkB_valid (env := env) (vis := Visible wktFiles) wkt_check fun _ _ => ⟨fun h => h.visible, id⟩).2
  · exact fun vis hb => (checkB_valid wkt_check hb).1

end
end Verif.Reflect
