import Verif.Pool.RefSpec
import Verif.Pool.Runs3
/-!
What makes a batch of files valid, stated over the files alone.
-/
set_option autoImplicit false
namespace Verif.Pool
open Verif.Wire Verif.Dyn

/-! The full names a file declares. -/

/-- Of enums, with their values beside them. -/
def enumNames (scope : Name) (es : List EnumP) : List Name :=
  es.flatMap fun e => qualified scope e.name :: e.values.map fun v => qualified scope v.name

/-- Of services and their methods. -/
def serviceNames (scope : Name) (ss : List ServiceP) : List Name :=
  ss.flatMap fun s => qualified scope s.name ::
    s.methods.map fun m => qualified (qualified scope s.name) m.name

/-- Of extensions. -/
def extNames (scope : Name) (xs : List FieldP) : List Name := xs.map fun x => qualified scope x.name

mutual
/-- Of a message and everything inside it. -/
def msgNames (scope : Name) : MsgP → List Name
  | ⟨name, fields, exts, nested, enums, _, oneofs, _, _, _⟩ =>
    qualified scope name ::
      (oneofs.map (fun o => qualified (qualified scope name) o.name) ++
        (fields.map (fun f => qualified (qualified scope name) f.name) ++
          (msgsNames (qualified scope name) nested ++ (enumNames (qualified scope name) enums ++
            extNames (qualified scope name) exts))))
termination_by structural m => m
/-- Of messages. -/
def msgsNames (scope : Name) : List MsgP → List Name
  | [] => []
  | m :: ms => msgNames scope m ++ msgsNames scope ms
termination_by structural ms => ms
end

/-- Of a file. -/
def fileDecls (f : FileP) : List Name :=
  msgsNames f.package f.messages ++ (enumNames f.package f.enums ++
    (serviceNames f.package f.services ++ extNames f.package f.exts))

/-- The full name a callback is about. -/
def Event.full : Event → Option Name
  | .file .. => none
  | .message _ full .. | .field _ full .. | .oneof _ full .. | .service _ full .. | .method _ full ..
  | .enum _ full .. | .enumValue _ full .. | .extension _ full .. => some full

theorem Event.full_defn (e : Event) : e.full = e.defn.map Prod.fst := by cases e <;> rfl

theorem filterMap_mapIdx {α β γ : Type} {h : β → Option γ} {k : α → γ} :
    ∀ (l : List α) (g : Nat → α → β), (∀ i a, h (g i a) = some (k a)) →
      (l.mapIdx g).filterMap h = l.map k
  | [], _, _ => rfl
  | a :: l, g, hk => by
    rw [List.mapIdx_cons, List.filterMap_cons, hk 0 a]
    simp only [List.map_cons, filterMap_mapIdx l (fun i => g (i + 1)) fun i a => hk (i + 1) a]

theorem enums_full_names (path : Path) (tag : Nat) (scope : Name) (file : Nat) (parent : Option Nat) :
    ∀ (es : List EnumP) (i : Nat) (o : Offs),
      (visitEnums path tag scope file parent i es o).1.filterMap Event.full = enumNames scope es
  | [], i, o => rfl
  | e :: es, i, o => by
    have ih := enums_full_names path tag scope file parent es
    simp only [visitEnums, List.filterMap_cons, Event.full, List.filterMap_append, ih, visitValues]
    rw [filterMap_mapIdx (k := fun v => qualified scope v.name) _ _ fun i a => by
      simp only [Event.full, qualified_eq]]
    simp [enumNames, qualified_eq]

theorem exts_full_names (path : Path) (tag : Nat) (scope : Name) (file : Nat) (parent : Option Nat) :
    ∀ (es : List FieldP) (i : Nat) (o : Offs),
      (visitExts path tag scope file parent i es o).1.filterMap Event.full = extNames scope es
  | [], i, o => rfl
  | e :: es, i, o => by
    have ih := exts_full_names path tag scope file parent es
    simp only [visitExts, List.filterMap_cons, Event.full, ih]
    simp [extNames, qualified_eq]

theorem services_full_names (scope : Name) (file : Nat) : ∀ (es : List ServiceP) (i : Nat) (o : Offs),
    (visitServices scope file i es o).1.filterMap Event.full = serviceNames scope es
  | [], i, o => rfl
  | e :: es, i, o => by
    have ih := services_full_names scope file es
    simp only [visitServices, List.filterMap_cons, Event.full, List.filterMap_append, ih, visitMethods]
    rw [filterMap_mapIdx (k := fun m => qualified (qualified scope e.name) m.name) _ _ fun i a => by
      simp only [Event.full, qualified_eq]]
    simp [serviceNames, qualified_eq]

mutual
theorem msg_full_names (path : Path) (scope : Name) (file : Nat) (parent : Option Nat) :
    ∀ (m : MsgP) (o : Offs),
      (visitMsg path scope file parent m o).1.filterMap Event.full = msgNames scope m
  | ⟨name, fields, exts, nested, enums, extRanges, oneofs, options, reserved, reservedNames⟩, o => by
    simp only [visitMsg, List.filterMap_cons, Event.full, List.filterMap_append, exts_full_names,
      enums_full_names, msgs_full_names path Tag.msgNested (pushScope scope name) file (some o.message)
        nested, visitOneofs, visitFields]
    rw [filterMap_mapIdx (k := fun v : OneofP => qualified (qualified scope name) v.name) _ _ fun i a => by
      simp only [Event.full, qualified_eq],
      filterMap_mapIdx (k := fun v : FieldP => qualified (qualified scope name) v.name) _ _ fun i a => by
      simp only [Event.full, qualified_eq]]
    simp only [msgNames, qualified_eq]
theorem msgs_full_names (path : Path) (tag : Nat) (scope : Name) (file : Nat) (parent : Option Nat) :
    ∀ (ms : List MsgP) (i : Nat) (o : Offs),
      (visitMsgs path tag scope file parent i ms o).1.filterMap Event.full = msgsNames scope ms
  | [], i, o => by simp [visitMsgs, msgsNames]
  | m :: ms, i, o => by
    simp only [visitMsgs, List.filterMap_append, msg_full_names (path ++ [tag, i]) scope file parent m,
      msgs_full_names path tag scope file parent ms, msgsNames]
end

theorem file_full_names (f : FileP) (o : Offs) :
    (visitFile f o).1.filterMap Event.full = fileDecls f := by
  simp only [visitFile, List.filterMap_cons, Event.full, List.filterMap_append, exts_full_names,
    enums_full_names, msgs_full_names, services_full_names, fileDecls]

/-- The traversal meets the declared names in order. -/
theorem visit_full_names : ∀ (fs : List FileP) (o : Offs),
    (visit o fs).filterMap Event.full = fs.flatMap fileDecls
  | [], o => rfl
  | f :: fs, o => by
    simp only [visit, List.filterMap_append, file_full_names, visit_full_names fs, List.flatMap_cons]

theorem mem_decls {o : Offs} {fs : List FileP} {n : Name} :
    n ∈ fs.flatMap fileDecls ↔ ∃ e ∈ visit o fs, ∃ d, e.defn = some (n, d) := by
  rw [← visit_full_names fs o, List.mem_filterMap]
  constructor
  · rintro ⟨e, he, hf⟩
    rw [Event.full_defn, Option.map_eq_some_iff] at hf
    obtain ⟨⟨n', d⟩, h1, rfl⟩ := hf
    exact ⟨e, he, d, h1⟩
  · rintro ⟨e, he, d, hd⟩
    exact ⟨e, he, by rw [Event.full_defn, hd]; rfl⟩

/-- These are the full names of the declarations. -/
theorem mem_fileDecls {f : FileP} {n : Name} :
    n ∈ fileDecls f ↔ ∃ path s x, Has f path s x ∧ n = qualified s x.name := by
  have h0 : n ∈ fileDecls f ↔ n ∈ [f].flatMap fileDecls := by simp
  rw [h0, mem_decls (o := {})]
  constructor
  · rintro ⟨e, he, d, hd⟩
    obtain ⟨x, hx⟩ := Event.defn_item hd
    obtain ⟨j, g, s, _, hj, h3, h4⟩ := visited_has he hx
    cases j with
    | zero => cases hj; exact ⟨_, s, x, h4, h3⟩
    | succ j => cases hj
  · rintro ⟨path, s, x, h, rfl⟩
    obtain ⟨e, he, hx⟩ := has_visited (o := {}) (fs := [f]) (j := 0) rfl h
    obtain ⟨k, hk, _⟩ := Event.item_tag hx
    exact ⟨e, he, _, hk⟩

/-! Validity. -/

/-- `vis i j`: file `i` may refer to file `j`.  The sets the builder computes lie between the imports
with one public step and the imports with any number of public steps. -/
def Between (all : List FileP) (vis : Nat → Nat → Prop) : Prop :=
  ∀ i j, (NearlyVisible all i j → vis i j) ∧ (vis i j → Visible all i j)

/-- The type of a field: a scalar, or the name of a message or enum. -/
def TypeValid (all : List FileP) (vis : Nat → Prop) (scope : Name) (f : FieldP) : Prop :=
  (f.typeName = [] → scalarKind f.ty ≠ none) ∧
  (f.typeName ≠ [] → ∃ n, Refers all vis true scope f.typeName n)

/-- The default value of a field, if it has one: a text its scalar type can read, or the name of a
value of its enum. -/
def DefaultValid (env : Env) (all : List FileP) (vis : Nat → Prop) (scope : Name) (f : FieldP) : Prop :=
  ∀ s, f.default = some s →
    (f.typeName = [] → ∃ k v, scalarKind f.ty = some k ∧
      parseSimple env.fp env.checks k s = .ok (some v)) ∧
    (f.typeName ≠ [] → ∃ n j e, Refers all vis true scope f.typeName n ∧
      DeclaredAs all j n (.enum e) ∧ ∃ v ∈ e.values, v.name = s)

/-- A field of message `m`, whose full name is `scope`. -/
structure FieldValid (env : Env) (all : List FileP) (vis : Nat → Prop) (scope : Name) (m : MsgP)
    (f : FieldP) : Prop where
  number : NumberOk m f
  type : TypeValid all vis (qualified scope f.name) f
  default : DefaultValid env all vis (qualified scope f.name) f
  oneof : ∀ j, f.oneofIndex = some j → 0 ≤ j ∧ j < m.oneofs.length

/-- A message whose full name is `scope`. -/
structure MsgValid (env : Env) (all : List FileP) (vis : Nat → Prop) (scope : Name) (m : MsgP) :
    Prop where
  fields : ∀ f ∈ m.fields, FieldValid env all vis scope m f
  numbers : (m.fields.map FieldP.number).Nodup
  jsons : (m.fields.map jsonOf).Nodup

/-- An enum. -/
structure EnumValid (e : EnumP) : Prop where
  reserved : ∀ v ∈ e.values, ∀ r ∈ e.reserved, ¬ (r.1 ≤ v.number ∧ v.number ≤ r.2)
  numbers : e.allowAlias = false → (e.values.map EnumValueP.number).Nodup

/-- An extension with full name `scope`. -/
structure ExtValid (env : Env) (all : List FileP) (vis : Nat → Prop) (scope : Name) (x : FieldP) :
    Prop where
  extendee : ∃ n j m, Refers all vis false scope x.extendeeName n ∧ DeclaredAs all j n (.message m) ∧
    NumberOk m x
  type : TypeValid all vis scope x
  default : DefaultValid env all vis scope x

/-- The new files `fs`, after the accepted files `acc`. -/
structure Valid (env : Env) (acc fs : List FileP) (vis : Nat → Nat → Prop) : Prop where
  /-- known syntax -/
  syn : ∀ f ∈ fs, f.syn = none ∨ f.syn = some "proto2".toList ∨ f.syn = some "proto3".toList
  /-- files have different names -/
  files : (fs.map FileP.name).Nodup
  /-- so have declarations, also those of different files -/
  names : ((acc ++ fs).flatMap fileDecls).Nodup
  /-- no declaration is called like a package or a leading part of one -/
  packages : ∀ n ∈ (acc ++ fs).flatMap fileDecls, ∀ f ∈ acc ++ fs,
    (n ≠ [] → f.package ≠ n) ∧ ∀ r, f.package ≠ n ++ '.' :: r
  /-- in proto3, the field names of a message differ also without case and underscores -/
  camel : ∀ f ∈ fs, f.syn = some "proto3".toList → ∀ path s m, Has f path s (.message m) →
    (m.fields.map fun x => toLowerWithoutUnderscores x.name).Nodup
  /-- enums have values, and the first is zero in proto3 -/
  first : ∀ f ∈ fs, ∀ path s e, Has f path s (.enum e) →
    ∃ v r, e.values = v :: r ∧ (f.syn = some "proto3".toList → v.number = 0)
  /-- imported files are there -/
  imports : ∀ f ∈ fs, ∀ n ∈ f.deps, ∃ g ∈ acc ++ fs, g.name = n
  /-- public and weak imports point into the list of imports -/
  importIdx : ∀ f ∈ fs, ∀ j, j ∈ f.publicDeps ∨ j ∈ f.weakDeps → 0 ≤ j ∧ j < f.deps.length
  messages : ∀ (i : Nat) f, fs[i]? = some f → ∀ path s m, Has f path s (.message m) →
    MsgValid env (acc ++ fs) (vis (acc.length + i)) (qualified s m.name) m
  enums : ∀ f ∈ fs, ∀ path s e, Has f path s (.enum e) → EnumValid e
  exts : ∀ (i : Nat) f, fs[i]? = some f → ∀ path s x, Has f path s (.extension x) →
    ExtValid env (acc ++ fs) (vis (acc.length + i)) (qualified s x.name) x
  methods : ∀ (i : Nat) f, fs[i]? = some f → ∀ path s m, Has f path s (.method m) →
    (∃ n, Refers (acc ++ fs) (vis (acc.length + i)) false (qualified s m.name) m.input n) ∧
    ∃ n, Refers (acc ++ fs) (vis (acc.length + i)) false (qualified s m.name) m.output n

end Verif.Pool
