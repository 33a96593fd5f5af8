import Verif.Pool.RefSpec
import Verif.Props.PoolNames
/-!
Name resolution and visibility: C22, C23 and C51.

The theorems speak about `acc`, the files accepted so far, and about the pool that an accepted
addition yields.  `Refers` and `Visible` (`Verif.Pool.RefSpec`, `Verif.Pool.Visible`) are stated over
the declarations of those files alone.
-/
set_option autoImplicit false
namespace Verif.Props
open Verif.Wire Verif.Dyn Verif.Pool

/-- The files an addition takes into account: those whose name is not yet taken. -/
def fresh (p : Pool) (fs : List FileP) : List FileP :=
  fs.filter fun f => (lookupN p.fileNames f.name).isNone

/-- The kind of a field or extension is the message or enum with full name `n`. -/
def KindNamed (q : Pool) (n : Name) : Kind → Prop
  | .message t => ∃ d, q.messages[t]? = some d ∧ d.id.fullName = n
  | .enum t => ∃ d, q.enums[t]? = some d ∧ d.id.fullName = n
  | _ => False

/-- Message number `t` has full name `n`. -/
def MessageNamed (q : Pool) (n : Name) (t : Nat) : Prop :=
  ∃ d, q.messages[t]? = some d ∧ d.id.fullName = n

theorem qualified_nil {s n : Name} (h : qualified s n = []) : s = [] := by
  unfold qualified at h
  split at h
  · assumption
  · simp at h

/-- Every field that file `i` declares has a descriptor, whose type is the one the type name refers
to, seen from the full name of the field. -/
def FieldsRefer (acc : List FileP) (q : Pool) (vis : Nat → Prop) (i : Nat) (f : FileP) : Prop :=
  ∀ path s x, Has f path s (.field x) → ∃ (k : Nat) (md : MsgD) (idx : Nat) (d : FieldD),
    q.messages[k]? = some md ∧ md.fields[idx]? = some d ∧ d.id.file = i ∧ d.id.path = path ∧
    d.id.fullName = qualified s x.name ∧
    (x.typeName ≠ [] → ∃ n, KindNamed q n d.kind ∧
      Refers acc vis true (qualified s x.name) x.typeName n)

/-- The same for extensions, and for the message they extend.  An extension with an empty full name
is left out: its references are looked up as complete names. -/
def ExtensionsRefer (acc : List FileP) (q : Pool) (vis : Nat → Prop) (i : Nat) (f : FileP) : Prop :=
  ∀ path s x, Has f path s (.extension x) → ∃ (k : Nat) (d : ExtD), q.extensions[k]? = some d ∧
    d.id.file = i ∧ d.id.path = path ∧ d.id.fullName = qualified s x.name ∧
    (qualified s x.name ≠ [] →
      (∃ n, MessageNamed q n d.extendee ∧
        Refers acc vis false (qualified s x.name) x.extendeeName n) ∧
      (x.typeName ≠ [] → ∃ n, KindNamed q n d.kind ∧
        Refers acc vis true (qualified s x.name) x.typeName n))

/-- The same for the input and output of methods. -/
def MethodsRefer (acc : List FileP) (q : Pool) (vis : Nat → Prop) (i : Nat) (f : FileP) : Prop :=
  ∀ path s x, Has f path s (.method x) → ∃ (k : Nat) (sd : SvcD) (idx : Nat) (d : MethodD),
    q.services[k]? = some sd ∧ sd.methods[idx]? = some d ∧ d.id.file = i ∧ d.id.path = path ∧
    d.id.fullName = qualified s x.name ∧
    (∃ n, MessageNamed q n d.input ∧ Refers acc vis false (qualified s x.name) x.input n) ∧
    (∃ n, MessageNamed q n d.output ∧ Refers acc vis false (qualified s x.name) x.output n)

section
variable {env : Env} (hsr : SearchOk env.search) {acc : List FileP} {p q : Pool} {fs : List FileP}
include hsr

/-- Facts about one new file of an accepted addition. -/
theorem accepted (h : Hist env acc p) (hb : buildFiles env p fs = .ok ⟨q, []⟩) {i : Nat} {f : FileP}
    (hi : acc.length ≤ i) (hf : (acc ++ fresh p fs)[i]? = some f) :
    Added env p (fresh p fs) q ∧ Desc env (acc ++ fresh p fs) q ∧
    (fresh p fs)[i - acc.length]? = some f ∧
    ∃ fd, q.files[i]? = some fd ∧ (∀ j ∈ fd.trans, Visible (acc ++ fresh p fs) i j) ∧
      ∀ j, NearlyVisible (acc ++ fresh p fs) i j → j ∈ fd.trans := by
  have hD := h.desc hsr
  have hD' := (Hist.accept acc p fs q h hb).desc hsr
  rw [List.getElem?_append_right hi] at hf
  rcases buildFiles_accept hsr hD.ok hb with ⟨h1, _⟩ | ha
  · rw [show fresh p fs = [] from h1] at hf; simp at hf
  · refine ⟨ha, hD', hf, ?_⟩
    have hv := visit_files (fresh p fs) p.offs _ _ hf
    have hlen : p.offs.file = acc.length := by
      rw [hD.offs, offsAfter_file]
      show 0 + _ = _
      omega
    rw [hlen, show acc.length + (i - acc.length) = i by omega] at hv
    obtain ⟨fd, g1, _, g2, g3, _⟩ := ha.resolved _ hv
    refine ⟨fd, g1, hD'.trans_of ?_ g2 g3⟩
    show (acc ++ fresh p fs)[i]? = some f
    rw [List.getElem?_append_right hi]
    exact hf

theorem file_offset (h : Hist env acc p) : p.offs.file = acc.length := by
  rw [(h.desc hsr).offs, offsAfter_file]
  show 0 + _ = _
  omega

/-! ### C22 -/

/-- **C22, accepted files.** In an accepted addition every reference of a new file - the types of fields
and extensions, the extended messages, the inputs and outputs of methods - is to the type that the
written name refers to by the rules in `Refers`.  `vis` are the files visible from the file: the same
for all its references, and bounded on both sides. -/
theorem C22_accepted (h : Hist env acc p) (hb : buildFiles env p fs = .ok ⟨q, []⟩) {i : Nat} {f : FileP}
    (hi : acc.length ≤ i) (hf : (acc ++ fresh p fs)[i]? = some f) :
    ∃ vis : Nat → Prop, (∀ j, vis j → Visible (acc ++ fresh p fs) i j) ∧
      (∀ j, NearlyVisible (acc ++ fresh p fs) i j → vis j) ∧
      FieldsRefer (acc ++ fresh p fs) q vis i f ∧ ExtensionsRefer (acc ++ fresh p fs) q vis i f ∧
      MethodsRefer (acc ++ fresh p fs) q vis i f := by
  obtain ⟨ha, hD', hf', fd, hfd, hv1, hv2⟩ := accepted hsr h hb hi hf
  have hlen := file_offset hsr h
  have hN := Hist.accept acc p fs q h hb
  have kindOf : ∀ {x : FieldP} {scope : Name} {k : Kind} {g : Bool}, scope ≠ [] →
      TypeOk fd.trans q.names scope x k g → x.typeName ≠ [] → ∃ n, KindNamed q n k ∧
        Refers (acc ++ fresh p fs) (· ∈ fd.trans) true scope x.typeName n := by
    intro x scope k g hs ht hne
    cases ht with
    | scalar k h0 => exact absurd h0 hne
    | message n d t _ hr hk =>
      refine ⟨n, ?_, (hD'.resolve_iff (enums := true) hs).1 ⟨d, hr⟩⟩
      have := (resolveName_found hr).1
      refine (hD'.message_name n t).1 ⟨d.file, d.path, ?_⟩
      rw [this, ← hk]
    | enum n d t _ hr hk =>
      refine ⟨n, ?_, (hD'.resolve_iff (enums := true) hs).1 ⟨d, hr⟩⟩
      have := (resolveName_found hr).1
      refine (hD'.enum_name n t).1 ⟨d.file, d.path, ?_⟩
      rw [this, ← hk]
  have msgOf : ∀ {name scope : Name} {k : Nat}, scope ≠ [] →
      MessageOk fd.trans q.names scope name k → ∃ n, MessageNamed q n k ∧
        Refers (acc ++ fresh p fs) (· ∈ fd.trans) false scope name n := by
    rintro name scope k hs ⟨n, d, hr, hk⟩
    refine ⟨n, ?_, (hD'.resolve_iff (enums := false) hs).1 ⟨d, hr⟩⟩
    have := (resolveName_found hr).1
    refine (hD'.message_name n k).1 ⟨d.file, d.path, ?_⟩
    rw [this, ← hk]
  refine ⟨(· ∈ fd.trans), hv1, hv2, ?_, ?_, ?_⟩
  · intro path s x hx
    obtain ⟨e, he, hei⟩ := has_visited (o := p.offs) hf' hx
    rw [show qualified s (Item.field x).name = qualified s x.name from rfl] at hei
    cases e <;> simp only [Event.item, Option.some.injEq, Prod.mk.injEq, reduceCtorEq, and_false,
      Item.field.injEq] at hei
    obtain ⟨h0, hpath, hfull, rfl⟩ := hei
    obtain ⟨fd', md, d, g1, _, g2, g3, _, g4⟩ := ha.resolved _ he
    have hfi : p.offs.file + (i - acc.length) = i := by omega
    rw [h0, hfi] at g1
    rw [hfd] at g1; cases g1
    refine ⟨_, md, _, d, g2, g3, ?_, by rw [g4.id]; exact hpath, by rw [g4.id]; exact hfull, fun hne => ?_⟩
    · rw [g4.id]; simp only [Ident.mk']; omega
    · rw [← hfull]
      refine kindOf ?_ g4.kind hne
      rw [hfull]
      intro hnil
      -- the message around the field would have the same, empty, name
      cases hx with
      | field path' s' m i' x' hm _ =>
        have hs := qualified_nil hnil
        have := C18_unique hsr hN hf hf hm (.field _ _ _ _ _ hm (by assumption)) (by
          show qualified s' m.name = _
          exact hs.trans hnil.symm)
        cases this.2.2
  · intro path s x hx
    obtain ⟨e, he, hei⟩ := has_visited (o := p.offs) hf' hx
    rw [show qualified s (Item.extension x).name = qualified s x.name from rfl] at hei
    cases e <;> simp only [Event.item, Option.some.injEq, Prod.mk.injEq, reduceCtorEq, and_false,
      Item.extension.injEq] at hei
    obtain ⟨h0, hpath, hfull, rfl⟩ := hei
    obtain ⟨fd', d, g1, _, g2, _, g4⟩ := ha.resolved _ he
    have hfi : p.offs.file + (i - acc.length) = i := by omega
    rw [h0, hfi] at g1
    rw [hfd] at g1; cases g1
    refine ⟨_, d, g2, ?_, by rw [g4.id]; exact hpath, by rw [g4.id]; exact hfull, fun hne => ?_⟩
    · rw [g4.id]; simp only [Ident.mk']; omega
    · rw [← hfull] at hne ⊢
      exact ⟨msgOf hne g4.extendee, kindOf hne g4.kind⟩
  · intro path s x hx
    have hne : qualified s x.name ≠ [] := by
      intro hnil
      cases hx with
      | method path' s' m i' x' hm hi' =>
        have hs := qualified_nil hnil
        have := C18_unique hsr hN hf hf hm (.method _ _ _ _ _ hm hi') (hs.trans hnil.symm)
        cases this.2.2
    obtain ⟨e, he, hei⟩ := has_visited (o := p.offs) hf' hx
    rw [show qualified s (Item.method x).name = qualified s x.name from rfl] at hei
    cases e <;> simp only [Event.item, Option.some.injEq, Prod.mk.injEq, reduceCtorEq, and_false,
      Item.method.injEq] at hei
    obtain ⟨h0, hpath, hfull, rfl⟩ := hei
    obtain ⟨fd', sd, d, g1, _, g2, g3, g4, g5, g6⟩ := ha.resolved _ he
    have hfi : p.offs.file + (i - acc.length) = i := by omega
    rw [h0, hfi] at g1
    rw [hfd] at g1; cases g1
    refine ⟨_, sd, _, d, g2, g3, ?_, by rw [g4]; exact hpath, by rw [g4]; exact hfull, ?_⟩
    · rw [g4]; simp only [Ident.mk']; omega
    · rw [← hfull]
      rw [← hfull] at hne
      exact ⟨msgOf hne g5, msgOf hne g6⟩

/-- **C22, every name.** Looking up any name from any scope of a pool finds a type exactly if the name
refers to it by the rules in `Refers`; `deps` is the set of visible files. -/
theorem C22_resolve (h : Hist env acc p) (deps : List Nat) (enums : Bool) {scope : Name}
    (hs : scope ≠ []) (name n : Name) :
    (∃ d, resolveName deps p.names scope name (if enums then .fieldType else .message) = .found n d) ↔
      Refers acc (· ∈ deps) enums scope name n :=
  (h.desc hsr).resolve_iff hs

end

/-- **C22, independence.** Two name tables that agree on the candidates - the complete name, and for
each enclosing scope the first part and the whole name in it - give the same result, also when it is
an error. -/
theorem C22_independent (deps : List Nat) (t t' : List (Name × Def)) (filter : Filter)
    (scope name : Name)
    (hfull : ∀ r, name = '.' :: r → lookupN t r = lookupN t' r)
    (hrel : ∀ p, Encloses p scope → lookupN t (qualified p name) = lookupN t' (qualified p name) ∧
      ∀ first rest, name = first ++ '.' :: rest → '.' ∉ first →
        lookupN t (qualified p first) = lookupN t' (qualified p first)) :
    resolveName deps t scope name filter = resolveName deps t' scope name filter := by
  have hnew : ∀ n, lookupN t n = lookupN t' n → RR.new deps t n filter = RR.new deps t' n filter := by
    intro n hn
    unfold RR.new
    rw [hn]
  have hloop : ∀ (ps : List Name), (∀ p ∈ ps, Encloses p scope) → ∀ err,
      relLoop deps t name filter err ps = relLoop deps t' name filter err ps := by
    intro ps
    induction ps with
    | nil => intro _ err; rfl
    | cons q ps ih =>
      intro hps err
      have ih := ih fun p hp => hps p (List.mem_cons_of_mem _ hp)
      obtain ⟨h1, h2⟩ := hrel q (hps q (List.mem_cons_self ..))
      rw [qualified_eq] at h1
      have hfirst : lookupN t (pushScope q (firstPart name)) = lookupN t' (pushScope q (firstPart name)) := by
        by_cases hd : '.' ∈ name
        · obtain ⟨first, rest, rfl, hf⟩ := split_first hd
          rw [firstPart_dotted hf, ← qualified_eq]
          exact h2 first rest rfl hf
        · rw [firstPart_simple hd]; exact h1
      simp only [relLoop, hnew _ h1, hnew _ hfirst, hfirst, ih]
  unfold resolveName
  split
  · next full => exact hnew _ (hfull _ rfl)
  · split
    · next hs =>
      refine hnew _ ?_
      have := (hrel [] (by right; left; rfl)).1
      rwa [show qualified [] name = name from rfl] at this
    · exact hloop _ (fun p hp => mem_candidateParents.1 hp) _

/-- `package a.b; message M { message N {} N x = 1; M.N y = 2; .a.b.N z = 3; } message N {}` -/
def fileScopes : FileP where
  name := nm "scopes.proto"
  package := nm "a.b"
  messages := [{
    name := nm "M"
    nested := [{ name := nm "N" }]
    fields := [
      { name := nm "x", number := 1, ty := .message, typeName := nm "N" },
      { name := nm "y", number := 2, ty := .message, typeName := nm "M.N" },
      { name := nm "z", number := 3, ty := .message, typeName := nm ".a.b.N" },
      { name := nm "w", number := 4, ty := .message, typeName := nm "b.N" }] },
    { name := nm "N" }]

/-- The hypotheses of the C22 theorems hold: a file is accepted whose fields refer to types in all
three ways, and an inner message hides an outer one. -/
example : ∃ acc p q es, Hist env0 acc p ∧ buildFiles env0 p [fileScopes] = .ok ⟨q, es⟩ ∧
    (es.isEmpty && (q.messages.map fun m => m.id.fullName) == [nm "c.Q", nm "a.b.M", nm "a.b.M.N", nm "a.b.N"]
      && (q.messages.map fun m => m.fields.map fun d => d.kind) ==
        [[], [.message 2, .message 2, .message 3, .message 3], [], []]) = true :=
  step_ex [[{ name := nm "o.proto", package := nm "c", messages := [{ name := nm "Q" }] }]]
    [fileScopes] _ (by decide +kernel)

/-! ### C23 -/

/-- The type of a field or extension lies in a file visible from file `i`. -/
def KindVisible (acc : List FileP) (p : Pool) (i : Nat) : Kind → Prop
  | .message t => ∃ d, p.messages[t]? = some d ∧ Visible acc i d.id.file
  | .enum t => ∃ d, p.enums[t]? = some d ∧ Visible acc i d.id.file
  | _ => True

/-- Message number `t` lies in a file visible from file `i`. -/
def MessageVisible (acc : List FileP) (p : Pool) (i t : Nat) : Prop :=
  ∃ d, p.messages[t]? = some d ∧ Visible acc i d.id.file

/-- The references of one declaration. -/
def RefVisible (acc : List FileP) (p : Pool) : Event → Prop
  | .field _ _ fi k i _ => ∃ md d, p.messages[k]? = some md ∧ md.fields[i]? = some d ∧
      KindVisible acc p fi d.kind
  | .extension _ _ fi _ i _ => ∃ d, p.extensions[i]? = some d ∧ KindVisible acc p fi d.kind ∧
      MessageVisible acc p fi d.extendee
  | .method _ _ fi k i _ => ∃ sd d, p.services[k]? = some sd ∧ sd.methods[i]? = some d ∧
      MessageVisible acc p fi d.input ∧ MessageVisible acc p fi d.output
  | _ => True

theorem imports_mono {acc l : List FileP} {i j : Nat} (h : Imports acc i j) : Imports (acc ++ l) i j := by
  obtain ⟨f, g, h1, h2, h3⟩ := h
  exact ⟨f, g, getElem?_append_of_some _ h1, getElem?_append_of_some _ h2, h3⟩

theorem publicImports_mono {acc l : List FileP} {i j : Nat} (h : PublicImports acc i j) :
    PublicImports (acc ++ l) i j := by
  obtain ⟨f, g, k, h1, h2, h3⟩ := h
  exact ⟨f, g, k, getElem?_append_of_some _ h1, getElem?_append_of_some _ h2, h3⟩

theorem visible_mono {acc l : List FileP} {i j : Nat} (h : Visible acc i j) :
    Visible (acc ++ l) i j := by
  rcases h with rfl | ⟨k, h1, h2⟩
  · exact .inl rfl
  · refine .inr ⟨k, imports_mono h1, ?_⟩
    clear h1
    induction h2 with
    | refl i => exact .refl i
    | step i j k h1 _ ih => exact .step i j k (publicImports_mono h1) ih

theorem MessageVisible.keeps {acc l : List FileP} {p q : Pool} (hk : Keeps p q) {i t : Nat}
    (h : MessageVisible acc p i t) : MessageVisible (acc ++ l) q i t := by
  obtain ⟨d, h1, h2⟩ := h
  obtain ⟨d', g1, g2⟩ := hk.messages _ _ h1
  refine ⟨d', g1, ?_⟩
  have : d'.forget.id = d.forget.id := congrArg MsgD.id g2
  replace this : d'.id = d.id := this
  rw [this]
  exact visible_mono h2

theorem KindVisible.keeps {acc l : List FileP} {p q : Pool} (hk : Keeps p q) {i : Nat} {k : Kind}
    (h : KindVisible acc p i k) : KindVisible (acc ++ l) q i k := by
  cases k with
  | message t => exact MessageVisible.keeps hk h
  | enum t =>
    obtain ⟨d, h1, h2⟩ := h
    exact ⟨d, hk.enums _ _ h1, visible_mono h2⟩
  | _ => trivial

theorem RefVisible.keeps {acc l : List FileP} {p q : Pool} (hk : Keeps p q) {e : Event}
    (h : RefVisible acc p e) : RefVisible (acc ++ l) q e := by
  cases e with
  | field path full fi k i f =>
    obtain ⟨md, d, h1, h2, h3⟩ := h
    obtain ⟨md', g1, g2⟩ := hk.messages _ _ h1
    have : md'.forget.fields = md.forget.fields := congrArg MsgD.fields g2
    replace this : md'.fields = md.fields := this
    exact ⟨md', d, g1, by rw [this]; exact h2, h3.keeps hk⟩
  | extension path full fi parent i f =>
    obtain ⟨d, h1, h2, h3⟩ := h
    exact ⟨d, hk.extensions _ _ h1, h2.keeps hk, h3.keeps hk⟩
  | method path full fi k i m =>
    obtain ⟨sd, d, h1, h2, h3, h4⟩ := h
    exact ⟨sd, d, hk.services _ _ h1, h2, h3.keeps hk, h4.keeps hk⟩
  | _ => trivial

section
variable {env : Env} (hsr : SearchOk env.search) {acc : List FileP} {p q : Pool} {fs : List FileP}

theorem message_file (h : Desc env acc p) {n : Name} {d : Def} {t : Nat}
    (hl : lookupN p.names n = some d) (hk : d.kind = .message t) :
    ∃ md, p.messages[t]? = some md ∧ md.id.file = d.file := by
  obtain ⟨fi, path, kind⟩ := d
  simp only at hk
  subst hk
  rcases h.names _ (lookupN_mem hl) with ⟨e, he, hd⟩ | ⟨hk, _⟩
  · cases e <;> simp only [Event.defn, Option.some.injEq, Prod.mk.injEq, Def.mk.injEq, reduceCtorEq,
      and_false, DefKind.message.injEq] at hd
    obtain ⟨rfl, rfl, rfl, rfl⟩ := hd
    obtain ⟨_, ⟨md, g1, g2, _⟩, _⟩ := h.evs _ he
    exact ⟨md, g1, by rw [g2]; rfl⟩
  · cases hk

theorem enum_file (h : Desc env acc p) {n : Name} {d : Def} {t : Nat}
    (hl : lookupN p.names n = some d) (hk : d.kind = .enum t) :
    ∃ md, p.enums[t]? = some md ∧ md.id.file = d.file := by
  obtain ⟨fi, path, kind⟩ := d
  simp only at hk
  subst hk
  rcases h.names _ (lookupN_mem hl) with ⟨e, he, hd⟩ | ⟨hk, _⟩
  · cases e <;> simp only [Event.defn, Option.some.injEq, Prod.mk.injEq, Def.mk.injEq, reduceCtorEq,
      and_false, DefKind.enum.injEq] at hd
    obtain ⟨rfl, rfl, rfl, rfl⟩ := hd
    obtain ⟨_, ⟨md, g1, g2, _⟩, _⟩ := h.evs _ he
    exact ⟨md, g1, by rw [g2]; rfl⟩
  · cases hk

include hsr

theorem refs_visible (h : Hist env acc p) : ∀ e ∈ visit {} acc, RefVisible acc p e := by
  induction h with
  | empty => intro e he; cases he
  | reject acc p fs q e es hp hb ih =>
    obtain ⟨r, _, _, hl⟩ := buildFiles_reject (hp.desc hsr).ok hb
    intro e he
    have := (ih e he).keeps (l := []) hl.keeps
    rwa [List.append_nil] at this
  | accept acc p fs q hp hb ih =>
    have hD := hp.desc hsr
    have hD' := (Hist.accept acc p fs q hp hb).desc hsr
    intro e he
    rcases buildFiles_accept hsr hD.ok hb with ⟨h1, rfl⟩ | ha
    · rw [h1, List.append_nil] at he ⊢; exact ih e he
    · rw [visit_append, List.mem_append] at he
      rcases he with he | he
      · exact (ih e he).keeps ha.frame.keeps
      · rw [← hD.offs] at he
        have hres := ha.resolved _ he
        have hlen := file_offset hsr hp
        have tr : ∀ {fi : Nat} {path : Path} {full : Name} {x : Item} {fd : FileD},
            e.item = some (fi, path, full, x) → q.files[fi]? = some fd → ∀ j ∈ fd.trans,
            Visible (acc ++ fs.filter fun f => (lookupN p.fileNames f.name).isNone) fi j := by
          intro fi path full x fd hi hfd
          obtain ⟨j, f, s, g1, g2, _⟩ := visited_has he hi
          have hf : (acc ++ fresh p fs)[fi]? = some f := by
            rw [List.getElem?_append_right (by omega), show fi - acc.length = j by omega]
            exact g2
          obtain ⟨_, _, _, fd', k1, k2, _⟩ := accepted hsr hp hb (by omega) hf
          rw [hfd] at k1; cases k1
          exact k2
        have kindOf : ∀ {fi : Nat} {fd : FileD} {x : FieldP} {scope : Name} {k : Kind} {g : Bool},
            (∀ j ∈ fd.trans,
              Visible (acc ++ fs.filter fun f => (lookupN p.fileNames f.name).isNone) fi j) →
            TypeOk fd.trans q.names scope x k g →
            KindVisible (acc ++ fs.filter fun f => (lookupN p.fileNames f.name).isNone) q fi k := by
          intro fi fd x scope k g hv ht
          cases ht with
          | scalar k _ hk =>
            cases k with
            | message t => cases hx : x.ty <;> rw [hx] at hk <;> cases hk
            | enum t => cases hx : x.ty <;> rw [hx] at hk <;> cases hk
            | _ => trivial
          | message n d t _ hr hk =>
            obtain ⟨h1, h2, _⟩ := resolveName_found hr
            obtain ⟨md, g1, g2⟩ := message_file hD' h1 hk
            exact ⟨md, g1, by rw [g2]; exact hv _ h2⟩
          | enum n d t _ hr hk =>
            obtain ⟨h1, h2, _⟩ := resolveName_found hr
            obtain ⟨md, g1, g2⟩ := enum_file hD' h1 hk
            exact ⟨md, g1, by rw [g2]; exact hv _ h2⟩
        have msgOf : ∀ {fi : Nat} {fd : FileD} {name scope : Name} {k : Nat},
            (∀ j ∈ fd.trans,
              Visible (acc ++ fs.filter fun f => (lookupN p.fileNames f.name).isNone) fi j) →
            MessageOk fd.trans q.names scope name k →
            MessageVisible (acc ++ fs.filter fun f => (lookupN p.fileNames f.name).isNone) q fi k := by
          rintro fi fd name scope k hv ⟨n, d, hr, hk⟩
          obtain ⟨h1, h2, _⟩ := resolveName_found hr
          obtain ⟨md, g1, g2⟩ := message_file hD' h1 hk
          exact ⟨md, g1, by rw [g2]; exact hv _ h2⟩
        cases e with
        | field path full fi k i f =>
          obtain ⟨fd, md, d, g1, _, g2, g3, _, g4⟩ := hres
          exact ⟨md, d, g2, g3, kindOf (tr rfl g1) g4.kind⟩
        | extension path full fi parent i f =>
          obtain ⟨fd, d, g1, _, g2, _, g4⟩ := hres
          exact ⟨d, g2, kindOf (tr rfl g1) g4.kind, msgOf (tr rfl g1) g4.extendee⟩
        | method path full fi k i m =>
          obtain ⟨fd, sd, d, g1, _, g2, g3, _, g5, g6⟩ := hres
          exact ⟨sd, d, g2, g3, msgOf (tr rfl g1) g5, msgOf (tr rfl g1) g6⟩
        | _ => trivial

/-- **C23, fields.** After any history, the type of every field is declared in a file visible from the
file of the field: that file itself, an import, or something reached from an import by public
imports. -/
theorem C23_fields (h : Hist env acc p) {k i : Nat} {md : MsgD} {d : FieldD}
    (hk : p.messages[k]? = some md) (hi : md.fields[i]? = some d) :
    KindVisible acc p d.id.file d.kind := by
  obtain ⟨path, full, fi, f, fd, he, _, _, hd⟩ := (h.desc hsr).field_at hk hi
  obtain ⟨md', d', g1, g2, g3⟩ := refs_visible hsr h _ he
  rw [hk] at g1; cases g1
  rw [hi] at g2; cases g2
  rw [hd.id]
  exact g3

/-- **C23, extensions.** The same for the type of an extension and for the message it extends. -/
theorem C23_extensions (h : Hist env acc p) {k : Nat} {d : ExtD} (hk : p.extensions[k]? = some d) :
    KindVisible acc p d.id.file d.kind ∧ MessageVisible acc p d.id.file d.extendee := by
  obtain ⟨path, full, fi, parent, f, fd, he, _, _, hd⟩ := (h.desc hsr).extension_at hk
  obtain ⟨d', g1, g2⟩ := refs_visible hsr h _ he
  rw [hk] at g1; cases g1
  rw [hd.id]
  exact g2

/-- **C23, methods.** The same for the input and output of a method. -/
theorem C23_methods (h : Hist env acc p) {k i : Nat} {sd : SvcD} {d : MethodD}
    (hk : p.services[k]? = some sd) (hi : sd.methods[i]? = some d) :
    MessageVisible acc p d.id.file d.input ∧ MessageVisible acc p d.id.file d.output := by
  obtain ⟨path, full, fi, f, he, hd, _⟩ := (h.desc hsr).method_at hk hi
  obtain ⟨sd', d', g1, g2, g3⟩ := refs_visible hsr h _ he
  rw [hk] at g1; cases g1
  rw [hi] at g2; cases g2
  rw [hd]
  exact g3

/-- **C23, what is visible.** For each new file of an accepted addition, if no chain of public imports
behind its imports is longer than one step, the files it may refer to are exactly the visible ones:
names are resolved (C22) with `vis = Visible`.  Missing: longer chains, for which it is false. -/
theorem C23_exact_partial (h : Hist env acc p) (hb : buildFiles env p fs = .ok ⟨q, []⟩) {i : Nat}
    {f : FileP} (hi : acc.length ≤ i) (hf : (acc ++ fresh p fs)[i]? = some f)
    (hshort : ∀ j, Visible (acc ++ fresh p fs) i j → NearlyVisible (acc ++ fresh p fs) i j) :
    FieldsRefer (acc ++ fresh p fs) q (Visible (acc ++ fresh p fs) i) i f ∧
    ExtensionsRefer (acc ++ fresh p fs) q (Visible (acc ++ fresh p fs) i) i f ∧
    MethodsRefer (acc ++ fresh p fs) q (Visible (acc ++ fresh p fs) i) i f := by
  obtain ⟨vis, h1, h2, h3⟩ := C22_accepted hsr h hb hi hf
  have : vis = Visible (acc ++ fresh p fs) i := by
    funext j
    exact propext ⟨h1 j, fun hj => h2 j (hshort j hj)⟩
  rw [← this]
  exact h3

end

/-- `a.proto` imports `b.proto`, which publicly imports `c.proto`, which declares `T`. -/
def pubC : FileP where
  name := nm "c.proto"
  package := nm "c"
  messages := [{ name := nm "T" }]

def pubB : FileP where
  name := nm "b.proto"
  deps := [nm "c.proto"]
  publicDeps := [0]

/-- One more public step. -/
def pubA : FileP where
  name := nm "a.proto"
  deps := [nm "b.proto"]
  publicDeps := [0]

/-- Refers to `c.T`, with the given imports. -/
def pubUser (deps : List Name) : FileP where
  name := nm "user.proto"
  deps := deps
  messages := [{
    name := nm "U"
    fields := [{ name := nm "t", number := 1, ty := .message, typeName := nm ".c.T" }] }]

/-- The hypotheses of the C23 theorems hold where a type is visible through a public import. -/
example : ∃ acc p q es, Hist env0 acc p ∧ buildFiles env0 p [pubUser [nm "b.proto"]] = .ok ⟨q, es⟩ ∧
    (acc.map (·.name) == [nm "c.proto", nm "b.proto"] && es.isEmpty &&
      (q.messages.map fun m => m.fields.map fun d => d.kind) == [[], [.message 0]]) = true :=
  step_ex [[pubC], [pubB]] _ _ (by decide +kernel)

/-- Its premise about chains is met as well. -/
example (j : Nat) (h : Visible [pubC, pubB, pubUser [nm "b.proto"]] 2 j) :
    NearlyVisible [pubC, pubB, pubUser [nm "b.proto"]] 2 j := by
  have imp : ∀ h, Imports [pubC, pubB, pubUser [nm "b.proto"]] 2 h → h = 1 := by
    rintro h ⟨f, g, h1, h2, h3⟩
    cases h1
    match h, h2 with
    | 0, h2 => cases h2; exact absurd h3 (by decide)
    | 1, _ => rfl
    | 2, h2 => cases h2; exact absurd h3 (by decide)
    | h + 3, h2 => simp at h2
  have no : ∀ h, ¬ PublicImports [pubC, pubB, pubUser [nm "b.proto"]] 0 h := by
    rintro h ⟨f, g, k, h1, h2, h3, _⟩
    cases h1
    simp [pubC] at h3
  have one : ∀ h, PublicImports [pubC, pubB, pubUser [nm "b.proto"]] 1 h → h = 0 := by
    rintro h ⟨f, g, k, h1, h2, h3, h4⟩
    cases h1
    match h, h2 with
    | 0, _ => rfl
    | 1, h2 =>
      cases h2
      cases k with
      | zero => exact absurd h3 (by decide)
      | succ k => simp [pubB] at h3
    | 2, h2 =>
      cases h2
      cases k with
      | zero => exact absurd h3 (by decide)
      | succ k => simp [pubB] at h3
    | h + 3, h2 => simp at h2
  rcases h with h | ⟨h, hi, hc⟩
  · exact .inl h
  · have := imp h hi
    subst this
    cases hc with
    | refl => exact .inr (.inl hi)
    | step _ k _ hp hc =>
      have := one k hp
      subst this
      cases hc with
      | refl => exact .inr (.inr ⟨1, hi, hp⟩)
      | step _ k _ hp _ => exact absurd hp (no k)

/-- **C23 is false for two public steps.** `user.proto` imports `a.proto`, which publicly imports
`b.proto`, which publicly imports `c.proto`: `c.T` is visible, but the reference to it is rejected as not
imported, and accepted once `c.proto` is imported directly. -/
theorem C23_false : ∃ acc p q, Hist env0 acc p ∧
    acc = [pubC, pubB, pubA] ∧ Visible (acc ++ [pubUser [nm "a.proto"]]) 3 0 ∧
    buildFiles env0 p [pubUser [nm "a.proto"]] = .ok ⟨q, [.notImported (nm "c.T")]⟩ ∧
    ∃ r, buildFiles env0 p [pubUser [nm "a.proto", nm "c.proto"]] = .ok ⟨r, []⟩ := by
  obtain ⟨p, hH, hc⟩ := new_ex [[pubC], [pubB], [pubA]] (fun p =>
    (match buildFiles env0 p [pubUser [nm "a.proto"]] with
      | .ok ⟨_, [e]⟩ => e == .notImported (nm "c.T")
      | _ => false) &&
    (match buildFiles env0 p [pubUser [nm "a.proto", nm "c.proto"]] with
      | .ok ⟨_, []⟩ => true
      | _ => false)) (by decide +kernel)
  rw [Bool.and_eq_true] at hc
  obtain ⟨h2, h3⟩ := hc
  split at h2
  · next q e hq =>
    split at h3
    · next r hr =>
      rw [beq_iff_eq] at h2
      subst h2
      refine ⟨_, p, q, hH, rfl, ?_, hq, r, hr⟩
      refine .inr ⟨2, ⟨_, _, rfl, rfl, by decide⟩, .step 2 1 0 ⟨_, _, 0, rfl, rfl, rfl, by decide⟩
        (.step 1 0 0 ⟨_, _, 0, rfl, rfl, rfl, by decide⟩ (.refl 0))⟩
    · cases h3
  · cases h2

/-! ### C51 -/

/-- `package q.c; message X {}`: imported by nobody. -/
def strayFile : FileP where
  name := nm "stray.proto"
  package := nm "q.c"
  messages := [{ name := nm "X" }]

/-- `import "c.proto"; package q; message U { c.T t = 1; }` -/
def relUser : FileP where
  name := nm "user.proto"
  package := nm "q"
  deps := [nm "c.proto"]
  messages := [{
    name := nm "U"
    fields := [{ name := nm "t", number := 1, ty := .message, typeName := nm "c.T" }] }]

/-- **C51 is false.** A file that nothing imports changes how names resolve: `relUser` is accepted, and
its field has type `c.T`, unless the pool happens to hold a file of package `q.c`; then the very same
file is rejected. -/
theorem C51_false :
    (∃ acc p q, Hist env0 acc p ∧ acc = [pubC] ∧ buildFiles env0 p [relUser] = .ok ⟨q, []⟩) ∧
    ∃ acc p q, Hist env0 acc p ∧ acc = [pubC, strayFile] ∧ ¬ Visible (acc ++ [relUser]) 2 1 ∧
      buildFiles env0 p [relUser] = .ok ⟨q, [.shadowed (nm "c.T")]⟩ := by
  constructor
  · obtain ⟨p, hH, hc⟩ := new_ex [[pubC]] (fun p => match buildFiles env0 p [relUser] with
      | .ok ⟨_, []⟩ => true
      | _ => false) (by decide +kernel)
    split at hc
    · next q hq => exact ⟨_, p, q, hH, rfl, hq⟩
    · cases hc
  · obtain ⟨p, hH, hc⟩ := new_ex [[pubC], [strayFile]] (fun p => match buildFiles env0 p [relUser] with
      | .ok ⟨_, [e]⟩ => e == .shadowed (nm "c.T")
      | _ => false) (by decide +kernel)
    split at hc
    case h_2 => cases hc
    next q e hq =>
    rw [beq_iff_eq] at hc
    subst hc
    refine ⟨_, p, q, hH, rfl, ?_, hq⟩
    rintro (h | ⟨h, hi, hch⟩)
    · cases h
    · obtain ⟨f, g, h1, h2, h3⟩ := hi
      cases h1
      have : h = 0 := by
        match h, h2 with
        | 0, _ => rfl
        | 1, h2 => cases h2; exact absurd h3 (by decide)
        | 2, h2 => cases h2; exact absurd h3 (by decide)
        | h + 3, h2 => simp at h2
      subst this
      cases hch with
      | step _ k _ hp _ =>
        obtain ⟨f, g, k, h1, h2, h3, _⟩ := hp
        cases h1
        simp [pubC] at h3

/-- **C51, simple and complete names.** For a name without an inner dot, what it refers to depends on
the types declared in visible files only: files that are not visible may be replaced at will. -/
theorem C51_partial {acc acc' : List FileP} {vis : Nat → Prop} {enums : Bool} {scope name n : Name}
    (hsame : ∀ i, vis i → acc'[i]? = acc[i]?) (hname : '.' ∉ name ∨ name.head? = some '.') :
    Refers acc vis enums scope name n ↔ Refers acc' vis enums scope name n := by
  have hd : ∀ i x m, vis i → (DeclaredAs acc i x m ↔ DeclaredAs acc' i x m) := by
    intro i x m hi
    unfold DeclaredAs
    rw [hsame i hi]
  have ht : ∀ x, TypeAt acc vis enums x ↔ TypeAt acc' vis enums x := by
    intro x
    unfold TypeAt
    constructor
    · rintro ⟨j, hj, ⟨m, hm⟩ | ⟨he, m, hm⟩⟩
      · exact ⟨j, hj, .inl ⟨m, (hd _ _ _ hj).1 hm⟩⟩
      · exact ⟨j, hj, .inr ⟨he, m, (hd _ _ _ hj).1 hm⟩⟩
    · rintro ⟨j, hj, ⟨m, hm⟩ | ⟨he, m, hm⟩⟩
      · exact ⟨j, hj, .inl ⟨m, (hd _ _ _ hj).2 hm⟩⟩
      · exact ⟨j, hj, .inr ⟨he, m, (hd _ _ _ hj).2 hm⟩⟩
  have main : ∀ {a b : List FileP}, (∀ x, TypeAt a vis enums x → TypeAt b vis enums x) →
      (∀ p, Innermost scope (fun p => TypeAt a vis enums (qualified p name)) p →
        Innermost scope (fun p => TypeAt b vis enums (qualified p name)) p) →
      Refers a vis enums scope name n → Refers b vis enums scope name n := by
    intro a b h1 h2 hr
    cases hr with
    | full n h => exact .full n (h1 n h)
    | simple _ p hn h => exact .simple _ p hn (h2 p h)
    | dotted first rest p h0 hf =>
      exfalso
      rcases hname with h | h
      · simp at h
      · cases first with
        | nil => exact h0 rfl
        | cons c first =>
          simp only [List.cons_append, List.head?_cons, Option.some.injEq] at h
          subst h
          exact hf (List.mem_cons_self ..)
  exact ⟨main (fun x => (ht x).1) (fun p => (Innermost.congr fun p => ht _).1),
    main (fun x => (ht x).2) (fun p => (Innermost.congr fun p => ht _).2)⟩

/-- Its hypotheses hold: only file 0 is visible, file 1 differs. -/
example : Refers [pubC, strayFile] (· = 0) true (nm "c.T.x") (nm "T") (nm "c.T") ↔
    Refers [pubC, pubB] (· = 0) true (nm "c.T.x") (nm "T") (nm "c.T") :=
  C51_partial (by rintro i rfl; rfl) (.inl (by decide))

end Verif.Props
