import Verif.Pool.Visit
/-!
The numbering of the traversal: a counting machine that accepts a list of callbacks only
if every index is the next one of its kind and every parent has been visited before.
`visit` produces accepted lists.
-/
set_option autoImplicit false
namespace Verif.Pool
open Verif.Dyn

/-- How many declarations of each kind have been visited. -/
structure Cnt where
  file : Nat
  message : Nat
  enum : Nat
  service : Nat
  extension : Nat
  fields : Nat → Nat
  oneofs : Nat → Nat
  values : Nat → Nat
  methods : Nat → Nat

def bump (f : Nat → Nat) (k : Nat) : Nat → Nat := fun j => if j = k then f j + 1 else f j

/-- `k` is one of the declarations visited since `base`. -/
def between (base k top : Nat) : Prop := base ≤ k ∧ k < top

instance (a b c : Nat) : Decidable (between a b c) := inferInstanceAs (Decidable (_ ∧ _))

/-- One callback: `none` if it is out of order. -/
def Cnt.step (o : Offs) (c : Cnt) : Event → Option Cnt
  | .file _ i _ => if i = c.file then some { c with file := c.file + 1 } else none
  | .message _ _ file parent i _ =>
    if i = c.message ∧ between o.file file c.file ∧ (∀ p, parent = some p → between o.message p c.message)
    then some { c with message := c.message + 1 } else none
  | .field _ _ file msg i _ =>
    if i = c.fields msg ∧ between o.message msg c.message ∧ between o.file file c.file
    then some { c with fields := bump c.fields msg } else none
  | .oneof _ _ file msg i _ =>
    if i = c.oneofs msg ∧ between o.message msg c.message ∧ between o.file file c.file
    then some { c with oneofs := bump c.oneofs msg } else none
  | .service _ _ file i _ =>
    if i = c.service ∧ between o.file file c.file
    then some { c with service := c.service + 1 } else none
  | .method _ _ file svc i _ =>
    if i = c.methods svc ∧ between o.service svc c.service ∧ between o.file file c.file
    then some { c with methods := bump c.methods svc } else none
  | .enum _ _ file parent i _ =>
    if i = c.enum ∧ between o.file file c.file ∧ (∀ p, parent = some p → between o.message p c.message)
    then some { c with enum := c.enum + 1 } else none
  | .enumValue _ _ file enum i _ =>
    if i = c.values enum ∧ between o.enum enum c.enum ∧ between o.file file c.file
    then some { c with values := bump c.values enum } else none
  | .extension _ _ file parent i _ =>
    if i = c.extension ∧ between o.file file c.file ∧ (∀ p, parent = some p → between o.message p c.message)
    then some { c with extension := c.extension + 1 } else none

def Cnt.run (o : Offs) : Cnt → List Event → Option Cnt
  | c, [] => some c
  | c, e :: es => (c.step o e).bind fun c' => Cnt.run o c' es

theorem Cnt.run_append (o : Offs) (c : Cnt) (a b : List Event) :
    Cnt.run o c (a ++ b) = (Cnt.run o c a).bind fun c' => Cnt.run o c' b := by
  induction a generalizing c with
  | nil => rfl
  | cons e es ih =>
    simp only [List.cons_append, Cnt.run]
    cases c.step o e with
    | none => rfl
    | some c' => simp only [Option.bind_some, ih]

/-- The counters agree with the offsets, and nothing has been visited beyond them. -/
structure Cnt.At (c : Cnt) (o : Offs) : Prop where
  file : c.file = o.file
  message : c.message = o.message
  enum : c.enum = o.enum
  service : c.service = o.service
  extension : c.extension = o.extension
  fields : ∀ k, c.message ≤ k → c.fields k = 0
  oneofs : ∀ k, c.message ≤ k → c.oneofs k = 0
  values : ∀ k, c.enum ≤ k → c.values k = 0
  methods : ∀ k, c.service ≤ k → c.methods k = 0

/-- The base lies below. -/
structure Offs.Le (a b : Offs) : Prop where
  file : a.file ≤ b.file
  message : a.message ≤ b.message
  enum : a.enum ≤ b.enum
  service : a.service ≤ b.service
  extension : a.extension ≤ b.extension

theorem Offs.Le.refl (a : Offs) : a.Le a := ⟨Nat.le_refl _, Nat.le_refl _, Nat.le_refl _, Nat.le_refl _, Nat.le_refl _⟩

theorem Offs.Le.trans {a b c : Offs} (h : a.Le b) (g : b.Le c) : a.Le c :=
  ⟨Nat.le_trans h.1 g.1, Nat.le_trans h.2 g.2, Nat.le_trans h.3 g.3, Nat.le_trans h.4 g.4,
   Nat.le_trans h.5 g.5⟩

/-- Runs that keep the number of files and leave alone what lies below. -/
structure Cnt.Grows (c c' : Cnt) : Prop where
  file : c.file ≤ c'.file
  message : c.message ≤ c'.message
  enum : c.enum ≤ c'.enum
  service : c.service ≤ c'.service
  extension : c.extension ≤ c'.extension

theorem Cnt.step_grows {o : Offs} {c c' : Cnt} {e : Event} (h : c.step o e = some c') :
    c.Grows c' := by
  cases e <;> simp only [Cnt.step] at h <;> split at h <;> cases h <;>
    constructor <;> simp

theorem Cnt.Grows.refl (c : Cnt) : c.Grows c := ⟨Nat.le_refl _, Nat.le_refl _, Nat.le_refl _, Nat.le_refl _, Nat.le_refl _⟩

theorem Cnt.Grows.trans {a b c : Cnt} (h : a.Grows b) (g : b.Grows c) : a.Grows c :=
  ⟨Nat.le_trans h.1 g.1, Nat.le_trans h.2 g.2, Nat.le_trans h.3 g.3, Nat.le_trans h.4 g.4,
   Nat.le_trans h.5 g.5⟩

theorem Cnt.run_grows {o : Offs} {c c' : Cnt} {es : List Event} (h : Cnt.run o c es = some c') :
    c.Grows c' := by
  induction es generalizing c with
  | nil => simp only [Cnt.run, Option.some.injEq] at h; subst h; exact Cnt.Grows.refl _
  | cons e es ih =>
    simp only [Cnt.run] at h
    cases hs : c.step o e with
    | none => simp [hs] at h
    | some c1 =>
      simp only [hs, Option.bind_some] at h
      exact (Cnt.step_grows hs).trans (ih h)

/-! The loops over members. -/

/-- Fields `j, j+1, …` of message `msg`. -/
theorem run_fields (b : Offs) (path : Path) (scope : Name) (file msg : Nat) (fs : List FieldP) :
    ∀ (c : Cnt) (j : Nat), c.fields msg = j → between b.message msg c.message →
      between b.file file c.file →
      ∃ g : Nat → Nat, Cnt.run b c (fs.mapIdx fun i f =>
          .field (path ++ [Tag.msgField, j + i]) (pushScope scope f.name) file msg (j + i) f)
        = some { c with fields := g } ∧ (∀ k, k ≠ msg → g k = c.fields k) ∧
          g msg = c.fields msg + fs.length := by
  induction fs with
  | nil => intro c j _ _ _; exact ⟨c.fields, rfl, fun _ _ => rfl, rfl⟩
  | cons f fs ih =>
    intro c j hj hm hf
    have hs : Cnt.step b c (.field (path ++ [Tag.msgField, j + 0]) (pushScope scope f.name) file
        msg (j + 0) f) = some { c with fields := bump c.fields msg } := by
      simp only [Cnt.step]
      rw [if_pos ⟨by omega, hm, hf⟩]
    obtain ⟨g, h1, h2, h3⟩ := ih { c with fields := bump c.fields msg } (j + 1)
      (by simp [bump, hj]) hm hf
    refine ⟨g, ?_, ?_, ?_⟩
    · simp only [List.mapIdx_cons, Cnt.run, hs, Option.bind_some]
      simpa only [Nat.add_assoc, Nat.add_comm 1] using h1
    · intro k hk; rw [h2 k hk]; simp [bump, hk]
    · rw [h3]; simp [bump]; omega

theorem run_oneofs (b : Offs) (path : Path) (scope : Name) (file msg : Nat) (fs : List OneofP) :
    ∀ (c : Cnt) (j : Nat), c.oneofs msg = j → between b.message msg c.message →
      between b.file file c.file →
      ∃ g : Nat → Nat, Cnt.run b c (fs.mapIdx fun i f =>
          .oneof (path ++ [Tag.msgOneof, j + i]) (pushScope scope f.name) file msg (j + i) f)
        = some { c with oneofs := g } ∧ (∀ k, k ≠ msg → g k = c.oneofs k) ∧
          g msg = c.oneofs msg + fs.length := by
  induction fs with
  | nil => intro c j _ _ _; exact ⟨c.oneofs, rfl, fun _ _ => rfl, rfl⟩
  | cons f fs ih =>
    intro c j hj hm hf
    have hs : Cnt.step b c (.oneof (path ++ [Tag.msgOneof, j + 0]) (pushScope scope f.name) file
        msg (j + 0) f) = some { c with oneofs := bump c.oneofs msg } := by
      simp only [Cnt.step]
      rw [if_pos ⟨by omega, hm, hf⟩]
    obtain ⟨g, h1, h2, h3⟩ := ih { c with oneofs := bump c.oneofs msg } (j + 1)
      (by simp [bump, hj]) hm hf
    refine ⟨g, ?_, ?_, ?_⟩
    · simp only [List.mapIdx_cons, Cnt.run, hs, Option.bind_some]
      simpa only [Nat.add_assoc, Nat.add_comm 1] using h1
    · intro k hk; rw [h2 k hk]; simp [bump, hk]
    · rw [h3]; simp [bump]; omega

theorem run_values (b : Offs) (path : Path) (scope : Name) (file enum : Nat)
    (fs : List EnumValueP) :
    ∀ (c : Cnt) (j : Nat), c.values enum = j → between b.enum enum c.enum →
      between b.file file c.file →
      ∃ g : Nat → Nat, Cnt.run b c (fs.mapIdx fun i f =>
          .enumValue (path ++ [Tag.enumValue, j + i]) (pushScope scope f.name) file enum (j + i) f)
        = some { c with values := g } ∧ (∀ k, k ≠ enum → g k = c.values k) ∧
          g enum = c.values enum + fs.length := by
  induction fs with
  | nil => intro c j _ _ _; exact ⟨c.values, rfl, fun _ _ => rfl, rfl⟩
  | cons f fs ih =>
    intro c j hj hm hf
    have hs : Cnt.step b c (.enumValue (path ++ [Tag.enumValue, j + 0]) (pushScope scope f.name)
        file enum (j + 0) f) = some { c with values := bump c.values enum } := by
      simp only [Cnt.step]
      rw [if_pos ⟨by omega, hm, hf⟩]
    obtain ⟨g, h1, h2, h3⟩ := ih { c with values := bump c.values enum } (j + 1)
      (by simp [bump, hj]) hm hf
    refine ⟨g, ?_, ?_, ?_⟩
    · simp only [List.mapIdx_cons, Cnt.run, hs, Option.bind_some]
      simpa only [Nat.add_assoc, Nat.add_comm 1] using h1
    · intro k hk; rw [h2 k hk]; simp [bump, hk]
    · rw [h3]; simp [bump]; omega

theorem run_methods (b : Offs) (path : Path) (scope : Name) (file svc : Nat)
    (fs : List MethodP) :
    ∀ (c : Cnt) (j : Nat), c.methods svc = j → between b.service svc c.service →
      between b.file file c.file →
      ∃ g : Nat → Nat, Cnt.run b c (fs.mapIdx fun i f =>
          .method (path ++ [Tag.svcMethod, j + i]) (pushScope scope f.name) file svc (j + i) f)
        = some { c with methods := g } ∧ (∀ k, k ≠ svc → g k = c.methods k) ∧
          g svc = c.methods svc + fs.length := by
  induction fs with
  | nil => intro c j _ _ _; exact ⟨c.methods, rfl, fun _ _ => rfl, rfl⟩
  | cons f fs ih =>
    intro c j hj hm hf
    have hs : Cnt.step b c (.method (path ++ [Tag.svcMethod, j + 0]) (pushScope scope f.name)
        file svc (j + 0) f) = some { c with methods := bump c.methods svc } := by
      simp only [Cnt.step]
      rw [if_pos ⟨by omega, hm, hf⟩]
    obtain ⟨g, h1, h2, h3⟩ := ih { c with methods := bump c.methods svc } (j + 1)
      (by simp [bump, hj]) hm hf
    refine ⟨g, ?_, ?_, ?_⟩
    · simp only [List.mapIdx_cons, Cnt.run, hs, Option.bind_some]
      simpa only [Nat.add_assoc, Nat.add_comm 1] using h1
    · intro k hk; rw [h2 k hk]; simp [bump, hk]
    · rw [h3]; simp [bump]; omega

/-! The traversal itself. -/

/-- What a file context means: the file has been visited, the parent message too. -/
structure Ctx (b : Offs) (file : Nat) (parent : Option Nat) (c : Cnt) : Prop where
  file : between b.file file c.file
  parent : ∀ p, parent = some p → between b.message p c.message

theorem Ctx.mono {b : Offs} {file : Nat} {parent : Option Nat} {c c' : Cnt}
    (h : Ctx b file parent c) (g : c.Grows c') : Ctx b file parent c' :=
  ⟨⟨h.file.1, Nat.lt_of_lt_of_le h.file.2 g.file⟩,
   fun p hp => ⟨(h.parent p hp).1, Nat.lt_of_lt_of_le (h.parent p hp).2 g.message⟩⟩

theorem run_enums (b : Offs) (path : Path) (tag : Nat) (scope : Name) (file : Nat)
    (parent : Option Nat) (es : List EnumP) :
    ∀ (i : Nat) (o : Offs) (c : Cnt), b.Le o → c.At o → Ctx b file parent c →
      ∃ c', Cnt.run b c (visitEnums path tag scope file parent i es o).1 = some c' ∧
        c'.At (visitEnums path tag scope file parent i es o).2 := by
  induction es with
  | nil => intro i o c _ h _; exact ⟨c, rfl, h⟩
  | cons e es ih =>
    intro i o c hb h hx
    have h1 : Cnt.step b c (.enum (path ++ [tag, i]) (pushScope scope e.name) file parent o.enum e)
        = some { c with enum := c.enum + 1 } := by
      simp only [Cnt.step]
      rw [if_pos ⟨h.enum.symm, hx.file, hx.parent⟩]
    obtain ⟨g, h2, h3, h4⟩ := run_values b (path ++ [tag, i]) scope file o.enum e.values
      { c with enum := c.enum + 1 } 0 (h.values _ (by rw [h.enum]; exact Nat.le_refl _))
      ⟨hb.enum, by simp only [h.enum]; omega⟩ hx.file
    obtain ⟨c', h5, h6⟩ := ih (i + 1) { o with enum := o.enum + 1 }
      { c with enum := c.enum + 1, values := g }
      ⟨hb.file, hb.message, Nat.le_succ_of_le hb.enum, hb.service, hb.extension⟩
      { file := h.file, message := h.message, enum := by simp [h.enum], service := h.service,
        extension := h.extension, fields := h.fields, oneofs := h.oneofs,
        values := by
          intro k hk
          simp only at hk ⊢
          rw [h3 k (by rw [h.enum] at hk; omega)]
          exact h.values k (by omega)
        methods := h.methods }
      ⟨hx.file, hx.parent⟩
    refine ⟨c', ?_, h6⟩
    simp only [visitEnums, Cnt.run, h1, Option.bind_some, Cnt.run_append, visitValues]
    simp only [Nat.zero_add] at h2
    rw [h2]
    exact h5

theorem run_exts (b : Offs) (path : Path) (tag : Nat) (scope : Name) (file : Nat)
    (parent : Option Nat) (es : List FieldP) :
    ∀ (i : Nat) (o : Offs) (c : Cnt), b.Le o → c.At o → Ctx b file parent c →
      ∃ c', Cnt.run b c (visitExts path tag scope file parent i es o).1 = some c' ∧
        c'.At (visitExts path tag scope file parent i es o).2 := by
  induction es with
  | nil => intro i o c _ h _; exact ⟨c, rfl, h⟩
  | cons e es ih =>
    intro i o c hb h hx
    have h1 : Cnt.step b c (.extension (path ++ [tag, i]) (pushScope scope e.name) file parent
        o.extension e) = some { c with extension := c.extension + 1 } := by
      simp only [Cnt.step]
      rw [if_pos ⟨h.extension.symm, hx.file, hx.parent⟩]
    obtain ⟨c', h5, h6⟩ := ih (i + 1) { o with extension := o.extension + 1 }
      { c with extension := c.extension + 1 }
      ⟨hb.file, hb.message, hb.enum, hb.service, Nat.le_succ_of_le hb.extension⟩
      { file := h.file, message := h.message, enum := h.enum, service := h.service,
        extension := by simp [h.extension], fields := h.fields, oneofs := h.oneofs,
        values := h.values, methods := h.methods }
      ⟨hx.file, hx.parent⟩
    refine ⟨c', ?_, h6⟩
    simp only [visitExts, Cnt.run, h1, Option.bind_some]
    exact h5

theorem run_services (b : Offs) (scope : Name) (file : Nat) (es : List ServiceP) :
    ∀ (i : Nat) (o : Offs) (c : Cnt), b.Le o → c.At o → Ctx b file none c →
      ∃ c', Cnt.run b c (visitServices scope file i es o).1 = some c' ∧
        c'.At (visitServices scope file i es o).2 := by
  induction es with
  | nil => intro i o c _ h _; exact ⟨c, rfl, h⟩
  | cons e es ih =>
    intro i o c hb h hx
    have h1 : Cnt.step b c (.service [Tag.fileService, i] (pushScope scope e.name) file o.service e)
        = some { c with service := c.service + 1 } := by
      simp only [Cnt.step]
      rw [if_pos ⟨h.service.symm, hx.file⟩]
    obtain ⟨g, h2, h3, h4⟩ := run_methods b [Tag.fileService, i] (pushScope scope e.name) file
      o.service e.methods
      { c with service := c.service + 1 } 0 (h.methods _ (by rw [h.service]; exact Nat.le_refl _))
      ⟨hb.service, by simp only [h.service]; omega⟩ hx.file
    obtain ⟨c', h5, h6⟩ := ih (i + 1) { o with service := o.service + 1 }
      { c with service := c.service + 1, methods := g }
      ⟨hb.file, hb.message, hb.enum, Nat.le_succ_of_le hb.service, hb.extension⟩
      { file := h.file, message := h.message, enum := h.enum, service := by simp [h.service],
        extension := h.extension, fields := h.fields, oneofs := h.oneofs,
        methods := by
          intro k hk
          simp only at hk ⊢
          rw [h3 k (by rw [h.service] at hk; omega)]
          exact h.methods k (by omega)
        values := h.values }
      ⟨hx.file, hx.parent⟩
    refine ⟨c', ?_, h6⟩
    simp only [visitServices, Cnt.run, h1, Option.bind_some, Cnt.run_append, visitMethods]
    simp only [Nat.zero_add] at h2
    rw [h2]
    exact h5

theorem Cnt.At.le {b o : Offs} {c : Cnt} (h : c.At o) (hb : b.Le o) {o' : Offs} {c' : Cnt}
    (h' : c'.At o') (g : c.Grows c') : b.Le o' :=
  ⟨by rw [← h'.file]; exact Nat.le_trans (by rw [h.file]; exact hb.file) g.file,
   by rw [← h'.message]; exact Nat.le_trans (by rw [h.message]; exact hb.message) g.message,
   by rw [← h'.enum]; exact Nat.le_trans (by rw [h.enum]; exact hb.enum) g.enum,
   by rw [← h'.service]; exact Nat.le_trans (by rw [h.service]; exact hb.service) g.service,
   by rw [← h'.extension]; exact Nat.le_trans (by rw [h.extension]; exact hb.extension) g.extension⟩

mutual
theorem run_msg (b : Offs) (path : Path) (scope : Name) (file : Nat) (parent : Option Nat) :
    ∀ (m : MsgP) (o : Offs) (c : Cnt), b.Le o → c.At o → Ctx b file parent c →
      ∃ c', Cnt.run b c (visitMsg path scope file parent m o).1 = some c' ∧
        c'.At (visitMsg path scope file parent m o).2
  | ⟨name, fields, exts, nested, enums, extRanges, oneofs, options, reserved, reservedNames⟩, o, c, hb, h, hx => by
    have h1 : Cnt.step b c (.message path (pushScope scope name) file parent o.message
        ⟨name, fields, exts, nested, enums, extRanges, oneofs, options, reserved, reservedNames⟩)
        = some { c with message := c.message + 1 } := by
      simp only [Cnt.step]
      rw [if_pos ⟨h.message.symm, hx.file, hx.parent⟩]
    have hbm : between b.message o.message (c.message + 1) :=
      ⟨hb.message, by simp only [h.message]; omega⟩
    obtain ⟨g1, h2, h3, h4⟩ := run_oneofs b path (pushScope scope name) file o.message oneofs
      { c with message := c.message + 1 } 0 (h.oneofs _ (by rw [h.message]; exact Nat.le_refl _))
      hbm hx.file
    obtain ⟨g2, h5, h6, h7⟩ := run_fields b path (pushScope scope name) file o.message fields
      { c with message := c.message + 1, oneofs := g1 } 0
      (h.fields _ (by rw [h.message]; exact Nat.le_refl _))
      hbm hx.file
    let c1 : Cnt := { c with message := c.message + 1, oneofs := g1, fields := g2 }
    have hc1 : c1.At { o with message := o.message + 1 } :=
      { file := h.file, message := by simp [c1, h.message], enum := h.enum, service := h.service,
        extension := h.extension,
        fields := by
          intro k hk
          simp only [c1] at hk ⊢
          rw [h6 k (by rw [h.message] at hk; omega)]
          exact h.fields k (by omega)
        oneofs := by
          intro k hk
          simp only [c1] at hk ⊢
          rw [h3 k (by rw [h.message] at hk; omega)]
          exact h.oneofs k (by omega)
        values := h.values, methods := h.methods }
    have hx1 : Ctx b file (some o.message) c1 :=
      ⟨hx.file, fun p hp => by cases hp; exact hbm⟩
    have hb1 : b.Le { o with message := o.message + 1 } :=
      ⟨hb.file, Nat.le_succ_of_le hb.message, hb.enum, hb.service, hb.extension⟩
    have ihm := run_msgs b path Tag.msgNested (pushScope scope name) file (some o.message) nested 0
      { o with message := o.message + 1 } c1 hb1 hc1 hx1
    obtain ⟨c2, r1, a1⟩ := ihm
    have gr1 := Cnt.run_grows r1
    have hx2 := hx1.mono gr1
    obtain ⟨c3, r2, a2⟩ := run_enums b path Tag.msgEnum (pushScope scope name) file
      (some o.message) enums 0 _ c2 (hc1.le hb1 a1 gr1) a1 hx2
    have gr2 := Cnt.run_grows r2
    have hx3 := hx2.mono gr2
    obtain ⟨c4, r3, a3⟩ := run_exts b path Tag.msgExtension (pushScope scope name) file
      (some o.message) exts 0 _ c3 (a1.le (hc1.le hb1 a1 gr1) a2 gr2) a2 hx3
    refine ⟨c4, ?_, a3⟩
    simp only [visitMsg, Cnt.run, h1, Option.bind_some, Cnt.run_append, visitOneofs, visitFields]
    simp only [Nat.zero_add] at h2 h5
    rw [h2]
    simp only [Option.bind_some]
    rw [h5]
    simp only [Option.bind_some]
    rw [r1]
    simp only [Option.bind_some]
    rw [r2]
    simp only [Option.bind_some]
    exact r3
theorem run_msgs (b : Offs) (path : Path) (tag : Nat) (scope : Name) (file : Nat)
    (parent : Option Nat) :
    ∀ (ms : List MsgP) (i : Nat) (o : Offs) (c : Cnt), b.Le o → c.At o → Ctx b file parent c →
      ∃ c', Cnt.run b c (visitMsgs path tag scope file parent i ms o).1 = some c' ∧
        c'.At (visitMsgs path tag scope file parent i ms o).2
  | [], i, o, c, _, h, _ => ⟨c, rfl, h⟩
  | m :: ms, i, o, c, hb, h, hx => by
    obtain ⟨c1, r1, a1⟩ := run_msg b (path ++ [tag, i]) scope file parent m o c hb h hx
    have g1 := Cnt.run_grows r1
    obtain ⟨c2, r2, a2⟩ := run_msgs b path tag scope file parent ms (i + 1) _ c1
      (h.le hb a1 g1) a1 (hx.mono g1)
    refine ⟨c2, ?_, a2⟩
    simp only [visitMsgs, Cnt.run_append, r1, Option.bind_some]
    exact r2
end

theorem run_file (b : Offs) (f : FileP) (o : Offs) (c : Cnt) (hb : b.Le o) (h : c.At o) :
    ∃ c', Cnt.run b c (visitFile f o).1 = some c' ∧ c'.At (visitFile f o).2 := by
  have h1 : Cnt.step b c (.file [] o.file f) = some { c with file := c.file + 1 } := by
    simp only [Cnt.step]
    rw [if_pos h.file.symm]
  let c1 : Cnt := { c with file := c.file + 1 }
  have hb1 : b.Le { o with file := o.file + 1 } :=
    ⟨Nat.le_succ_of_le hb.file, hb.message, hb.enum, hb.service, hb.extension⟩
  have hc1 : c1.At { o with file := o.file + 1 } :=
    { file := by simp [c1, h.file], message := h.message, enum := h.enum, service := h.service,
      extension := h.extension, fields := h.fields, oneofs := h.oneofs, values := h.values,
      methods := h.methods }
  have hx1 : Ctx b o.file none c1 := ⟨⟨hb.file, by simp only [c1, h.file]; omega⟩, by simp⟩
  obtain ⟨c2, r1, a1⟩ := run_msgs b [] Tag.fileMessage f.package o.file none f.messages 0 _ c1 hb1 hc1 hx1
  have g1 := Cnt.run_grows r1
  have hb2 := hc1.le hb1 a1 g1
  obtain ⟨c3, r2, a2⟩ := run_enums b [] Tag.fileEnum f.package o.file none f.enums 0 _ c2 hb2 a1
    (hx1.mono g1)
  have g2 := Cnt.run_grows r2
  have hb3 := a1.le hb2 a2 g2
  obtain ⟨c4, r3, a3⟩ := run_services b f.package o.file f.services 0 _ c3 hb3 a2
    ((hx1.mono g1).mono g2)
  have g3 := Cnt.run_grows r3
  obtain ⟨c5, r4, a4⟩ := run_exts b [] Tag.fileExtension f.package o.file none f.exts 0 _ c4
    (a2.le hb3 a3 g3) a3 (((hx1.mono g1).mono g2).mono g3)
  refine ⟨c5, ?_, a4⟩
  simp only [visitFile, Cnt.run, h1, Option.bind_some, Cnt.run_append]
  rw [r1]
  simp only [Option.bind_some]
  rw [r2]
  simp only [Option.bind_some]
  rw [r3]
  simp only [Option.bind_some]
  exact r4

/-- Offsets after visiting some files. -/
def offsAfter : Offs → List FileP → Offs
  | o, [] => o
  | o, f :: fs => offsAfter (visitFile f o).2 fs

theorem run_visit (b : Offs) : ∀ (fs : List FileP) (o : Offs) (c : Cnt), b.Le o → c.At o →
    ∃ c', Cnt.run b c (visit o fs) = some c' ∧ c'.At (offsAfter o fs)
  | [], o, c, _, h => ⟨c, rfl, h⟩
  | f :: fs, o, c, hb, h => by
    obtain ⟨c1, r1, a1⟩ := run_file b f o c hb h
    obtain ⟨c2, r2, a2⟩ := run_visit b fs _ c1 (h.le hb a1 (Cnt.run_grows r1)) a1
    refine ⟨c2, ?_, a2⟩
    simp only [visit, Cnt.run_append, r1, Option.bind_some]
    exact r2

theorem visit_append (a b : List FileP) : ∀ o : Offs,
    visit o (a ++ b) = visit o a ++ visit (offsAfter o a) b := by
  induction a with
  | nil => intro o; rfl
  | cons f fs ih => intro o; simp only [List.cons_append, visit, offsAfter, ih, List.append_assoc]

theorem offsAfter_append (a b : List FileP) : ∀ o : Offs,
    offsAfter o (a ++ b) = offsAfter (offsAfter o a) b := by
  induction a with
  | nil => intro o; rfl
  | cons f fs ih => intro o; simp only [List.cons_append, offsAfter, ih]

end Verif.Pool
