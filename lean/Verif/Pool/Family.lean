import Verif.Pool.Count
import Verif.Pool.Locate
/-!
How the callbacks of a traversal hang together: every declaration inside a message, enum
or service is visited together with its parent, at the path and under the name the parent
gives it, and everything declared is visited.
-/
set_option autoImplicit false
namespace Verif.Pool
open Verif.Dyn

/-- The declaration is a member of another one visited in `es`. -/
def Inner (es : List Event) : Event → Prop
  | .file .. => False
  | .service .. => False
  | .message path full file parent _ m => ∃ q qpath qfull qpar qm j, parent = some q ∧
      .message qpath qfull file qpar q qm ∈ es ∧ path = qpath ++ [Tag.msgNested, j] ∧
      full = pushScope qfull m.name ∧ qm.nested[j]? = some m
  | .enum path full file parent _ e => ∃ q qpath qfull qpar qm j, parent = some q ∧
      .message qpath qfull file qpar q qm ∈ es ∧ path = qpath ++ [Tag.msgEnum, j] ∧
      full = pushScope qfull e.name ∧ qm.enums[j]? = some e
  | .extension path full file parent _ f => ∃ q qpath qfull qpar qm j, parent = some q ∧
      .message qpath qfull file qpar q qm ∈ es ∧ path = qpath ++ [Tag.msgExtension, j] ∧
      full = pushScope qfull f.name ∧ qm.exts[j]? = some f
  | .field path full file q i f => ∃ qpath qfull qpar qm,
      .message qpath qfull file qpar q qm ∈ es ∧ path = qpath ++ [Tag.msgField, i] ∧
      full = pushScope qfull f.name ∧ qm.fields[i]? = some f
  | .oneof path full file q i o => ∃ qpath qfull qpar qm,
      .message qpath qfull file qpar q qm ∈ es ∧ path = qpath ++ [Tag.msgOneof, i] ∧
      full = pushScope qfull o.name ∧ qm.oneofs[i]? = some o
  | .method path full file q i m => ∃ qpath qfull qs,
      .service qpath qfull file q qs ∈ es ∧ path = qpath ++ [Tag.svcMethod, i] ∧
      full = pushScope qfull m.name ∧ qs.methods[i]? = some m
  | .enumValue path full file q i v => ∃ scope qpath qpar qe,
      .enum qpath (pushScope scope qe.name) file qpar q qe ∈ es ∧
      path = qpath ++ [Tag.enumValue, i] ∧ full = pushScope scope v.name ∧
      qe.values[i]? = some v

theorem Inner.mono {a b : List Event} {e : Event} (h : Inner a e) (hs : ∀ x ∈ a, x ∈ b) :
    Inner b e := by
  cases e with
  | file => exact h
  | service => exact h
  | message =>
    obtain ⟨q, p, f, r, m, j, h1, h2, h3⟩ := h; exact ⟨q, p, f, r, m, j, h1, hs _ h2, h3⟩
  | enum =>
    obtain ⟨q, p, f, r, m, j, h1, h2, h3⟩ := h; exact ⟨q, p, f, r, m, j, h1, hs _ h2, h3⟩
  | extension =>
    obtain ⟨q, p, f, r, m, j, h1, h2, h3⟩ := h; exact ⟨q, p, f, r, m, j, h1, hs _ h2, h3⟩
  | field => obtain ⟨p, f, r, m, h2, h3⟩ := h; exact ⟨p, f, r, m, hs _ h2, h3⟩
  | oneof => obtain ⟨p, f, r, m, h2, h3⟩ := h; exact ⟨p, f, r, m, hs _ h2, h3⟩
  | method => obtain ⟨p, f, s, h2, h3⟩ := h; exact ⟨p, f, s, hs _ h2, h3⟩
  | enumValue => obtain ⟨s, p, r, m, h2, h3⟩ := h; exact ⟨s, p, r, m, hs _ h2, h3⟩

/-- The declaration is one of those a loop runs over. -/
def TopMsg (path : Path) (tag i : Nat) (scope : Name) (file : Nat) (parent : Option Nat)
    (ms : List MsgP) (e : Event) : Prop :=
  ∃ j k m, e = .message (path ++ [tag, i + j]) (pushScope scope m.name) file parent k m ∧
    ms[j]? = some m

def TopEnum (path : Path) (tag i : Nat) (scope : Name) (file : Nat) (parent : Option Nat)
    (es : List EnumP) (e : Event) : Prop :=
  ∃ j k m, e = .enum (path ++ [tag, i + j]) (pushScope scope m.name) file parent k m ∧
    es[j]? = some m

def TopExt (path : Path) (tag i : Nat) (scope : Name) (file : Nat) (parent : Option Nat)
    (es : List FieldP) (e : Event) : Prop :=
  ∃ j k m, e = .extension (path ++ [tag, i + j]) (pushScope scope m.name) file parent k m ∧
    es[j]? = some m

def TopService (i : Nat) (scope : Name) (file : Nat) (es : List ServiceP) (e : Event) : Prop :=
  ∃ j k m, e = .service [Tag.fileService, i + j] (pushScope scope m.name) file k m ∧
    es[j]? = some m

theorem mem_mapIdx {α β : Type} {l : List α} {f : Nat → α → β} {b : β}
    (h : b ∈ l.mapIdx f) : ∃ i a, l[i]? = some a ∧ b = f i a := by
  rw [List.mem_mapIdx] at h
  obtain ⟨i, hi, h⟩ := h
  exact ⟨i, l[i], by simp [hi], h.symm⟩

theorem mapIdx_mem {α β : Type} {l : List α} {f : Nat → α → β} {i : Nat} {a : α}
    (h : l[i]? = some a) : f i a ∈ l.mapIdx f := by
  rw [List.mem_mapIdx]
  rw [List.getElem?_eq_some_iff] at h
  obtain ⟨hi, h⟩ := h
  exact ⟨i, hi, by rw [h]⟩

theorem enums_inner (path : Path) (tag : Nat) (scope : Name) (file : Nat) (parent : Option Nat) :
    ∀ (es : List EnumP) (i : Nat) (o : Offs) (e : Event),
      e ∈ (visitEnums path tag scope file parent i es o).1 →
      TopEnum path tag i scope file parent es e ∨
        Inner (visitEnums path tag scope file parent i es o).1 e
  | [], i, o, e, h => by simp [visitEnums] at h
  | en :: es, i, o, e, h => by
    have ih := enums_inner path tag scope file parent es (i + 1) { o with enum := o.enum + 1 } e
    simp only [visitEnums, List.mem_cons, List.mem_append] at h
    rcases h with rfl | h | h
    · exact .inl ⟨0, o.enum, en, rfl, rfl⟩
    · right
      obtain ⟨j, v, hv, rfl⟩ := mem_mapIdx h
      exact ⟨scope, path ++ [tag, i], parent, en, by simp [visitEnums], rfl, rfl, hv⟩
    · rcases ih h with ⟨j, k, m, h1, h2⟩ | h1
      · exact .inl ⟨j + 1, k, m, by rw [h1, show i + 1 + j = i + (j + 1) by omega], by simpa using h2⟩
      · exact .inr (h1.mono fun x hx => by simp only [visitEnums, List.mem_cons, List.mem_append]; exact .inr (.inr hx))

theorem exts_inner (path : Path) (tag : Nat) (scope : Name) (file : Nat) (parent : Option Nat) :
    ∀ (es : List FieldP) (i : Nat) (o : Offs) (e : Event),
      e ∈ (visitExts path tag scope file parent i es o).1 →
      TopExt path tag i scope file parent es e
  | [], i, o, e, h => by simp [visitExts] at h
  | en :: es, i, o, e, h => by
    have ih := exts_inner path tag scope file parent es (i + 1)
      { o with extension := o.extension + 1 } e
    simp only [visitExts, List.mem_cons] at h
    rcases h with rfl | h
    · exact ⟨0, o.extension, en, rfl, rfl⟩
    · obtain ⟨j, k, m, h1, h2⟩ := ih h
      exact ⟨j + 1, k, m, by rw [h1, show i + 1 + j = i + (j + 1) by omega], by simpa using h2⟩

theorem services_inner (scope : Name) (file : Nat) :
    ∀ (es : List ServiceP) (i : Nat) (o : Offs) (e : Event),
      e ∈ (visitServices scope file i es o).1 →
      TopService i scope file es e ∨ Inner (visitServices scope file i es o).1 e
  | [], i, o, e, h => by simp [visitServices] at h
  | en :: es, i, o, e, h => by
    have ih := services_inner scope file es (i + 1) { o with service := o.service + 1 } e
    simp only [visitServices, List.mem_cons, List.mem_append] at h
    rcases h with rfl | h | h
    · exact .inl ⟨0, o.service, en, rfl, rfl⟩
    · right
      obtain ⟨j, v, hv, rfl⟩ := mem_mapIdx h
      exact ⟨[Tag.fileService, i], pushScope scope en.name, en, by simp [visitServices], rfl, rfl, hv⟩
    · rcases ih h with ⟨j, k, m, h1, h2⟩ | h1
      · exact .inl ⟨j + 1, k, m, by rw [h1, show i + 1 + j = i + (j + 1) by omega], by simpa using h2⟩
      · exact .inr (h1.mono fun x hx => by simp only [visitServices, List.mem_cons, List.mem_append]; exact .inr (.inr hx))

mutual
theorem msg_inner (path : Path) (scope : Name) (file : Nat) (parent : Option Nat) :
    ∀ (m : MsgP) (o : Offs) (e : Event), e ∈ (visitMsg path scope file parent m o).1 →
      e = .message path (pushScope scope m.name) file parent o.message m ∨
        Inner (visitMsg path scope file parent m o).1 e
  | ⟨name, fields, exts, nested, enums, extRanges, oneofs, options, reserved, reservedNames⟩, o, e, h => by
    have ihm := msgs_inner path Tag.msgNested (pushScope scope name) file (some o.message) nested 0
      { o with message := o.message + 1 } e
    have hself : Event.message path (pushScope scope name) file parent o.message
        ⟨name, fields, exts, nested, enums, extRanges, oneofs, options, reserved, reservedNames⟩ ∈
        (visitMsg path scope file parent
          ⟨name, fields, exts, nested, enums, extRanges, oneofs, options, reserved, reservedNames⟩ o).1 := by
      simp [visitMsg]
    simp only [visitMsg, List.mem_cons, List.mem_append] at h
    rcases h with rfl | h | h | h | h | h
    · exact .inl rfl
    · right
      obtain ⟨j, v, hv, rfl⟩ := mem_mapIdx h
      exact ⟨path, pushScope scope name, parent, _, hself, rfl, rfl, hv⟩
    · right
      obtain ⟨j, v, hv, rfl⟩ := mem_mapIdx h
      exact ⟨path, pushScope scope name, parent, _, hself, rfl, rfl, hv⟩
    · right
      rcases ihm h with ⟨j, k, m, rfl, h2⟩ | h1
      · exact ⟨o.message, path, pushScope scope name, parent, _, j, rfl, hself,
          by rw [Nat.zero_add], rfl, h2⟩
      · exact h1.mono fun x hx => by
          simp only [visitMsg, List.mem_cons, List.mem_append]; exact .inr (.inr (.inr (.inl hx)))
    · right
      rcases enums_inner _ _ _ _ _ _ _ _ _ h with ⟨j, k, m, rfl, h2⟩ | h1
      · exact ⟨o.message, path, pushScope scope name, parent, _, j, rfl, hself,
          by rw [Nat.zero_add], rfl, h2⟩
      · exact h1.mono fun x hx => by
          simp only [visitMsg, List.mem_cons, List.mem_append]; exact .inr (.inr (.inr (.inr (.inl hx))))
    · right
      obtain ⟨j, k, m, rfl, h2⟩ := exts_inner _ _ _ _ _ _ _ _ _ h
      exact ⟨o.message, path, pushScope scope name, parent, _, j, rfl, hself,
          by rw [Nat.zero_add], rfl, h2⟩
theorem msgs_inner (path : Path) (tag : Nat) (scope : Name) (file : Nat) (parent : Option Nat) :
    ∀ (ms : List MsgP) (i : Nat) (o : Offs) (e : Event),
      e ∈ (visitMsgs path tag scope file parent i ms o).1 →
      TopMsg path tag i scope file parent ms e ∨
        Inner (visitMsgs path tag scope file parent i ms o).1 e
  | [], i, o, e, h => by simp [visitMsgs] at h
  | m :: ms, i, o, e, h => by
    have ih1 := msg_inner (path ++ [tag, i]) scope file parent m o e
    have ih2 := msgs_inner path tag scope file parent ms (i + 1)
      (visitMsg (path ++ [tag, i]) scope file parent m o).2 e
    simp only [visitMsgs, List.mem_append] at h
    rcases h with h | h
    · rcases ih1 h with rfl | h1
      · exact .inl ⟨0, o.message, m, rfl, rfl⟩
      · exact .inr (h1.mono fun x hx => by simp only [visitMsgs, List.mem_append]; exact .inl hx)
    · rcases ih2 h with ⟨j, k, m, h1, h2⟩ | h1
      · exact .inl ⟨j + 1, k, m, by rw [h1, show i + 1 + j = i + (j + 1) by omega], by simpa using h2⟩
      · exact .inr (h1.mono fun x hx => by simp only [visitMsgs, List.mem_append]; exact .inr hx)
end

/-- The declaration stands at the top level of a file. -/
def TopOf (f : FileP) (fi : Nat) : Event → Prop
  | .file path i g => path = [] ∧ i = fi ∧ g = f
  | .message path full file parent _ m => file = fi ∧ parent = none ∧
      full = pushScope f.package m.name ∧ ∃ j, path = [Tag.fileMessage, j] ∧ f.messages[j]? = some m
  | .enum path full file parent _ e => file = fi ∧ parent = none ∧
      full = pushScope f.package e.name ∧ ∃ j, path = [Tag.fileEnum, j] ∧ f.enums[j]? = some e
  | .service path full file _ s => file = fi ∧
      full = pushScope f.package s.name ∧ ∃ j, path = [Tag.fileService, j] ∧ f.services[j]? = some s
  | .extension path full file parent _ x => file = fi ∧ parent = none ∧
      full = pushScope f.package x.name ∧ ∃ j, path = [Tag.fileExtension, j] ∧ f.exts[j]? = some x
  | _ => False

theorem file_inner (f : FileP) (o : Offs) (e : Event) (h : e ∈ (visitFile f o).1) :
    TopOf f o.file e ∨ Inner (visitFile f o).1 e := by
  simp only [visitFile, List.mem_cons, List.mem_append] at h
  rcases h with rfl | h | h | h | h
  · exact .inl ⟨rfl, rfl, rfl⟩
  · rcases msgs_inner _ _ _ _ _ _ _ _ _ h with ⟨j, k, m, rfl, h2⟩ | h1
    · exact .inl ⟨rfl, rfl, rfl, j, by simp, h2⟩
    · exact .inr (h1.mono fun x hx => by
        simp only [visitFile, List.mem_cons, List.mem_append]; exact .inr (.inl hx))
  · rcases enums_inner _ _ _ _ _ _ _ _ _ h with ⟨j, k, m, rfl, h2⟩ | h1
    · exact .inl ⟨rfl, rfl, rfl, j, by simp, h2⟩
    · exact .inr (h1.mono fun x hx => by
        simp only [visitFile, List.mem_cons, List.mem_append]; exact .inr (.inr (.inl hx)))
  · rcases services_inner _ _ _ _ _ _ h with ⟨j, k, m, rfl, h2⟩ | h1
    · exact .inl ⟨rfl, rfl, j, by simp, h2⟩
    · exact .inr (h1.mono fun x hx => by
        simp only [visitFile, List.mem_cons, List.mem_append]; exact .inr (.inr (.inr (.inl hx))))
  · obtain ⟨j, k, m, rfl, h2⟩ := exts_inner _ _ _ _ _ _ _ _ _ h
    exact .inl ⟨rfl, rfl, rfl, j, by simp, h2⟩

/-- The file counter moves on by one with each file. -/
theorem enums_file (path : Path) (tag : Nat) (scope : Name) (file : Nat) (parent : Option Nat) :
    ∀ (es : List EnumP) (i : Nat) (o : Offs),
      (visitEnums path tag scope file parent i es o).2.file = o.file
  | [], i, o => rfl
  | e :: es, i, o => by simp only [visitEnums, enums_file path tag scope file parent es]

theorem exts_file (path : Path) (tag : Nat) (scope : Name) (file : Nat) (parent : Option Nat) :
    ∀ (es : List FieldP) (i : Nat) (o : Offs),
      (visitExts path tag scope file parent i es o).2.file = o.file
  | [], i, o => rfl
  | e :: es, i, o => by simp only [visitExts, exts_file path tag scope file parent es]

theorem services_file (scope : Name) (file : Nat) :
    ∀ (es : List ServiceP) (i : Nat) (o : Offs), (visitServices scope file i es o).2.file = o.file
  | [], i, o => rfl
  | e :: es, i, o => by simp only [visitServices, services_file scope file es]

mutual
theorem msg_file (path : Path) (scope : Name) (file : Nat) (parent : Option Nat) :
    ∀ (m : MsgP) (o : Offs), (visitMsg path scope file parent m o).2.file = o.file
  | ⟨name, fields, exts, nested, enums, extRanges, oneofs, options, reserved, reservedNames⟩, o => by
    simp only [visitMsg, exts_file, enums_file,
      msgs_file path Tag.msgNested (pushScope scope name) file (some o.message) nested]
theorem msgs_file (path : Path) (tag : Nat) (scope : Name) (file : Nat) (parent : Option Nat) :
    ∀ (ms : List MsgP) (i : Nat) (o : Offs),
      (visitMsgs path tag scope file parent i ms o).2.file = o.file
  | [], i, o => rfl
  | m :: ms, i, o => by
    simp only [visitMsgs, msgs_file path tag scope file parent ms,
      msg_file (path ++ [tag, i]) scope file parent m]
end

theorem file_file (f : FileP) (o : Offs) : (visitFile f o).2.file = o.file + 1 := by
  simp only [visitFile, exts_file, services_file, enums_file, msgs_file]

/-- Every callback belongs to one of the files visited. -/
theorem visit_inner : ∀ (fs : List FileP) (o : Offs) (e : Event), e ∈ visit o fs →
    (∃ j f, fs[j]? = some f ∧ TopOf f (o.file + j) e) ∨ Inner (visit o fs) e
  | [], o, e, h => by simp [visit] at h
  | f :: fs, o, e, h => by
    have ih := visit_inner fs (visitFile f o).2 e
    simp only [visit, List.mem_append] at h
    rcases h with h | h
    · rcases file_inner f o e h with h1 | h1
      · exact .inl ⟨0, f, rfl, h1⟩
      · exact .inr (h1.mono fun x hx => by simp only [visit, List.mem_append]; exact .inl hx)
    · rcases ih h with ⟨j, g, hg, h1⟩ | h1
      · refine .inl ⟨j + 1, g, by simpa using hg, ?_⟩
        rw [file_file] at h1
        rwa [show o.file + (j + 1) = o.file + 1 + j by omega]
      · exact .inr (h1.mono fun x hx => by simp only [visit, List.mem_append]; exact .inr hx)

end Verif.Pool
