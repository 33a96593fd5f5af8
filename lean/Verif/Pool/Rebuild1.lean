import Verif.Pool.Strip
import Verif.Pool.Spec
import Verif.Pool.Count
/-!
The traversal of two files that differ only in what the builder fills in.
-/
set_option autoImplicit false
namespace Verif.Pool
open Verif.Dyn

/-- Forget what the builder fills in. -/
def Event.strip : Event → Event
  | .file path i f => .file path i (stripFile f)
  | .message path full fi parent i m => .message path full fi parent i (stripMsg m)
  | .field path full fi k i f => .field path full fi k i (stripField f)
  | .service path full fi i s => .service path full fi i (stripService s)
  | .method path full fi k i m => .method path full fi k i (stripMethod m)
  | .extension path full fi parent i f => .extension path full fi parent i (stripField f)
  | e => e

theorem map_mapIdx_of {α β : Type} {s : β → β} {t : α → α} {g : Nat → α → β}
    (h : ∀ i a, s (g i a) = g i (t a)) (l : List α) : (l.mapIdx g).map s = (l.map t).mapIdx g := by
  apply List.ext_getElem?
  intro i
  simp only [List.getElem?_map, List.getElem?_mapIdx]
  cases l[i]? with
  | none => rfl
  | some a => simp only [Option.map_some, h]

theorem mapIdx_strip {α : Type} {g : Nat → α → Event} (h : ∀ i a, (g i a).strip = g i a) (l : List α) :
    (l.mapIdx g).map Event.strip = l.mapIdx g := by
  have := map_mapIdx_of (s := Event.strip) (t := id) (g := g) h l
  rwa [List.map_id] at this

theorem fields_strip (path : Path) (scope : Name) (file msg : Nat) (fs : List FieldP) :
    visitFields path scope file msg (fs.map stripField) = (visitFields path scope file msg fs).map Event.strip :=
  (map_mapIdx_of (s := Event.strip) (t := stripField) (fun _ _ => rfl) fs).symm

theorem oneofs_strip (path : Path) (scope : Name) (file msg : Nat) (fs : List OneofP) :
    (visitOneofs path scope file msg fs).map Event.strip = visitOneofs path scope file msg fs :=
  mapIdx_strip (fun _ _ => rfl) fs

theorem methods_strip (path : Path) (scope : Name) (file msg : Nat) (fs : List MethodP) :
    visitMethods path scope file msg (fs.map stripMethod) = (visitMethods path scope file msg fs).map Event.strip :=
  (map_mapIdx_of (s := Event.strip) (t := stripMethod) (fun _ _ => rfl) fs).symm

theorem enums_strip (path : Path) (tag : Nat) (scope : Name) (file : Nat) (parent : Option Nat) :
    ∀ (es : List EnumP) (i : Nat) (o : Offs),
      (visitEnums path tag scope file parent i es o).1.map Event.strip =
        (visitEnums path tag scope file parent i es o).1
  | [], _, _ => rfl
  | e :: es, i, o => by
    have ih := enums_strip path tag scope file parent es
    simp only [visitEnums, List.map_cons, List.map_append, ih, Event.strip, visitValues]
    rw [mapIdx_strip fun i a => rfl]

theorem exts_strip (path : Path) (tag : Nat) (scope : Name) (file : Nat) (parent : Option Nat) :
    ∀ (es : List FieldP) (i : Nat) (o : Offs),
      visitExts path tag scope file parent i (es.map stripField) o =
        ((visitExts path tag scope file parent i es o).1.map Event.strip,
          (visitExts path tag scope file parent i es o).2)
  | [], _, _ => rfl
  | e :: es, i, o => by
    have ih := exts_strip path tag scope file parent es
    simp only [visitExts, List.map_cons, ih, Event.strip]
    rfl

theorem services_strip (scope : Name) (file : Nat) : ∀ (es : List ServiceP) (i : Nat) (o : Offs),
    visitServices scope file i (es.map stripService) o =
      ((visitServices scope file i es o).1.map Event.strip, (visitServices scope file i es o).2)
  | [], _, _ => rfl
  | e :: es, i, o => by
    have ih := services_strip scope file es
    simp only [visitServices, List.map_cons, List.map_append, ih, Event.strip, stripService, methods_strip]

mutual
theorem msg_strip (path : Path) (scope : Name) (file : Nat) (parent : Option Nat) :
    ∀ (m : MsgP) (o : Offs), visitMsg path scope file parent (stripMsg m) o =
      ((visitMsg path scope file parent m o).1.map Event.strip, (visitMsg path scope file parent m o).2)
  | ⟨name, fields, exts, nested, enums, extRanges, oneofs, options, reserved, reservedNames⟩, o => by
    have ih := msgs_strip path Tag.msgNested (pushScope scope name) file (some o.message) nested
    simp only [visitMsg, stripMsg, List.map_cons, List.map_append, Event.strip, ih, enums_strip, exts_strip,
      fields_strip, oneofs_strip]
theorem msgs_strip (path : Path) (tag : Nat) (scope : Name) (file : Nat) (parent : Option Nat) :
    ∀ (ms : List MsgP) (i : Nat) (o : Offs), visitMsgs path tag scope file parent i (stripMsgs ms) o =
      ((visitMsgs path tag scope file parent i ms o).1.map Event.strip,
        (visitMsgs path tag scope file parent i ms o).2)
  | [], i, o => by simp [visitMsgs, stripMsgs]
  | m :: ms, i, o => by
    simp only [visitMsgs, stripMsgs, msg_strip (path ++ [tag, i]) scope file parent m,
      msgs_strip path tag scope file parent ms, List.map_append]
end

theorem file_strip (f : FileP) (o : Offs) : visitFile (stripFile f) o =
    ((visitFile f o).1.map Event.strip, (visitFile f o).2) := by
  simp only [visitFile, stripFile, msgs_strip, enums_strip, services_strip, exts_strip, List.map_cons,
    List.map_append, Event.strip]

theorem visit_strip : ∀ (fs : List FileP) (o : Offs),
    visit o (fs.map stripFile) = (visit o fs).map Event.strip
  | [], _ => rfl
  | f :: fs, o => by
    simp only [visit, List.map_cons, List.map_append, file_strip, visit_strip fs]

theorem offsAfter_strip : ∀ (fs : List FileP) (o : Offs), offsAfter o (fs.map stripFile) = offsAfter o fs
  | [], _ => rfl
  | f :: fs, o => by simp only [offsAfter, List.map_cons, file_strip, offsAfter_strip fs]

section
variable {fs gs : List FileP} (h : fs.map stripFile = gs.map stripFile)
include h

theorem visit_alike {o : Offs} {e : Event} (he : e ∈ visit o fs) : ∃ e' ∈ visit o gs, e'.strip = e.strip := by
  have h1 : e.strip ∈ (visit o gs).map Event.strip := by
    rw [← visit_strip, ← h, visit_strip]
    exact List.mem_map.2 ⟨e, he, rfl⟩
  obtain ⟨e', h2, h3⟩ := List.mem_map.1 h1
  exact ⟨e', h2, h3⟩

theorem offsAfter_alike (o : Offs) : offsAfter o fs = offsAfter o gs := by
  rw [← offsAfter_strip fs, h, offsAfter_strip]

theorem file_alike {i : Nat} {f : FileP} (hf : fs[i]? = some f) :
    ∃ g, gs[i]? = some g ∧ stripFile g = stripFile f := by
  have h1 : (gs.map stripFile)[i]? = some (stripFile f) := by
    rw [← h, List.getElem?_map, hf]; rfl
  rw [List.getElem?_map, Option.map_eq_some_iff] at h1
  exact h1

end

theorem Event.strip_defn (e : Event) : e.strip.defn = e.defn := by cases e <;> rfl

end Verif.Pool
