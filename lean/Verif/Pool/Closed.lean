import Verif.Pool.Family
import Verif.Pool.Strip
/-!
The other half of `Family`: everything declared is visited, and the path of a declaration
leads back to it.
-/
set_option autoImplicit false
namespace Verif.Pool
open Verif.Dyn

/-- All members of the declaration are visited in `es`. -/
def Full (es : List Event) : Event → Prop
  | .file _ fi f =>
      (∀ (j : Nat) m, f.messages[j]? = some m → ∃ k,
        .message [Tag.fileMessage, j] (pushScope f.package m.name) fi none k m ∈ es) ∧
      (∀ (j : Nat) e, f.enums[j]? = some e → ∃ k,
        .enum [Tag.fileEnum, j] (pushScope f.package e.name) fi none k e ∈ es) ∧
      (∀ (j : Nat) s, f.services[j]? = some s → ∃ k,
        .service [Tag.fileService, j] (pushScope f.package s.name) fi k s ∈ es) ∧
      (∀ (j : Nat) x, f.exts[j]? = some x → ∃ k,
        .extension [Tag.fileExtension, j] (pushScope f.package x.name) fi none k x ∈ es)
  | .message path full fi _ q m =>
      (∀ (i : Nat) f, m.fields[i]? = some f →
        .field (path ++ [Tag.msgField, i]) (pushScope full f.name) fi q i f ∈ es) ∧
      (∀ (i : Nat) f, m.oneofs[i]? = some f →
        .oneof (path ++ [Tag.msgOneof, i]) (pushScope full f.name) fi q i f ∈ es) ∧
      (∀ (j : Nat) n, m.nested[j]? = some n → ∃ k,
        .message (path ++ [Tag.msgNested, j]) (pushScope full n.name) fi (some q) k n ∈ es) ∧
      (∀ (j : Nat) e, m.enums[j]? = some e → ∃ k,
        .enum (path ++ [Tag.msgEnum, j]) (pushScope full e.name) fi (some q) k e ∈ es) ∧
      (∀ (j : Nat) x, m.exts[j]? = some x → ∃ k,
        .extension (path ++ [Tag.msgExtension, j]) (pushScope full x.name) fi (some q) k x ∈ es)
  | .service path full fi q s => ∀ (i : Nat) m, s.methods[i]? = some m →
      .method (path ++ [Tag.svcMethod, i]) (pushScope full m.name) fi q i m ∈ es
  | .enum path full fi _ q e => ∃ scope, full = pushScope scope e.name ∧
      ∀ (i : Nat) v, e.values[i]? = some v →
        .enumValue (path ++ [Tag.enumValue, i]) (pushScope scope v.name) fi q i v ∈ es
  | _ => True

theorem Full.mono {a b : List Event} {e : Event} (h : Full a e) (hs : ∀ x ∈ a, x ∈ b) :
    Full b e := by
  cases e with
  | file path fi f =>
    obtain ⟨h1, h2, h3, h4⟩ := h
    refine ⟨fun j m hj => ?_, fun j m hj => ?_, fun j m hj => ?_, fun j m hj => ?_⟩
    · obtain ⟨k, hk⟩ := h1 j m hj; exact ⟨k, hs _ hk⟩
    · obtain ⟨k, hk⟩ := h2 j m hj; exact ⟨k, hs _ hk⟩
    · obtain ⟨k, hk⟩ := h3 j m hj; exact ⟨k, hs _ hk⟩
    · obtain ⟨k, hk⟩ := h4 j m hj; exact ⟨k, hs _ hk⟩
  | message path full fi parent q m =>
    obtain ⟨h1, h2, h3, h4, h5⟩ := h
    refine ⟨fun j m hj => hs _ (h1 j m hj), fun j m hj => hs _ (h2 j m hj), fun j m hj => ?_,
      fun j m hj => ?_, fun j m hj => ?_⟩
    · obtain ⟨k, hk⟩ := h3 j m hj; exact ⟨k, hs _ hk⟩
    · obtain ⟨k, hk⟩ := h4 j m hj; exact ⟨k, hs _ hk⟩
    · obtain ⟨k, hk⟩ := h5 j m hj; exact ⟨k, hs _ hk⟩
  | service path full fi q s => exact fun i m hi => hs _ (h i m hi)
  | enum path full fi parent q e =>
    obtain ⟨s, h1, h2⟩ := h
    exact ⟨s, h1, fun i v hi => hs _ (h2 i v hi)⟩
  | _ => trivial

theorem enums_top (path : Path) (tag : Nat) (scope : Name) (file : Nat) (parent : Option Nat) :
    ∀ (es : List EnumP) (i : Nat) (o : Offs) (j : Nat) (e : EnumP), es[j]? = some e → ∃ k,
      .enum (path ++ [tag, i + j]) (pushScope scope e.name) file parent k e ∈
        (visitEnums path tag scope file parent i es o).1
  | [], i, o, j, e, h => by simp at h
  | x :: es, i, o, 0, e, h => by
    simp only [List.getElem?_cons_zero, Option.some.injEq] at h
    subst h
    exact ⟨o.enum, by simp [visitEnums]⟩
  | x :: es, i, o, j + 1, e, h => by
    simp only [List.getElem?_cons_succ] at h
    obtain ⟨k, hk⟩ := enums_top path tag scope file parent es (i + 1)
      { o with enum := o.enum + 1 } j e h
    refine ⟨k, ?_⟩
    simp only [visitEnums, List.mem_cons, List.mem_append]
    rw [show i + (j + 1) = i + 1 + j by omega]
    exact .inr (.inr hk)

theorem enums_full (path : Path) (tag : Nat) (scope : Name) (file : Nat) (parent : Option Nat) :
    ∀ (es : List EnumP) (i : Nat) (o : Offs) (e : Event),
      e ∈ (visitEnums path tag scope file parent i es o).1 →
      Full (visitEnums path tag scope file parent i es o).1 e
  | [], i, o, e, h => by simp [visitEnums] at h
  | en :: es, i, o, e, h => by
    have ih := enums_full path tag scope file parent es (i + 1) { o with enum := o.enum + 1 } e
    simp only [visitEnums, List.mem_cons, List.mem_append] at h
    rcases h with rfl | h | h
    · refine ⟨scope, rfl, fun j v hv => ?_⟩
      simp only [visitEnums, List.mem_cons, List.mem_append]
      exact .inr (.inl (mapIdx_mem hv))
    · obtain ⟨j, v, hv, rfl⟩ := mem_mapIdx h
      trivial
    · exact (ih h).mono fun x hx => by
        simp only [visitEnums, List.mem_cons, List.mem_append]; exact .inr (.inr hx)

theorem exts_top (path : Path) (tag : Nat) (scope : Name) (file : Nat) (parent : Option Nat) :
    ∀ (es : List FieldP) (i : Nat) (o : Offs) (j : Nat) (e : FieldP), es[j]? = some e → ∃ k,
      .extension (path ++ [tag, i + j]) (pushScope scope e.name) file parent k e ∈
        (visitExts path tag scope file parent i es o).1
  | [], i, o, j, e, h => by simp at h
  | x :: es, i, o, 0, e, h => by
    simp only [List.getElem?_cons_zero, Option.some.injEq] at h
    subst h
    exact ⟨o.extension, by simp [visitExts]⟩
  | x :: es, i, o, j + 1, e, h => by
    simp only [List.getElem?_cons_succ] at h
    obtain ⟨k, hk⟩ := exts_top path tag scope file parent es (i + 1)
      { o with extension := o.extension + 1 } j e h
    refine ⟨k, ?_⟩
    simp only [visitExts, List.mem_cons]
    rw [show i + (j + 1) = i + 1 + j by omega]
    exact .inr hk

theorem exts_full (path : Path) (tag : Nat) (scope : Name) (file : Nat) (parent : Option Nat)
    (es : List FieldP) (i : Nat) (o : Offs) (e : Event)
    (h : e ∈ (visitExts path tag scope file parent i es o).1) :
    Full (visitExts path tag scope file parent i es o).1 e := by
  obtain ⟨j, k, m, rfl, _⟩ := exts_inner _ _ _ _ _ _ _ _ _ h
  trivial

theorem services_top (scope : Name) (file : Nat) :
    ∀ (es : List ServiceP) (i : Nat) (o : Offs) (j : Nat) (e : ServiceP), es[j]? = some e → ∃ k,
      .service [Tag.fileService, i + j] (pushScope scope e.name) file k e ∈
        (visitServices scope file i es o).1
  | [], i, o, j, e, h => by simp at h
  | x :: es, i, o, 0, e, h => by
    simp only [List.getElem?_cons_zero, Option.some.injEq] at h
    subst h
    exact ⟨o.service, by simp [visitServices]⟩
  | x :: es, i, o, j + 1, e, h => by
    simp only [List.getElem?_cons_succ] at h
    obtain ⟨k, hk⟩ := services_top scope file es (i + 1)
      { o with service := o.service + 1 } j e h
    refine ⟨k, ?_⟩
    simp only [visitServices, List.mem_cons, List.mem_append]
    rw [show i + (j + 1) = i + 1 + j by omega]
    exact .inr (.inr hk)

theorem services_full (scope : Name) (file : Nat) :
    ∀ (es : List ServiceP) (i : Nat) (o : Offs) (e : Event),
      e ∈ (visitServices scope file i es o).1 → Full (visitServices scope file i es o).1 e
  | [], i, o, e, h => by simp [visitServices] at h
  | en :: es, i, o, e, h => by
    have ih := services_full scope file es (i + 1) { o with service := o.service + 1 } e
    simp only [visitServices, List.mem_cons, List.mem_append] at h
    rcases h with rfl | h | h
    · intro j v hv
      simp only [visitServices, List.mem_cons, List.mem_append]
      exact .inr (.inl (mapIdx_mem (f := fun i m => Event.method ([Tag.fileService, _] ++ [Tag.svcMethod, i]) (pushScope _ m.name) file _ i m) hv))
    · obtain ⟨j, v, hv, rfl⟩ := mem_mapIdx h
      trivial
    · exact (ih h).mono fun x hx => by
        simp only [visitServices, List.mem_cons, List.mem_append]; exact .inr (.inr hx)

theorem msgs_top (path : Path) (tag : Nat) (scope : Name) (file : Nat) (parent : Option Nat) :
    ∀ (ms : List MsgP) (i : Nat) (o : Offs) (j : Nat) (m : MsgP), ms[j]? = some m → ∃ k,
      .message (path ++ [tag, i + j]) (pushScope scope m.name) file parent k m ∈
        (visitMsgs path tag scope file parent i ms o).1
  | [], i, o, j, e, h => by simp at h
  | ⟨name, fields, exts, nested, enums, extRanges, oneofs, options, reserved, reservedNames⟩ :: es, i, o, 0, e, h => by
    simp only [List.getElem?_cons_zero, Option.some.injEq] at h
    subst h
    exact ⟨o.message, by simp [visitMsgs, visitMsg]⟩
  | x :: es, i, o, j + 1, e, h => by
    simp only [List.getElem?_cons_succ] at h
    obtain ⟨k, hk⟩ := msgs_top path tag scope file parent es (i + 1)
      (visitMsg (path ++ [tag, i]) scope file parent x o).2 j e h
    refine ⟨k, ?_⟩
    simp only [visitMsgs, List.mem_append]
    rw [show i + (j + 1) = i + 1 + j by omega]
    exact .inr hk

mutual
theorem msg_full (path : Path) (scope : Name) (file : Nat) (parent : Option Nat) :
    ∀ (m : MsgP) (o : Offs) (e : Event), e ∈ (visitMsg path scope file parent m o).1 →
        Full (visitMsg path scope file parent m o).1 e
  | ⟨name, fields, exts, nested, enums, extRanges, oneofs, options, reserved, reservedNames⟩, o, e, h => by
    have ihm := msgs_full path Tag.msgNested (pushScope scope name) file (some o.message) nested 0
      { o with message := o.message + 1 } e
    simp only [visitMsg, List.mem_cons, List.mem_append] at h
    rcases h with rfl | h | h | h | h | h
    · refine ⟨fun j v hv => ?_, fun j v hv => ?_, fun j v hv => ?_, fun j v hv => ?_, fun j v hv => ?_⟩
      · simp only [visitMsg, List.mem_cons, List.mem_append]
        exact .inr (.inr (.inl (mapIdx_mem hv)))
      · simp only [visitMsg, List.mem_cons, List.mem_append]
        exact .inr (.inl (mapIdx_mem hv))
      · obtain ⟨k, hk⟩ := msgs_top path Tag.msgNested (pushScope scope name) file (some o.message)
          nested 0 { o with message := o.message + 1 } j v hv
        refine ⟨k, ?_⟩
        simp only [visitMsg, List.mem_cons, List.mem_append]
        rw [Nat.zero_add] at hk
        exact .inr (.inr (.inr (.inl hk)))
      · obtain ⟨k, hk⟩ := enums_top path Tag.msgEnum (pushScope scope name) file (some o.message)
          enums 0 (visitMsgs path Tag.msgNested (pushScope scope name) file (some o.message) 0
            nested { o with message := o.message + 1 }).2 j v hv
        refine ⟨k, ?_⟩
        simp only [visitMsg, List.mem_cons, List.mem_append]
        rw [Nat.zero_add] at hk
        exact .inr (.inr (.inr (.inr (.inl hk))))
      · obtain ⟨k, hk⟩ := exts_top path Tag.msgExtension (pushScope scope name) file (some o.message)
          exts 0 (visitEnums path Tag.msgEnum (pushScope scope name) file (some o.message) 0 enums
            (visitMsgs path Tag.msgNested (pushScope scope name) file (some o.message) 0
            nested { o with message := o.message + 1 }).2).2 j v hv
        refine ⟨k, ?_⟩
        simp only [visitMsg, List.mem_cons, List.mem_append]
        rw [Nat.zero_add] at hk
        exact .inr (.inr (.inr (.inr (.inr hk))))
    · obtain ⟨j, v, hv, rfl⟩ := mem_mapIdx h
      trivial
    · obtain ⟨j, v, hv, rfl⟩ := mem_mapIdx h
      trivial
    · exact (ihm h).mono fun x hx => by
        simp only [visitMsg, List.mem_cons, List.mem_append]; exact .inr (.inr (.inr (.inl hx)))
    · exact (enums_full _ _ _ _ _ _ _ _ _ h).mono fun x hx => by
        simp only [visitMsg, List.mem_cons, List.mem_append]; exact .inr (.inr (.inr (.inr (.inl hx))))
    · obtain ⟨j, k, m, rfl, _⟩ := exts_inner _ _ _ _ _ _ _ _ _ h
      trivial
theorem msgs_full (path : Path) (tag : Nat) (scope : Name) (file : Nat) (parent : Option Nat) :
    ∀ (ms : List MsgP) (i : Nat) (o : Offs) (e : Event),
      e ∈ (visitMsgs path tag scope file parent i ms o).1 →
        Full (visitMsgs path tag scope file parent i ms o).1 e
  | [], i, o, e, h => by simp [visitMsgs] at h
  | m :: ms, i, o, e, h => by
    have ih1 := msg_full (path ++ [tag, i]) scope file parent m o e
    have ih2 := msgs_full path tag scope file parent ms (i + 1)
      (visitMsg (path ++ [tag, i]) scope file parent m o).2 e
    simp only [visitMsgs, List.mem_append] at h
    rcases h with h | h
    · exact (ih1 h).mono fun x hx => by simp only [visitMsgs, List.mem_append]; exact .inl hx
    · exact (ih2 h).mono fun x hx => by simp only [visitMsgs, List.mem_append]; exact .inr hx
end

theorem file_full (f : FileP) (o : Offs) (e : Event) (h : e ∈ (visitFile f o).1) :
    Full (visitFile f o).1 e := by
  simp only [visitFile, List.mem_cons, List.mem_append] at h
  rcases h with rfl | h | h | h | h
  · refine ⟨fun j v hv => ?_, fun j v hv => ?_, fun j v hv => ?_, fun j v hv => ?_⟩
    · obtain ⟨k, hk⟩ := msgs_top [] Tag.fileMessage f.package o.file none f.messages 0
        { o with file := o.file + 1 } j v hv
      refine ⟨k, ?_⟩
      simp only [visitFile, List.mem_cons, List.mem_append]
      simp only [Nat.zero_add, List.nil_append] at hk
      exact .inr (.inl hk)
    · obtain ⟨k, hk⟩ := enums_top [] Tag.fileEnum f.package o.file none f.enums 0
        (visitMsgs [] Tag.fileMessage f.package o.file none 0 f.messages
          { o with file := o.file + 1 }).2 j v hv
      refine ⟨k, ?_⟩
      simp only [visitFile, List.mem_cons, List.mem_append]
      simp only [Nat.zero_add, List.nil_append] at hk
      exact .inr (.inr (.inl hk))
    · obtain ⟨k, hk⟩ := services_top f.package o.file f.services 0
        (visitEnums [] Tag.fileEnum f.package o.file none 0 f.enums
        (visitMsgs [] Tag.fileMessage f.package o.file none 0 f.messages
          { o with file := o.file + 1 }).2).2 j v hv
      refine ⟨k, ?_⟩
      simp only [visitFile, List.mem_cons, List.mem_append]
      simp only [Nat.zero_add] at hk
      exact .inr (.inr (.inr (.inl hk)))
    · obtain ⟨k, hk⟩ := exts_top [] Tag.fileExtension f.package o.file none f.exts 0
        (visitServices f.package o.file 0 f.services
        (visitEnums [] Tag.fileEnum f.package o.file none 0 f.enums
        (visitMsgs [] Tag.fileMessage f.package o.file none 0 f.messages
          { o with file := o.file + 1 }).2).2).2 j v hv
      refine ⟨k, ?_⟩
      simp only [visitFile, List.mem_cons, List.mem_append]
      simp only [Nat.zero_add, List.nil_append] at hk
      exact .inr (.inr (.inr (.inr hk)))
  · exact (msgs_full _ _ _ _ _ _ _ _ _ h).mono fun x hx => by
      simp only [visitFile, List.mem_cons, List.mem_append]; exact .inr (.inl hx)
  · exact (enums_full _ _ _ _ _ _ _ _ _ h).mono fun x hx => by
      simp only [visitFile, List.mem_cons, List.mem_append]; exact .inr (.inr (.inl hx))
  · exact (services_full _ _ _ _ _ _ h).mono fun x hx => by
      simp only [visitFile, List.mem_cons, List.mem_append]; exact .inr (.inr (.inr (.inl hx)))
  · exact (exts_full _ _ _ _ _ _ _ _ _ h).mono fun x hx => by
      simp only [visitFile, List.mem_cons, List.mem_append]; exact .inr (.inr (.inr (.inr hx)))

/-- Everything declared inside a visited declaration is visited. -/
theorem visit_full : ∀ (fs : List FileP) (o : Offs) (e : Event), e ∈ visit o fs →
    Full (visit o fs) e
  | [], o, e, h => by simp [visit] at h
  | f :: fs, o, e, h => by
    have ih := visit_full fs (visitFile f o).2 e
    simp only [visit, List.mem_append] at h
    rcases h with h | h
    · exact (file_full f o e h).mono fun x hx => by simp only [visit, List.mem_append]; exact .inl hx
    · exact (ih h).mono fun x hx => by simp only [visit, List.mem_append]; exact .inr hx

/-- Every file is visited. -/
theorem visit_files : ∀ (fs : List FileP) (o : Offs) (j : Nat) (f : FileP), fs[j]? = some f →
    .file [] (o.file + j) f ∈ visit o fs
  | [], o, j, f, h => by simp at h
  | g :: fs, o, 0, f, h => by
    simp only [List.getElem?_cons_zero, Option.some.injEq] at h
    subst h
    simp [visit, visitFile]
  | g :: fs, o, j + 1, f, h => by
    simp only [List.getElem?_cons_succ] at h
    have := visit_files fs (visitFile g o).2 j f h
    rw [file_file] at this
    simp only [visit, List.mem_append]
    rw [show o.file + (j + 1) = o.file + 1 + j by omega]
    exact .inr this

/-! Paths. -/

theorem findMsgFrom_snoc (f : FileP) (j : Nat) : ∀ (path : Path) (cur : Option MsgP) (m n : MsgP),
    findMsgFrom f cur path = some m → m.nested[j]? = some n →
    findMsgFrom f cur (path ++ [Tag.msgNested, j]) = some n
  | [], cur, m, n, h, hn => by
    simp only [findMsgFrom] at h
    subst h
    simp only [List.nil_append, findMsgFrom]
    rw [if_neg (by decide)]
    simp [hn]
  | [_], cur, m, n, h, hn => by simp [findMsgFrom] at h
  | t :: i :: rest, cur, m, n, h, hn => by
    simp only [List.cons_append, findMsgFrom] at h ⊢
    split at h
    · next ht =>
      rw [if_pos ht]
      split at h
      · next m1 h1 => exact findMsgFrom_snoc f j rest (some m1) m n h hn
      · cases h
    · next ht =>
      rw [if_neg ht]
      split at h
      · next ht2 =>
        rw [if_pos ht2]
        split at h
        · next m1 =>
          split at h
          · next m2 h2 => exact findMsgFrom_snoc f j rest (some m2) m n h hn
          · cases h
        · cases h
      · cases h

theorem findMsg_nested {f : FileP} {path : Path} {m n : MsgP} {j : Nat}
    (h : findMsg f path = some m) (hn : m.nested[j]? = some n) :
    findMsg f (path ++ [Tag.msgNested, j]) = some n := findMsgFrom_snoc f j path none m n h hn

theorem findMsg_top {f : FileP} {m : MsgP} {j : Nat} (h : f.messages[j]? = some m) :
    findMsg f [Tag.fileMessage, j] = some m := by
  simp [findMsg, findMsgFrom, h]

/-- The path of a message leads to it, and it is not empty. -/
theorem visit_findMsg {o : Offs} {fs : List FileP} : ∀ (n : Nat) (path : Path), path.length = n →
    ∀ {full : Name} {file : Nat} {parent : Option Nat} {k : Nat} {m : MsgP},
    .message path full file parent k m ∈ visit o fs →
    path ≠ [] ∧ ∃ j f, fs[j]? = some f ∧ file = o.file + j ∧ findMsg f path = some m := by
  intro n
  induction n using Nat.strongRecOn with
  | _ n ih =>
    intro path hle full file parent k m h
    rcases visit_inner fs o _ h with ⟨j, f, hf, h1, _, _, i, h2, h3⟩ | hi
    · subst h2
      exact ⟨by simp, j, f, hf, h1, findMsg_top h3⟩
    · obtain ⟨q, qpath, qfull, qpar, qm, i, h1, h2, h3, h4, h5⟩ := hi
      subst h3
      simp only [List.length_append, List.length_cons, List.length_nil] at hle
      obtain ⟨_, j, f, g1, g2, g3⟩ := ih qpath.length (by omega) qpath rfl h2
      exact ⟨by simp, j, f, g1, g2, findMsg_nested g3 h5⟩

theorem findEnum_top {f : FileP} {e : EnumP} {j : Nat} (h : f.enums[j]? = some e) :
    findEnum f [Tag.fileEnum, j] = some e := by simp [findEnum, h]

theorem findEnum_in {f : FileP} {path : Path} {m : MsgP} {e : EnumP} {j : Nat} (hp : path ≠ [])
    (h : findMsg f path = some m) (he : m.enums[j]? = some e) :
    findEnum f (path ++ [Tag.msgEnum, j]) = some e := by
  unfold findEnum
  split
  · next x i hx =>
    have := congrArg List.length hx
    simp only [List.length_append, List.length_cons, List.length_nil] at this
    have : path.length = 0 := by omega
    exact absurd (List.eq_nil_of_length_eq_zero this) hp
  · rw [show (path ++ [Tag.msgEnum, j]).take ((path ++ [Tag.msgEnum, j]).length - 2) = path by
      simp only [List.length_append, List.length_cons, List.length_nil]
      rw [show path.length + (0 + 1 + 1) - 2 = path.length by omega]
      exact List.take_left' rfl]
    rw [h]
    simp [he]

/-- The path of an enum leads to it. -/
theorem visit_findEnum {o : Offs} {fs : List FileP} {path : Path} {full : Name} {file : Nat}
    {parent : Option Nat} {k : Nat} {e : EnumP}
    (h : .enum path full file parent k e ∈ visit o fs) :
    ∃ j f, fs[j]? = some f ∧ file = o.file + j ∧ findEnum f path = some e := by
  rcases visit_inner fs o _ h with ⟨j, f, hf, h1, _, _, i, h2, h3⟩ | hi
  · subst h2
    exact ⟨j, f, hf, h1, findEnum_top h3⟩
  · obtain ⟨q, qpath, qfull, qpar, qm, i, h1, h2, h3, h4, h5⟩ := hi
    subst h3
    obtain ⟨g0, j, f, g1, g2, g3⟩ := visit_findMsg _ qpath rfl h2
    exact ⟨j, f, g1, g2, findEnum_in g0 g3 h5⟩

/-- The file of a declaration is one of those visited. -/
theorem visit_file_lt {o : Offs} {fs : List FileP} {path : Path} {full : Name} {file : Nat}
    {parent : Option Nat} {k : Nat} {m : MsgP} (h : .message path full file parent k m ∈ visit o fs) :
    ∃ j f, fs[j]? = some f ∧ file = o.file + j :=
  let ⟨_, j, f, h1, h2, _⟩ := visit_findMsg _ path rfl h
  ⟨j, f, h1, h2⟩

end Verif.Pool
