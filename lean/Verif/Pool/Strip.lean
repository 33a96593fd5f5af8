import Verif.Pool.Locate
/-!
What the resolve and options passes never change in a file descriptor: everything but the
resolved type names, the JSON names and the options.
-/
set_option autoImplicit false
namespace Verif.Pool
open Verif.Dyn

/-- Forget what the builder fills in. -/
def stripField (f : FieldP) : FieldP :=
  { f with typeName := [], ty := .double, extendee := none,
           jsonName := none, options := none }

def stripMethod (m : MethodP) : MethodP := { m with input := [], output := [] }

def stripService (s : ServiceP) : ServiceP := { s with methods := s.methods.map stripMethod }

mutual
def stripMsg : MsgP → MsgP
  | ⟨name, fields, exts, nested, enums, extRanges, oneofs, _, reserved, reservedNames⟩ =>
    ⟨name, fields.map stripField, exts.map stripField, stripMsgs nested, enums, extRanges, oneofs,
      none, reserved, reservedNames⟩
termination_by structural m => m
def stripMsgs : List MsgP → List MsgP
  | [] => []
  | m :: ms => stripMsg m :: stripMsgs ms
termination_by structural ms => ms
end

def stripFile (f : FileP) : FileP :=
  { f with messages := stripMsgs f.messages, services := f.services.map stripService,
           exts := f.exts.map stripField }

theorem stripMsgs_eq (ms : List MsgP) : stripMsgs ms = ms.map stripMsg := by
  induction ms with
  | nil => rfl
  | cons m ms ih => simp only [stripMsgs, List.map_cons, ih]

theorem stripMsg_eq (m : MsgP) : stripMsg m =
    { m with fields := m.fields.map stripField, exts := m.exts.map stripField,
             nested := m.nested.map stripMsg, options := none } := by
  cases m; simp only [stripMsg, stripMsgs_eq]

theorem stripFile_eq (f : FileP) : stripFile f =
    { f with messages := f.messages.map stripMsg, services := f.services.map stripService,
             exts := f.exts.map stripField } := by
  simp only [stripFile, stripMsgs_eq]

theorem map_modify_of {α β : Type} (s : α → β) (g : α → α) (h : ∀ a, s (g a) = s a)
    (l : List α) (i : Nat) : (l.modify i g).map s = l.map s := by
  apply List.ext_getElem?
  intro j
  simp only [List.getElem?_map, List.getElem?_modify]
  cases l[j]? with
  | none => rfl
  | some a =>
    simp only [Option.map_some]
    split
    · simp [h]
    · rfl

theorem map_set_of {α β : Type} (s : α → β) (l : List α) (i : Nat) (a b : α)
    (hi : l[i]? = some a) (h : s b = s a) : (l.set i b).map s = l.map s := by
  apply List.ext_getElem?
  intro j
  simp only [List.getElem?_map, List.getElem?_set]
  split
  · next hij =>
    subst hij
    rw [hi]
    have : i < l.length := by
      rw [List.getElem?_eq_some_iff] at hi; exact hi.1
    simp [this, h]
  · rfl

theorem modFieldMsg_strip (g : FieldP → FieldP) (hg : ∀ f, stripField (g f) = stripField f) :
    ∀ (p : Path) (m m' : MsgP), modFieldMsg g p m = some m' → stripMsg m' = stripMsg m
  | [], _, _, h => by simp [modFieldMsg] at h
  | [_], _, _, h => by simp [modFieldMsg] at h
  | t :: i :: rest, m, m', h => by
    have ih := modFieldMsg_strip g hg rest
    simp only [modFieldMsg] at h
    split at h
    · split at h
      · cases h
        simp only [stripMsg_eq, map_modify_of stripField g hg]
      · cases h
    · split at h
      · split at h
        · cases h
          simp only [stripMsg_eq, map_modify_of stripField g hg]
        · cases h
      · split at h
        · split at h
          · next n hn =>
            split at h
            · next n' hn' =>
              cases h
              simp only [stripMsg_eq m, stripMsg_eq { m with nested := m.nested.set i n' }]
              rw [map_set_of stripMsg m.nested i n n' hn (ih n n' hn')]
            · cases h
          · cases h
        · cases h

theorem modField_strip (g : FieldP → FieldP) (hg : ∀ f, stripField (g f) = stripField f)
    (p : Path) (f f' : FileP) (h : modField g f p = some f') : stripFile f' = stripFile f := by
  match p, h with
  | [], h => simp [modField] at h
  | [_], h => simp [modField] at h
  | t :: i :: rest, h =>
    simp only [modField] at h
    split at h
    · split at h
      · next m hm =>
        split at h
        · next m' hm' =>
          cases h
          simp only [stripFile_eq]
          rw [map_set_of stripMsg f.messages i m m' hm (modFieldMsg_strip g hg _ _ _ hm')]
        · cases h
      · cases h
    · split at h
      · split at h
        · cases h
          simp only [stripFile_eq, map_modify_of stripField g hg]
        · cases h
      · cases h

theorem modMethod_strip (g : MethodP → MethodP) (hg : ∀ f, stripMethod (g f) = stripMethod f)
    (p : Path) (f f' : FileP) (h : modMethod g f p = some f') : stripFile f' = stripFile f := by
  unfold modMethod at h
  split at h
  · next i _ j =>
    split at h
    · next s hs =>
      split at h
      · cases h
        simp only [stripFile_eq]
        rw [map_set_of stripService f.services i s _ hs
          (by simp only [stripService, map_modify_of stripMethod g hg])]
      · cases h
    · cases h
  · cases h

theorem modMsgIn_strip (g : MsgP → MsgP) (hg : ∀ f, stripMsg (g f) = stripMsg f) :
    ∀ (p : Path) (m m' : MsgP), modMsgIn g p m = some m' → stripMsg m' = stripMsg m
  | [], m, m', h => by simp only [modMsgIn, Option.some.injEq] at h; rw [← h, hg]
  | [_], _, _, h => by simp [modMsgIn] at h
  | t :: i :: rest, m, m', h => by
    have ih := modMsgIn_strip g hg rest
    simp only [modMsgIn] at h
    split at h
    · split at h
      · next n hn =>
        split at h
        · next n' hn' =>
          cases h
          simp only [stripMsg_eq m, stripMsg_eq { m with nested := m.nested.set i n' }]
          rw [map_set_of stripMsg m.nested i n n' hn (ih n n' hn')]
        · cases h
      · cases h
    · cases h

theorem modMsg_strip (g : MsgP → MsgP) (hg : ∀ f, stripMsg (g f) = stripMsg f)
    (p : Path) (f f' : FileP) (h : modMsg g f p = some f') : stripFile f' = stripFile f := by
  match p, h with
  | [], h => simp [modMsg] at h
  | [_], h => simp [modMsg] at h
  | t :: i :: rest, h =>
    simp only [modMsg] at h
    split at h
    · split at h
      · next m hm =>
        split at h
        · next m' hm' =>
          cases h
          simp only [stripFile_eq]
          rw [map_set_of stripMsg f.messages i m m' hm (modMsgIn_strip g hg _ _ _ hm')]
        · cases h
      · cases h
    · cases h

/-! Finding a declaration commutes with forgetting. -/

theorem findMsgFrom_strip (f : FileP) : ∀ (p : Path) (cur : Option MsgP),
    findMsgFrom (stripFile f) (cur.map stripMsg) p = (findMsgFrom f cur p).map stripMsg
  | [], cur => rfl
  | [_], cur => rfl
  | t :: i :: rest, cur => by
    have ih := findMsgFrom_strip f rest
    simp only [findMsgFrom]
    split
    · simp only [stripFile_eq, List.getElem?_map]
      cases f.messages[i]? with
      | none => rfl
      | some m =>
        have := ih (some m)
        simpa only [stripFile_eq, Option.map_some] using this
    · split
      · cases cur with
        | none => rfl
        | some m =>
          simp only [Option.map_some, stripMsg_eq, List.getElem?_map]
          cases m.nested[i]? with
          | none => rfl
          | some n => simpa only [Option.map_some, stripMsg_eq] using ih (some n)
      · rfl

theorem findMsg_strip (f : FileP) (p : Path) :
    findMsg (stripFile f) p = (findMsg f p).map stripMsg := findMsgFrom_strip f p none

theorem findEnum_strip (f : FileP) (p : Path) : findEnum (stripFile f) p = findEnum f p := by
  unfold findEnum
  split
  · simp only [stripFile_eq]
  · rw [findMsg_strip]
    cases findMsg f (List.take (p.length - 2) p) with
    | none => rfl
    | some m => simp only [Option.map_some, stripMsg_eq]

end Verif.Pool
