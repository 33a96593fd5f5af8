import Verif.Pool.Entries
import Verif.Pool.Accept5
/-!
What is left of a declaration in the descriptors a pool keeps: single fields, extensions and methods.
-/
set_option autoImplicit false
namespace Verif.Pool
open Verif.Wire Verif.Dyn

/-! ### Single fields and methods of a file -/

/-- The field or extension at a path inside a message. -/
def fieldAtMsg : Path → MsgP → Option FieldP
  | t :: i :: rest, m =>
    if t = 2 then (if rest = [] then m.fields[i]? else none)
    else if t = 6 then (if rest = [] then m.exts[i]? else none)
    else if t = 3 then
      match m.nested[i]? with
      | some n => fieldAtMsg rest n
      | none => none
    else none
  | _, _ => none

/-- The field or extension at a path inside a file. -/
def fieldAt (f : FileP) : Path → Option FieldP
  | t :: i :: rest =>
    if t = 4 then
      match f.messages[i]? with
      | some m => fieldAtMsg rest m
      | none => none
    else if t = 7 then (if rest = [] then f.exts[i]? else none)
    else none
  | _ => none

/-- The method at a path inside a file. -/
def methodAt (f : FileP) : Path → Option MethodP
  | [t, i, u, j] =>
    if t = 6 ∧ u = 2 then
      match f.services[i]? with
      | some s => s.methods[j]?
      | none => none
    else none
  | _ => none

theorem Has.fieldAt_in {f : FileP} {path : Path} {s : Name} {m : MsgP} (h : Has f path s (.message m)) :
    ∀ rest, fieldAt f (path ++ rest) = fieldAtMsg rest m := by
  generalize hx : Item.message m = x at h
  induction h generalizing m with
  | message i n hi =>
    cases hx
    intro rest
    simp only [List.cons_append, List.nil_append, fieldAt, hi, if_true]
  | nested path s t i n hp hi ih =>
    cases hx
    intro rest
    rw [List.append_assoc, ih rfl]
    simp only [List.cons_append, List.nil_append, fieldAtMsg, hi, if_true]
    rw [if_neg (by decide), if_neg (by decide)]
  | _ => cases hx

theorem Has.fieldAt {f : FileP} {path : Path} {s : Name} {x : FieldP} (h : Has f path s (.field x)) :
    fieldAt f path = some x := by
  cases h with
  | field path s m i x hp hi => rw [hp.fieldAt_in]; simp [fieldAtMsg, hi]

theorem Has.extensionAt {f : FileP} {path : Path} {s : Name} {x : FieldP} (h : Has f path s (.extension x)) :
    Pool.fieldAt f path = some x := by
  cases h with
  | extension i x hi => simp [Pool.fieldAt, hi]
  | extensionIn path s m i x hp hi => rw [hp.fieldAt_in]; simp [fieldAtMsg, hi]

theorem Has.methodAt {f : FileP} {path : Path} {s : Name} {x : MethodP} (h : Has f path s (.method x)) :
    methodAt f path = some x := by
  cases h with
  | method path s m i x hp hi => cases hp with
    | service j y hj => simp [Pool.methodAt, hj, hi]

/-- Writing a field changes no other field. -/
theorem fieldAtMsg_mod (g : FieldP → FieldP) :
    ∀ (p : Path) (m m' : MsgP) (x : FieldP), modFieldMsg g p m = some m' → fieldAtMsg p m = some x →
      ∀ q, fieldAtMsg q m' = if q = p then some (g x) else fieldAtMsg q m
  | [], _, _, _, h, _ => by simp [modFieldMsg] at h
  | [_], _, _, _, h, _ => by simp [modFieldMsg] at h
  | t :: i :: rest, m, m', x, h, hx => by
    have ih := fieldAtMsg_mod g rest
    simp only [modFieldMsg] at h
    simp only [fieldAtMsg] at hx
    intro q
    by_cases h2 : t = 2
    · rw [if_pos (show t = Tag.msgField from h2)] at h; rw [if_pos h2] at hx
      subst h2
      split at hx
      · next hr =>
        subst hr
        split at h
        · cases h
          match q with
          | [] => simp [fieldAtMsg]
          | [_] => simp [fieldAtMsg]
          | t' :: i' :: rest' =>
            simp only [fieldAtMsg, List.cons.injEq]
            by_cases ht : t' = 2
            · subst ht
              by_cases hr : rest' = []
              · subst hr
                by_cases hi : i = i'
                · subst hi; simp [hx]
                · simp [getElem?_modify_ne _ _ hi, Ne.symm hi]
              · simp [hr]
            · simp [ht]
        · cases h
      · cases hx
    · rw [if_neg (show ¬ t = Tag.msgField from h2)] at h; rw [if_neg h2] at hx
      by_cases h6 : t = 6
      · rw [if_pos (show t = Tag.msgExtension from h6)] at h; rw [if_pos h6] at hx
        subst h6
        split at hx
        · next hr =>
          subst hr
          split at h
          · cases h
            match q with
            | [] => simp [fieldAtMsg]
            | [_] => simp [fieldAtMsg]
            | t' :: i' :: rest' =>
              simp only [fieldAtMsg, List.cons.injEq]
              by_cases ht : t' = 6
              · subst ht
                by_cases hr : rest' = []
                · subst hr
                  by_cases hi : i = i'
                  · subst hi; simp [hx]
                  · simp [getElem?_modify_ne _ _ hi, Ne.symm hi]
                · simp [hr]
              · simp [ht]
          · cases h
        · cases hx
      · rw [if_neg (show ¬ t = Tag.msgExtension from h6)] at h; rw [if_neg h6] at hx
        by_cases h3 : t = 3
        · rw [if_pos (show t = Tag.msgNested from h3)] at h; rw [if_pos h3] at hx
          subst h3
          split at h
          · next n hn =>
            rw [hn] at hx
            simp only at hx
            split at h
            · next n' hn' =>
              cases h
              have := ih n n' x hn' hx
              match q with
              | [] => simp [fieldAtMsg]
              | [_] => simp [fieldAtMsg]
              | t' :: i' :: rest' =>
                simp only [fieldAtMsg, List.cons.injEq]
                by_cases ht : t' = 3
                · subst ht
                  by_cases hi : i = i'
                  · subst hi
                    have hl := getElem?_lt hn
                    simp [List.getElem?_set_self hl, this, hn]
                  · simp [List.getElem?_set_ne hi, Ne.symm hi]
                · simp [ht]
            · cases h
          · cases h
        · rw [if_neg (show ¬ t = Tag.msgNested from h3)] at h; cases h

theorem fieldAt_mod (g : FieldP → FieldP) {p : Path} {f f' : FileP} {x : FieldP}
    (h : modField g f p = some f') (hx : fieldAt f p = some x) (q : Path) :
    fieldAt f' q = if q = p then some (g x) else fieldAt f q := by
  match p, h, hx with
  | [], h, _ => simp [modField] at h
  | [_], h, _ => simp [modField] at h
  | t :: i :: rest, h, hx =>
    simp only [modField] at h
    simp only [fieldAt] at hx
    by_cases h4 : t = 4
    · rw [if_pos (show t = Tag.fileMessage from h4)] at h; rw [if_pos h4] at hx
      subst h4
      split at h
      · next m hm =>
        rw [hm] at hx
        simp only at hx
        split at h
        · next m' hm' =>
          cases h
          have := fieldAtMsg_mod g _ _ _ _ hm' hx
          match q with
          | [] => simp [fieldAt]
          | [_] => simp [fieldAt]
          | t' :: i' :: rest' =>
            simp only [fieldAt, List.cons.injEq]
            by_cases ht : t' = 4
            · subst ht
              by_cases hi : i = i'
              · subst hi
                have hl := getElem?_lt hm
                simp [List.getElem?_set_self hl, this, hm]
              · simp [List.getElem?_set_ne hi, Ne.symm hi]
            · simp [ht]
        · cases h
      · cases h
    · rw [if_neg (show ¬ t = Tag.fileMessage from h4)] at h; rw [if_neg h4] at hx
      by_cases h7 : t = 7
      · rw [if_pos (show t = Tag.fileExtension from h7)] at h; rw [if_pos h7] at hx
        subst h7
        split at hx
        · next hr =>
          subst hr
          split at h
          · cases h
            match q with
            | [] => simp [fieldAt]
            | [_] => simp [fieldAt]
            | t' :: i' :: rest' =>
              simp only [fieldAt, List.cons.injEq]
              by_cases ht : t' = 7
              · subst ht
                by_cases hr : rest' = []
                · subst hr
                  by_cases hi : i = i'
                  · subst hi; simp [hx]
                  · simp [getElem?_modify_ne _ _ hi, Ne.symm hi]
                · simp [hr]
              · simp [ht]
          · cases h
        · cases hx
      · rw [if_neg (show ¬ t = Tag.fileExtension from h7)] at h; cases h

theorem methodAt_modField (g : FieldP → FieldP) {p : Path} {f f' : FileP}
    (h : modField g f p = some f') (q : Path) : methodAt f' q = methodAt f q := by
  have : f'.services = f.services := by
    match p, h with
    | [], h => simp [modField] at h
    | [_], h => simp [modField] at h
    | t :: i :: rest, h =>
      simp only [modField] at h
      split at h
      · split at h
        · split at h
          · cases h; rfl
          · cases h
        · cases h
      · split at h
        · split at h
          · cases h; rfl
          · cases h
        · cases h
  unfold methodAt
  simp only [this]

theorem fieldAt_modMethod (g : MethodP → MethodP) {p : Path} {f f' : FileP}
    (h : modMethod g f p = some f') (q : Path) : fieldAt f' q = fieldAt f q := by
  have : f'.messages = f.messages ∧ f'.exts = f.exts := by
    unfold modMethod at h
    split at h
    · split at h
      · split at h
        · cases h; exact ⟨rfl, rfl⟩
        · cases h
      · cases h
    · cases h
  unfold fieldAt
  simp only [this.1, this.2]

theorem methodAt_mod (g : MethodP → MethodP) {p : Path} {f f' : FileP} {x : MethodP}
    (h : modMethod g f p = some f') (hx : methodAt f p = some x) (q : Path) :
    methodAt f' q = if q = p then some (g x) else methodAt f q := by
  unfold methodAt at hx
  split at hx
  · next t i u j =>
    split at hx
    · next htu =>
      obtain ⟨rfl, rfl⟩ := htu
      simp only [modMethod] at h
      split at h
      · next s hs =>
        rw [hs] at hx
        simp only at hx
        split at h
        · cases h
          have hl := getElem?_lt hs
          unfold methodAt
          split
          · next t' i' u' j' =>
            by_cases htu : t' = 6 ∧ u' = 2
            · obtain ⟨rfl, rfl⟩ := htu
              by_cases hi : i = i'
              · subst hi
                by_cases hj : j = j'
                · subst hj; simp [List.getElem?_set_self hl, hx]
                · simp [List.getElem?_set_self hl, hs, getElem?_modify_ne _ _ hj, Ne.symm hj]
              · simp [List.getElem?_set_ne hi, Ne.symm hi]
            · rw [if_neg htu, if_neg htu, if_neg]
              intro he
              simp only [List.cons.injEq, and_true] at he
              exact htu ⟨he.1, he.2.2.1⟩
          · next hne =>
            rw [if_neg (fun he => hne _ _ _ _ he)]
        · cases h
      · cases h
    · cases hx
  · cases hx

/-- Writing the options of a message changes no field. -/
theorem fieldAtMsg_opt (o : Option (Option Bool)) :
    ∀ (p : Path) (m m' : MsgP), modMsgIn (fun mp => { mp with options := o }) p m = some m' →
      ∀ q, fieldAtMsg q m' = fieldAtMsg q m
  | [], m, m', h, q => by
    simp only [modMsgIn, Option.some.injEq] at h
    subst h
    match q with
    | [] => simp [fieldAtMsg]
    | [_] => simp [fieldAtMsg]
    | _ :: _ :: _ => simp only [fieldAtMsg]
  | [_], _, _, h, _ => by simp [modMsgIn] at h
  | t :: i :: rest, m, m', h, q => by
    have ih := fieldAtMsg_opt o rest
    simp only [modMsgIn] at h
    split at h
    · split at h
      · next n hn =>
        split at h
        · next n' hn' =>
          cases h
          match q with
          | [] => simp [fieldAtMsg]
          | [_] => simp [fieldAtMsg]
          | t' :: i' :: rest' =>
            simp only [fieldAtMsg]
            by_cases hi : i = i'
            · subst hi
              have hl := getElem?_lt hn
              simp [List.getElem?_set_self hl, ih n n' hn', hn]
            · simp [List.getElem?_set_ne hi]
        · cases h
      · cases h
    · cases h

theorem at_modMsg (o : Option (Option Bool)) {p : Path} {f f' : FileP}
    (h : modMsg (fun mp => { mp with options := o }) f p = some f') (q : Path) :
    fieldAt f' q = fieldAt f q ∧ methodAt f' q = methodAt f q := by
  match p, h with
  | [], h => simp [modMsg] at h
  | [_], h => simp [modMsg] at h
  | t :: i :: rest, h =>
    simp only [modMsg] at h
    split at h
    · split at h
      · next m hm =>
        split at h
        · next m' hm' =>
          cases h
          refine ⟨?_, by unfold methodAt; rfl⟩
          match q with
          | [] => simp [fieldAt]
          | [_] => simp [fieldAt]
          | t' :: i' :: rest' =>
            simp only [fieldAt]
            by_cases hi : i = i'
            · subst hi
              have hl := getElem?_lt hm
              simp [List.getElem?_set_self hl, fieldAtMsg_opt o _ _ _ hm', hm]
            · simp [List.getElem?_set_ne hi]
        · cases h
      · cases h
    · cases h

/-- A path of a file belongs to one declaration. -/
theorem Has.unique {f : FileP} {path : Path} {s : Name} {x : Item} (h : Has f path s x) :
    ∀ {s' : Name} {x' : Item}, Has f path s' x' → s = s' ∧ x = x' := by
  have ne : ∀ {q : Path} {s : Name} {x : Item}, Has f q s x → q ≠ [] := by
    intro q s x h; cases h <;> simp
  induction h with
  | message i m hi =>
    intro s' x' h'
    generalize hp : [4, i] = q at h'
    have hp : [] ++ [4, i] = q := hp
    cases h' with
    | message j n hj => cases hp; cases hi.symm.trans hj; exact ⟨rfl, rfl⟩
    | enumIn q s m j n hq hj => exact absurd (append2_inj hp).1.symm (ne hq)
    | enum j n hj => cases hp
    | service j n hj => cases hp
    | extension j n hj => cases hp
    | _ => exact absurd (append2_inj hp).2.1 (by decide)
  | enum i m hi =>
    intro s' x' h'
    generalize hp : [5, i] = q at h'
    have hp : [] ++ [5, i] = q := hp
    cases h' with
    | enum j n hj => cases hp; cases hi.symm.trans hj; exact ⟨rfl, rfl⟩
    | message j n hj => cases hp
    | service j n hj => cases hp
    | extension j n hj => cases hp
    | _ => exact absurd (append2_inj hp).2.1 (by decide)
  | service i m hi =>
    intro s' x' h'
    generalize hp : [6, i] = q at h'
    have hp : [] ++ [6, i] = q := hp
    cases h' with
    | service j n hj => cases hp; cases hi.symm.trans hj; exact ⟨rfl, rfl⟩
    | extensionIn q s m j n hq hj => exact absurd (append2_inj hp).1.symm (ne hq)
    | message j n hj => cases hp
    | enum j n hj => cases hp
    | extension j n hj => cases hp
    | _ => exact absurd (append2_inj hp).2.1 (by decide)
  | extension i m hi =>
    intro s' x' h'
    generalize hp : [7, i] = q at h'
    have hp : [] ++ [7, i] = q := hp
    cases h' with
    | extension j n hj => cases hp; cases hi.symm.trans hj; exact ⟨rfl, rfl⟩
    | message j n hj => cases hp
    | enum j n hj => cases hp
    | service j n hj => cases hp
    | _ => exact absurd (append2_inj hp).2.1 (by decide)
  | nested path s m i n h hi ih =>
    intro s' x' h'
    generalize hp : path ++ [3, i] = q at h'
    cases h' with
    | nested path' s' m' j n' h' hj =>
      obtain ⟨rfl, _, rfl⟩ := append2_inj hp
      obtain ⟨rfl, e⟩ := ih h'
      cases e; cases hi.symm.trans hj; exact ⟨rfl, rfl⟩
    | message j n hj => exact absurd (append2_inj (q' := []) hp).2.1 (by decide)
    | enum j n hj => exact absurd (append2_inj (q' := []) hp).2.1 (by decide)
    | service j n hj => exact absurd (append2_inj (q' := []) hp).2.1 (by decide)
    | extension j n hj => exact absurd (append2_inj (q' := []) hp).2.1 (by decide)
    | _ => exact absurd (append2_inj hp).2.1 (by decide)
  | oneof path s m i n h hi ih =>
    intro s' x' h'
    generalize hp : path ++ [8, i] = q at h'
    cases h' with
    | oneof path' s' m' j n' h' hj =>
      obtain ⟨rfl, _, rfl⟩ := append2_inj hp
      obtain ⟨rfl, e⟩ := ih h'
      cases e; cases hi.symm.trans hj; exact ⟨rfl, rfl⟩
    | message j n hj => exact absurd (append2_inj (q' := []) hp).2.1 (by decide)
    | enum j n hj => exact absurd (append2_inj (q' := []) hp).2.1 (by decide)
    | service j n hj => exact absurd (append2_inj (q' := []) hp).2.1 (by decide)
    | extension j n hj => exact absurd (append2_inj (q' := []) hp).2.1 (by decide)
    | _ => exact absurd (append2_inj hp).2.1 (by decide)
  | enumIn path s m i n h hi ih =>
    intro s' x' h'
    generalize hp : path ++ [4, i] = q at h'
    cases h' with
    | enumIn path' s' m' j n' h' hj =>
      obtain ⟨rfl, _, rfl⟩ := append2_inj hp
      obtain ⟨rfl, e⟩ := ih h'
      cases e; cases hi.symm.trans hj; exact ⟨rfl, rfl⟩
    | message j n hj => exact absurd (append2_inj (q' := []) hp).1 (ne h)
    | enum j n hj => exact absurd (append2_inj (q' := []) hp).2.1 (by decide)
    | service j n hj => exact absurd (append2_inj (q' := []) hp).2.1 (by decide)
    | extension j n hj => exact absurd (append2_inj (q' := []) hp).2.1 (by decide)
    | _ => exact absurd (append2_inj hp).2.1 (by decide)
  | extensionIn path s m i n h hi ih =>
    intro s' x' h'
    generalize hp : path ++ [6, i] = q at h'
    cases h' with
    | extensionIn path' s' m' j n' h' hj =>
      obtain ⟨rfl, _, rfl⟩ := append2_inj hp
      obtain ⟨rfl, e⟩ := ih h'
      cases e; cases hi.symm.trans hj; exact ⟨rfl, rfl⟩
    | message j n hj => exact absurd (append2_inj (q' := []) hp).2.1 (by decide)
    | enum j n hj => exact absurd (append2_inj (q' := []) hp).2.1 (by decide)
    | service j n hj => exact absurd (append2_inj (q' := []) hp).1 (ne h)
    | extension j n hj => exact absurd (append2_inj (q' := []) hp).2.1 (by decide)
    | _ => exact absurd (append2_inj hp).2.1 (by decide)
  | field path s m i n h hi ih =>
    intro s' x' h'
    generalize hp : path ++ [2, i] = q at h'
    cases h' with
    | field path' s' m' j n' h' hj =>
      obtain ⟨rfl, _, rfl⟩ := append2_inj hp
      obtain ⟨rfl, e⟩ := ih h'
      cases e; cases hi.symm.trans hj; exact ⟨rfl, rfl⟩
    | value path' s' m' j n' h' hj =>
      obtain ⟨rfl, _, rfl⟩ := append2_inj hp
      cases (ih h').2
    | method path' s' m' j n' h' hj =>
      obtain ⟨rfl, _, rfl⟩ := append2_inj hp
      cases (ih h').2
    | message j n hj => exact absurd (append2_inj (q' := []) hp).2.1 (by decide)
    | enum j n hj => exact absurd (append2_inj (q' := []) hp).2.1 (by decide)
    | service j n hj => exact absurd (append2_inj (q' := []) hp).2.1 (by decide)
    | extension j n hj => exact absurd (append2_inj (q' := []) hp).2.1 (by decide)
    | _ => exact absurd (append2_inj hp).2.1 (by decide)
  | value path s m i n h hi ih =>
    intro s' x' h'
    generalize hp : path ++ [2, i] = q at h'
    cases h' with
    | value path' s' m' j n' h' hj =>
      obtain ⟨rfl, _, rfl⟩ := append2_inj hp
      obtain ⟨rfl, e⟩ := ih h'
      cases e; cases hi.symm.trans hj; exact ⟨rfl, rfl⟩
    | field path' s' m' j n' h' hj =>
      obtain ⟨rfl, _, rfl⟩ := append2_inj hp
      cases (ih h').2
    | method path' s' m' j n' h' hj =>
      obtain ⟨rfl, _, rfl⟩ := append2_inj hp
      cases (ih h').2
    | message j n hj => exact absurd (append2_inj (q' := []) hp).2.1 (by decide)
    | enum j n hj => exact absurd (append2_inj (q' := []) hp).2.1 (by decide)
    | service j n hj => exact absurd (append2_inj (q' := []) hp).2.1 (by decide)
    | extension j n hj => exact absurd (append2_inj (q' := []) hp).2.1 (by decide)
    | _ => exact absurd (append2_inj hp).2.1 (by decide)
  | method path s m i n h hi ih =>
    intro s' x' h'
    generalize hp : path ++ [2, i] = q at h'
    cases h' with
    | method path' s' m' j n' h' hj =>
      obtain ⟨rfl, _, rfl⟩ := append2_inj hp
      obtain ⟨rfl, e⟩ := ih h'
      cases e; cases hi.symm.trans hj; exact ⟨rfl, rfl⟩
    | field path' s' m' j n' h' hj =>
      obtain ⟨rfl, _, rfl⟩ := append2_inj hp
      cases (ih h').2
    | value path' s' m' j n' h' hj =>
      obtain ⟨rfl, _, rfl⟩ := append2_inj hp
      cases (ih h').2
    | message j n hj => exact absurd (append2_inj (q' := []) hp).2.1 (by decide)
    | enum j n hj => exact absurd (append2_inj (q' := []) hp).2.1 (by decide)
    | service j n hj => exact absurd (append2_inj (q' := []) hp).2.1 (by decide)
    | extension j n hj => exact absurd (append2_inj (q' := []) hp).2.1 (by decide)
    | _ => exact absurd (append2_inj hp).2.1 (by decide)

end Verif.Pool
