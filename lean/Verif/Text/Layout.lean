import Verif.Text.Format
import Verif.Dyn.Across3
/-!
The two layouts of the text format: what `pretty` changes in the text and what it leaves.
-/
set_option autoImplicit false
namespace Verif.Text
open Verif.Wire Verif.Dyn Verif.Pool

/-- The words the text of a message is made of. A quoted string is one word, and so are a
bracketed extension name and a bracketed type URL (`any` says whether there may be any). -/
inductive Word (env : TEnv) (S : Schema) (any : Bool) : List Char → Prop
  | field {md : MsgDesc} {f : FieldDesc} : md ∈ S.msgs → f ∈ md.fields → Word env S any f.name
  | ext {md : MsgDesc} {f : FieldDesc} : md ∈ S.msgs → f ∈ md.extensions → Word env S any ('[' :: (f.name ++ [']']))
  | group {md : MsgDesc} : md ∈ S.msgs → Word env S any (shortName md.name)
  | url {md : MsgDesc} {m b : DynMsg} {u : List Char} : any = true → md ∈ S.msgs → asAny S md m = some (some (u, b)) →
      Word env S any ('[' :: (u ++ [']']))
  | enum {ed : EnumDesc} {v : BitVec 32} {n : Name} : ed ∈ S.enums → env.enumName ed v = some n → Word env S any n
  | int (i : Int) : Word env S any (decInt i)
  | nat (n : Nat) : Word env S any (decDigits n)
  | hex (w n : Nat) : Word env S any ('0' :: 'x' :: hexPad w n)
  | f32 (v : BitVec 32) : Word env S any (env.show32 v)
  | f64 (v : BitVec 64) : Word env S any (env.show64 v)
  | bool (b : Bool) : Word env S any (showBool b)
  | str (b : Bytes) : Word env S any (fmtString b)
  | key : Word env S any ['k', 'e', 'y']
  | value : Word env S any ['v', 'a', 'l', 'u', 'e']

/-- The start of a line at depth `d`. -/
def lineStart (d : Nat) : List Char := '\n' :: List.replicate (2 * d) ' '

/-- A pretty text and a compact one with the same words in the same order, within `d`
pairs of braces. Between words the pretty text has a space after `:`, after the `,` of a
list and before `{`, the contents of non-empty braces on lines of their own with two
spaces for each pair of braces around them, and a new line where the compact text
separates fields by `,`. -/
inductive Layout (W : List Char → Prop) : Nat → List Char → List Char → Prop
  | nil {d : Nat} : Layout W d [] []
  | word {d : Nat} {w p c : List Char} : W w → Layout W d p c → Layout W d (w ++ p) (w ++ c)
  | colon {d : Nat} {p c : List Char} : Layout W d p c → Layout W d (':' :: ' ' :: p) (':' :: c)
  | comma {d : Nat} {p c : List Char} : Layout W d p c → Layout W d (',' :: ' ' :: p) (',' :: c)
  | gap {d : Nat} {p c : List Char} : Layout W d ('{' :: p) ('{' :: c) → Layout W d (' ' :: '{' :: p) ('{' :: c)
  | left {d : Nat} {p c : List Char} : Layout W d p c → Layout W d ('[' :: p) ('[' :: c)
  | right {d : Nat} {p c : List Char} : Layout W d p c → Layout W d (']' :: p) (']' :: c)
  | sep {d : Nat} {p c : List Char} : Layout W d p c → Layout W d (lineStart d ++ p) (',' :: c)
  | empty {d : Nat} {p c : List Char} : Layout W d p c → Layout W d ('{' :: '}' :: p) ('{' :: '}' :: c)
  | block {d : Nat} {a b p c : List Char} : Layout W (d + 1) a b → Layout W d p c →
      Layout W d ('{' :: (lineStart (d + 1) ++ (a ++ (lineStart d ++ '}' :: p)))) ('{' :: (b ++ '}' :: c))

variable {W : List Char → Prop}

theorem Layout.append {d : Nat} {p c p' c' : List Char} (h : Layout W d p c) (h' : Layout W d p' c') :
    Layout W d (p ++ p') (c ++ c') := by
  induction h with
  | nil => exact h'
  | word hw _ ih => rw [List.append_assoc, List.append_assoc]; exact .word hw (ih h')
  | colon _ ih => exact .colon (ih h')
  | comma _ ih => exact .comma (ih h')
  | gap _ ih => exact .gap (ih h')
  | left _ ih => exact .left (ih h')
  | right _ ih => exact .right (ih h')
  | sep _ ih => rw [List.append_assoc]; exact .sep (ih h')
  | empty _ ih => exact .empty (ih h')
  | block ha _ _ ih =>
    have := Layout.block ha (ih h')
    simpa [List.append_assoc] using this

theorem Layout.one {d : Nat} {w : List Char} (h : W w) : Layout W d w w := by
  have := Layout.word h (Layout.nil (W := W) (d := d))
  simpa using this

/-- The same for results that may be missing. -/
def LRel (W : List Char → Prop) (d : Nat) : Option (List Char) → Option (List Char) → Prop
  | none, none => True
  | some p, some c => Layout W d p c
  | _, _ => False

/-- The same for lists of results. -/
inductive LAll (W : List Char → Prop) (d : Nat) : List (List Char) → List (List Char) → Prop
  | nil : LAll W d [] []
  | cons {p c : List Char} {ps cs : List (List Char)} : Layout W d p c → LAll W d ps cs → LAll W d (p :: ps) (c :: cs)

theorem fmtAll_rel {α : Type} {d : Nat} {f g : α → Option (List Char)} : ∀ {xs : List α},
    (∀ a ∈ xs, LRel W d (f a) (g a)) →
    (fmtAll f xs = none ∧ fmtAll g xs = none) ∨ ∃ ps cs, fmtAll f xs = some ps ∧ fmtAll g xs = some cs ∧ LAll W d ps cs
  | [], _ => .inr ⟨[], [], rfl, rfl, .nil⟩
  | a :: r, h => by
    have ha := h a (by simp)
    have hr := fmtAll_rel (xs := r) (fun x hx => h x (by simp [hx]))
    simp only [fmtAll]
    cases hf : f a with
    | none =>
      cases hg : g a with
      | none => exact .inl ⟨rfl, rfl⟩
      | some c => rw [hf, hg] at ha; exact ha.elim
    | some p =>
      cases hg : g a with
      | none => rw [hf, hg] at ha; exact ha.elim
      | some c =>
        rw [hf, hg] at ha
        rcases hr with ⟨e1, e2⟩ | ⟨ps, cs, e1, e2, hl⟩
        · rw [e1, e2]; exact .inl ⟨rfl, rfl⟩
        · rw [e1, e2]; exact .inr ⟨p :: ps, c :: cs, rfl, rfl, .cons ha hl⟩

theorem join_sep {d : Nat} {ps cs : List (List Char)} (h : LAll W d ps cs) :
    Layout W d (joinWith (newline (2 * d)) ps) (joinWith [','] cs) := by
  induction h with
  | nil => exact .nil
  | cons hp ht ih =>
    cases ht with
    | nil => exact hp
    | cons h2 ht2 => exact hp.append (.sep ih)

theorem join_comma {d : Nat} {ps cs : List (List Char)} (h : LAll W d ps cs) :
    Layout W d (joinWith [',', ' '] ps) (joinWith [','] cs) := by
  induction h with
  | nil => exact .nil
  | cons hp ht ih =>
    cases ht with
    | nil => exact hp
    | cons h2 ht2 => exact hp.append (.comma ih)

/-- The options with `pretty` set. -/
def FOpts.prettyOn (o : FOpts) : FOpts := { o with pretty := true }
/-- The options with `pretty` unset. -/
def FOpts.prettyOff (o : FOpts) : FOpts := { o with pretty := false }

variable {o : FOpts} {d i : Nat}

theorem fmtDelimited_rel {α : Type} {f g : α → Option (List Char)} {xs : List α}
    (h : ∀ a ∈ xs, LRel W d (f a) (g a)) :
    LRel W d (fmtDelimited o.prettyOn (2 * d) f xs) (fmtDelimited o.prettyOff i g xs) := by
  unfold fmtDelimited
  rcases fmtAll_rel h with ⟨e1, e2⟩ | ⟨ps, cs, e1, e2, hl⟩
  · rw [e1, e2]; trivial
  · rw [e1, e2]; exact join_sep hl

theorem fmtList_rel {α : Type} {f g : α → Option (List Char)} {xs : List α}
    (h : ∀ a ∈ xs, LRel W d (f a) (g a)) :
    LRel W d (fmtList o.prettyOn f xs) (fmtList o.prettyOff g xs) := by
  unfold fmtList
  rcases fmtAll_rel h with ⟨e1, e2⟩ | ⟨ps, cs, e1, e2, hl⟩
  · rw [e1, e2]; trivial
  · rw [e1, e2]
    exact .left ((join_comma hl).append (.right .nil))

/-- Printed text in braces. -/
def LBrace (W : List Char → Prop) (d : Nat) : Option (List Char) → Option (List Char) → Prop
  | none, none => True
  | some p, some c => ∃ p' c', p = '{' :: p' ∧ c = '{' :: c' ∧ Layout W d p c
  | _, _ => False

theorem LBrace.rel : ∀ {x y : Option (List Char)}, LBrace W d x y → LRel W d x y
  | none, none, _ => trivial
  | some _, some _, ⟨_, _, _, _, h⟩ => h
  | none, some _, h => h.elim
  | some _, none, h => h.elim

theorem braced_rel {f g : Nat → Option (List Char)} (h : LRel W (d + 1) (f (2 * d + 2)) (g i)) :
    LBrace W d (braced o.prettyOn (2 * d) f) (braced o.prettyOff i g) := by
  have e1 : braced o.prettyOn (2 * d) f = (f (2 * d + 2)).map (fun s => '{' :: (newline (2 * d + 2) ++ (s ++ (newline (2 * d) ++ ['}'])))) := rfl
  have e2 : braced o.prettyOff i g = (g i).map (fun s => '{' :: (s ++ ['}'])) := rfl
  rw [e1, e2]
  revert h
  cases f (2 * d + 2) with
  | none =>
    cases g i with
    | none => intro _; trivial
    | some _ => exact False.elim
  | some p =>
    cases g i with
    | none => exact False.elim
    | some c => intro h; exact ⟨_, _, rfl, rfl, .block h .nil⟩

theorem emptyBraces : LBrace W d (some ['{', '}']) (some ['{', '}']) := ⟨_, _, rfl, rfl, .empty .nil⟩

theorem Layout.padded {w p c : List Char} (hw : W w) (h : ∃ p' c', p = '{' :: p' ∧ c = '{' :: c' ∧ Layout W d p c) :
    Layout W d (w ++ (pad o.prettyOn ++ p)) (w ++ (pad o.prettyOff ++ c)) := by
  obtain ⟨p', c', rfl, rfl, h⟩ := h
  exact .word hw (.gap h)

variable {env : TEnv} {S : Schema} {any : Bool}

theorem fmtUnknown_rel : ∀ (k d i : Nat) (u : UField),
    LRel (Word env S o.expandAny) d (fmtUnknown o.prettyOn k (2 * d) u) (fmtUnknown o.prettyOff k i u)
  | 0, _, _, _ => trivial
  | k + 1, d, i, (n, u) => by
    have scalar : ∀ {w : List Char}, Word env S o.expandAny w → LRel (Word env S o.expandAny) d
        (some (decDigits n ++ ':' :: (pad o.prettyOn ++ w))) (some (decDigits n ++ ':' :: (pad o.prettyOff ++ w))) :=
      fun h => .word (.nat n) (.colon (.one h))
    have set : ∀ (us : USet), LRel (Word env S o.expandAny) d
        ((if us.isEmpty then some ['{', '}']
          else braced o.prettyOn (2 * d) (fun ind => fmtDelimited o.prettyOn ind (fmtUnknown o.prettyOn k ind) us)).map
            (fun s => decDigits n ++ (pad o.prettyOn ++ s)))
        ((if us.isEmpty then some ['{', '}']
          else braced o.prettyOff i (fun ind => fmtDelimited o.prettyOff ind (fmtUnknown o.prettyOff k ind) us)).map
            (fun s => decDigits n ++ (pad o.prettyOff ++ s))) := by
      intro us
      have hb : LBrace (Word env S o.expandAny) d
          (if us.isEmpty then some ['{', '}']
            else braced o.prettyOn (2 * d) (fun ind => fmtDelimited o.prettyOn ind (fmtUnknown o.prettyOn k ind) us))
          (if us.isEmpty then some ['{', '}']
            else braced o.prettyOff i (fun ind => fmtDelimited o.prettyOff ind (fmtUnknown o.prettyOff k ind) us)) := by
        by_cases he : us.isEmpty
        · rw [if_pos he, if_pos he]; exact emptyBraces
        · rw [if_neg he, if_neg he]
          refine braced_rel (fmtDelimited_rel (d := d + 1) fun a _ => ?_)
          exact fmtUnknown_rel k (d + 1) i a
      revert hb
      generalize (if us.isEmpty then some ['{', '}'] else braced o.prettyOn _ _) = x
      generalize (if us.isEmpty then some ['{', '}'] else braced o.prettyOff _ _) = y
      intro hb
      cases x with
      | none => cases y with
        | none => trivial
        | some _ => exact hb.elim
      | some p => cases y with
        | none => exact hb.elim
        | some c => exact Layout.padded (.nat n) hb
    cases u with
    | varint v => exact scalar (.nat _)
    | thirtyTwo v => exact scalar (.hex _ _)
    | sixtyFour v => exact scalar (.hex _ _)
    | len b =>
      simp only [fmtUnknown]
      cases (if b.isEmpty then none else decodeUSet b) with
      | none => exact scalar (.str b)
      | some us => exact set us
    | group us => exact set us

theorem msg?_mem {d : Nat} {md : MsgDesc} (h : S.msg? d = some md) : md ∈ S.msgs := List.mem_of_getElem? h

/-- The fields of an item are fields of the message. -/
def ItemOf (md : MsgDesc) : Item → Prop
  | .field f _ => f ∈ md.fields
  | .ext f _ => f ∈ md.extensions
  | .unknown _ => True

theorem iterFieldPart_of {md : MsgDesc} {incl : Bool} {fs : FieldSet} : ∀ {l : List (Nat × FieldDesc)} {its : List Item},
    (∀ p ∈ l, p.2 ∈ md.fields) → iterFieldPart S incl fs l = some its → ∀ x ∈ its, ItemOf md x
  | [], its, _, h, x, hx => by cases h; cases hx
  | (n, f) :: r, its, hl, h, x, hx => by
    simp only [iterFieldPart] at h
    have hf : f ∈ md.fields := hl (n, f) (by simp)
    cases hh : FieldSet.has S fs f with
    | none => rw [hh] at h; cases h
    | some b =>
      cases hr : iterFieldPart S incl fs r with
      | none => rw [hh, hr] at h; cases h
      | some t =>
        rw [hh, hr] at h
        have ih := iterFieldPart_of (fun p hp => hl p (by simp [hp])) hr
        dsimp only at h
        by_cases hc : (if incl then !f.presence || b else b) = true
        · rw [if_pos hc] at h
          cases hg : FieldSet.get S fs f with
          | none => rw [hg] at h; cases h
          | some v =>
            rw [hg] at h; cases h
            rcases List.mem_cons.1 hx with rfl | hx
            · exact hf
            · exact ih x hx
        · rw [if_neg hc] at h
          cases h; exact ih x hx

theorem iterExtPart_of {md : MsgDesc} : ∀ {fs : FieldSet} {its : List Item},
    iterExtPart S md fs = some its → ∀ x ∈ its, ItemOf md x
  | [], its, h, x, hx => by cases h; cases hx
  | (n, .val v) :: r, its, h, x, hx => by
    simp only [iterExtPart] at h
    cases he : md.getExtension n with
    | none => rw [he] at h; exact iterExtPart_of h x hx
    | some f =>
      rw [he] at h
      dsimp only at h
      have hf : f ∈ md.extensions := List.mem_of_find?_eq_some he
      cases hr : iterExtPart S md r with
      | none => rw [hr] at h; cases hv : hasVal S f v with
        | none => rw [hv] at h; cases h
        | some b => rw [hv] at h; cases b <;> cases h
      | some t =>
        rw [hr] at h
        cases hv : hasVal S f v with
        | none => rw [hv] at h; cases h
        | some b =>
          rw [hv] at h
          cases b with
          | false => cases h; exact iterExtPart_of hr x hx
          | true =>
            cases h
            rcases List.mem_cons.1 hx with rfl | hx
            · exact hf
            · exact iterExtPart_of hr x hx
  | (_, .unknown u) :: r, its, h, x, hx => by
    simp only [iterExtPart] at h
    cases hr : iterExtPart S md r with
    | none => rw [hr] at h; cases h
    | some t =>
      rw [hr] at h; cases h
      rcases List.mem_cons.1 hx with rfl | hx
      · trivial
      · exact iterExtPart_of hr x hx
  | (_, .taken) :: r, its, h, x, hx => by
    simp only [iterExtPart] at h
    exact iterExtPart_of h x hx

theorem items_of {md : MsgDesc} {fs : FieldSet} {its : List Item} (h : items o S md fs = some its) :
    ∀ x ∈ its, ItemOf md x := by
  unfold items at h
  have hin : ∀ p ∈ (if o.indexOrder then md.fields.map (fun f => (f.number, f)) else md.fieldsByNumber),
      p.2 ∈ md.fields := by
    intro p hp
    cases ho : o.indexOrder with
    | true =>
      rw [ho, if_pos rfl] at hp
      obtain ⟨f, hf, rfl⟩ := List.mem_map.1 hp
      exact hf
    | false =>
      rw [ho] at hp
      exact fieldsByNumber_mem hp
  revert h
  generalize hA : iterFieldPart _ _ _ _ = A
  generalize hB : iterExtPart _ _ _ = B
  intro h
  cases A with
  | none => cases h
  | some a =>
    cases B with
    | none => cases h
    | some b =>
      cases h
      intro x hx
      rcases List.mem_append.1 hx with hx | hx
      · exact iterFieldPart_of hin hA x hx
      · exact iterExtPart_of hB x hx

/-- How two printers of values agree at depth `d`. -/
def VRel (W : List Char → Prop) (d : Nat) (v : Value) (x y : Option (List Char)) : Prop :=
  (match v with
  | .msg _ _ => LBrace W d x y
  | _ => LRel W d x y)

theorem VRel.rel {v : Value} {x y : Option (List Char)} (h : VRel W d v x y) : LRel W d x y := by
  cases v <;> first | exact h | exact LBrace.rel h

theorem fieldValue_rel {v : Value} {p c : List Char} (h : VRel W d v (some p) (some c)) {w : List Char} (hw : W w) :
    Layout W d (w ++ fieldValue o.prettyOn v p) (w ++ fieldValue o.prettyOff v c) := by
  cases v with
  | msg e fs => exact Layout.padded hw h
  | _ => exact .word hw (.colon h)

theorem fieldLabel_word {md : MsgDesc} (hm : md ∈ S.msgs) {f : FieldDesc} (hf : f ∈ md.fields) {n : Name}
    (h : fieldLabel S f = some n) : Word env S any n := by
  unfold fieldLabel at h
  by_cases hg : f.group = true
  · rw [if_pos hg] at h
    cases hk : f.kind with
    | message j =>
      rw [hk] at h
      dsimp only at h
      cases hj : S.msg? j with
      | none => rw [hj] at h; cases h
      | some m => rw [hj] at h; cases h; exact .group (msg?_mem hj)
    | _ => rw [hk] at h; cases h
  · rw [if_neg hg] at h; cases h; exact .field hm hf

theorem fmtItem_rel {k : Nat} {md : MsgDesc} (hm : md ∈ S.msgs) {val val' : Value → Option Kind → Option (List Char)}
    (hv : ∀ v κ, VRel (Word env S o.expandAny) d v (val v κ) (val' v κ)) {x : Item} (hx : ItemOf md x) :
    LRel (Word env S o.expandAny) d (fmtItem S o.prettyOn k (2 * d) val x) (fmtItem S o.prettyOff k i val' x) := by
  cases x with
  | field f v =>
    simp only [fmtItem]
    cases hl : fieldLabel S f with
    | none => trivial
    | some n =>
      have h := hv v (some f.kind)
      revert h
      cases val v (some f.kind) with
      | none => cases val' v (some f.kind) with
        | none => intro _; trivial
        | some c => intro h; exact h.rel.elim
      | some p => cases val' v (some f.kind) with
        | none => intro h; exact h.rel.elim
        | some c => intro h; exact fieldValue_rel h (fieldLabel_word hm hx hl)
  | ext f v =>
    simp only [fmtItem]
    have h := hv v (some f.kind)
    revert h
    cases val v (some f.kind) with
    | none => cases val' v (some f.kind) with
      | none => intro _; trivial
      | some c => intro h; exact h.rel.elim
    | some p => cases val' v (some f.kind) with
      | none => intro h; exact h.rel.elim
      | some c =>
        intro h
        have := fieldValue_rel (o := o) h (Word.ext (env := env) hm hx)
        simpa [LRel] using this
  | unknown us => exact fmtDelimited_rel fun u _ => fmtUnknown_rel k d i u

theorem fmtMsg_rel {k e : Nat} {md : MsgDesc} (hm : md ∈ S.msgs) {val val' : Value → Option Kind → Option (List Char)}
    (hv : ∀ v κ, VRel (Word env S o.expandAny) d v (val v κ) (val' v κ)) (fs : FieldSet) :
    LRel (Word env S o.expandAny) d (fmtMsg S o.prettyOn k (2 * d) val md e fs) (fmtMsg S o.prettyOff k i val' md e fs) := by
  unfold fmtMsg
  have hfields : LRel (Word env S o.expandAny) d (fmtFields S o.prettyOn k (2 * d) val md fs) (fmtFields S o.prettyOff k i val' md fs) := by
    unfold fmtFields
    have ei : items o.prettyOff S md fs = items o.prettyOn S md fs := rfl
    rw [ei]
    cases hi : items o.prettyOn S md fs with
    | none => trivial
    | some its =>
      have hof := items_of hi
      have es : o.prettyOff.skipUnknown = o.prettyOn.skipUnknown := rfl
      simp only [es]
      refine fmtDelimited_rel fun x hx => fmtItem_rel hm hv (hof x ?_)
      cases hs : o.prettyOn.skipUnknown with
      | true => rw [hs, if_pos rfl] at hx; exact (List.mem_filter.1 hx).1
      | false => rw [hs] at hx; exact hx
  have ee : o.prettyOff.expandAny = o.prettyOn.expandAny := rfl
  rw [ee]
  cases ha : (if o.prettyOn.expandAny then asAny S md ⟨e, fs⟩ else some none) with
  | none => trivial
  | some r =>
    cases r with
    | none => exact hfields
    | some ub =>
      obtain ⟨url, body⟩ := ub
      have ⟨hx, hany⟩ : o.expandAny = true ∧ asAny S md ⟨e, fs⟩ = some (some (url, body)) := by
        cases hx : o.prettyOn.expandAny with
        | true => rw [hx, if_pos rfl] at ha; exact ⟨hx, ha⟩
        | false => rw [hx] at ha; cases ha
      have h := hv body.toValue none
      dsimp only
      revert h
      cases val body.toValue none with
      | none => cases val' body.toValue none with
        | none => intro _; trivial
        | some c => intro h; exact h.rel.elim
      | some p => cases val' body.toValue none with
        | none => intro h; exact h.rel.elim
        | some c =>
          intro h
          have := fieldValue_rel (o := o) h (Word.url (env := env) hx hm hany)
          simpa [LRel] using this

theorem fmtKey_word (k : MapKey) : Word env S any (fmtKey k) := by
  cases k with
  | bool b => exact .bool b
  | i32 v => exact .int _
  | i64 v => exact .int _
  | u32 v => exact .nat _
  | u64 v => exact .nat _
  | str b => exact .str b

theorem fmtScalar_word {κ : Option Kind} {v : Value} {s : List Char} (h : fmtScalar env S κ v = some s) : Word env S any s := by
  cases v with
  | bool b => cases h; exact .bool b
  | i32 v => cases h; exact .int _
  | i64 v => cases h; exact .int _
  | u32 v => cases h; exact .nat _
  | u64 v => cases h; exact .nat _
  | f32 v => cases h; exact .f32 v
  | f64 v => cases h; exact .f64 v
  | str b => cases h; exact .str b
  | bytes b => cases h; exact .str b
  | enum v =>
    simp only [fmtScalar] at h
    split at h
    · rename_i e
      cases he : S.enums[e]? with
      | none => rw [he] at h; cases h
      | some ed =>
        rw [he] at h
        dsimp only at h
        cases hn : env.enumName ed v with
        | none => rw [hn] at h; cases h; exact .int _
        | some n => rw [hn] at h; cases h; exact .enum (List.mem_of_getElem? he) hn
    · cases h; exact .int _
  | msg _ _ => cases h
  | list _ => cases h
  | map _ => cases h

theorem fmtScalar_rel (κ : Option Kind) (v : Value) :
    LRel (Word env S o.expandAny) d (fmtScalar env S κ v) (fmtScalar env S κ v) := by
  cases h : fmtScalar env S κ v with
  | none => trivial
  | some s => exact Layout.one (fmtScalar_word h)

theorem fmtEntry_rel {val val' : Nat → Value → Option (List Char)}
    (hv : ∀ v, VRel (Word env S o.expandAny) (d + 1) v (val (2 * d + 2) v) (val' i v)) (e : MapKey × Value) :
    LRel (Word env S o.expandAny) d (fmtEntry o.prettyOn (2 * d) val e) (fmtEntry o.prettyOff i val' e) := by
  obtain ⟨key, v⟩ := e
  have e1 : fmtEntry o.prettyOn (2 * d) val (key, v) = (val (2 * d + 2) v).map (fun s =>
        '{' :: (newline (2 * d + 2) ++ ("key: ".toList ++ (fmtKey key ++ (newline (2 * d + 2) ++
          ("value".toList ++ (fieldValue o.prettyOn v s ++ (newline (2 * d) ++ ['}'])))))))) := rfl
  have e2 : fmtEntry o.prettyOff i val' (key, v) = (val' i v).map (fun s =>
        "{key:".toList ++ (fmtKey key ++ (",value".toList ++ (fieldValue o.prettyOff v s ++ ['}'])))) := rfl
  rw [e1, e2]
  have h := hv v
  revert h
  cases val (2 * d + 2) v with
  | none => cases val' i v with
    | none => intro _; trivial
    | some c => intro h; exact h.rel.elim
  | some p => cases val' i v with
    | none => intro h; exact h.rel.elim
    | some c =>
      intro h
      have hb : Layout (Word env S o.expandAny) (d + 1)
          (['k', 'e', 'y'] ++ (':' :: ' ' :: (fmtKey key ++ (lineStart (d + 1) ++ (['v', 'a', 'l', 'u', 'e'] ++ fieldValue o.prettyOn v p)))))
          (['k', 'e', 'y'] ++ (':' :: (fmtKey key ++ (',' :: (['v', 'a', 'l', 'u', 'e'] ++ fieldValue o.prettyOff v c))))) :=
        .word .key (.colon (.word (fmtKey_word key) (.sep (fieldValue_rel h .value))))
      have := Layout.block hb .nil
      simpa [LRel, lineStart, newline, Nat.mul_add] using this

theorem fmtVal_rel : ∀ (k d i : Nat) (v : Value) (κ : Option Kind),
    VRel (Word env S o.expandAny) d v (fmtVal env S o.prettyOn k (2 * d) v κ) (fmtVal env S o.prettyOff k i v κ)
  | 0, d, i, v, κ => by
    simp only [fmtVal]
    cases v <;> trivial
  | k + 1, d, i, v, κ => by
    have ih := fmtVal_rel k
    cases v with
    | msg e fs =>
      simp only [fmtVal]
      cases hm : S.msg? e with
      | none => trivial
      | some md =>
        dsimp only
        have ei : items o.prettyOff S md fs = items o.prettyOn S md fs := rfl
        rw [ei]
        cases hi : items o.prettyOn S md fs with
        | none => trivial
        | some its =>
          have es : o.prettyOff.skipUnknown = o.prettyOn.skipUnknown := rfl
          simp only [es]
          cases (its.all fun i => o.prettyOn.skipUnknown && isUnknown i) with
          | true => exact emptyBraces
          | false =>
            simp only [VRel, Bool.false_eq_true, if_false]
            refine braced_rel ?_
            exact fmtMsg_rel (d := d + 1) (msg?_mem hm) (fun v κ => ih (d + 1) i v κ) fs
    | list vs =>
      simp only [fmtVal]
      exact fmtList_rel fun v _ => (ih d i v κ).rel
    | map kvs =>
      simp only [fmtVal]
      cases mapValueKind S κ with
      | none => trivial
      | some vk => exact fmtList_rel fun e _ => fmtEntry_rel (fun v => ih (d + 1) i v vk) e
    | _ => simp only [fmtVal, VRel]; exact fmtScalar_rel κ _

theorem toText_rel (k : Nat) (m : DynMsg) :
    LRel (Word env S o.expandAny) 0 (toText env S o.prettyOn k m) (toText env S o.prettyOff k m) := by
  unfold toText
  cases hm : S.msg? m.desc with
  | none => trivial
  | some md => exact fmtMsg_rel (d := 0) (msg?_mem hm) (fun v κ => fmtVal_rel k 0 0 v κ) m.fields

end Verif.Text
