import Verif.Text.UnknownText
import Verif.Text.PrintTotal
import Verif.Dyn.Size
import Verif.Props.Text
/-!
C67: what the text of unknown fields tells.
-/
set_option autoImplicit false
namespace Verif.Props
open Verif.Wire Verif.Dyn Verif.Pool Verif.Text

/-- `Display for UnknownField` (unknown.rs:196-217) with stack depth `k`; `{:#}` is `pretty`. -/
def displayUnknown (pretty : Bool) (k : Nat) (f : UField) : Option (List Char) :=
  fmtUnknown { FOpts.default with pretty := pretty } k 0 f

/-- The separator token: none between lines, else a comma. -/
def sepOf (pretty : Bool) : List Tok := if pretty then [] else [.comma]

/-- **C67, one field.** The text of an unknown field consists of the tokens of its number and of
what is told of its value: a varint in decimal, 32 and 64 bits as eight and sixteen hexadecimal
digits, strings exactly, and blocks field by field in order. -/
theorem C67_tokens (fp : List Char → Option (BitVec 64)) {pretty : Bool} {k n : Nat} {u : UVal} {s : List Char}
    (h : displayUnknown pretty k (n, u) = some s) :
    ∃ sh t, Shows u sh ∧ Spells (sepOf pretty) n sh t ∧ lex fp s = t.map .tok := by
  obtain ⟨sh, t, h1, h2, h3⟩ := fmtUnknown_lex (fp := fp) k h
  have := h3 [] Stop.nil
  rw [List.append_nil, lex_nil, List.append_nil] at this
  exact ⟨sh, t, h1, h2, this⟩

theorem map_tok_inj {a b : List Tok} (h : a.map LTok.tok = b.map .tok) : a = b := by
  induction a generalizing b with
  | nil => cases b <;> simp at h ⊢
  | cons x a ih =>
    cases b with
    | nil => simp at h
    | cons y b =>
      simp only [List.map_cons, List.cons.injEq, LTok.tok.injEq] at h
      rw [h.1, ih h.2]

/-- **C67, nothing is confused.** Two unknown fields with the same text have the same number, and
the same is told of their values. -/
theorem C67_told {pretty : Bool} {k k' n n' : Nat} {u u' : UVal} {s : List Char}
    (h : displayUnknown pretty k (n, u) = some s) (h' : displayUnknown pretty k' (n', u') = some s) :
    n = n' ∧ ∃ sh, Shows u sh ∧ Shows u' sh := by
  obtain ⟨sh, t, h1, h2, h3⟩ := C67_tokens (fun _ => none) h
  obtain ⟨sh', t', h1', h2', h3'⟩ := C67_tokens (fun _ => none) h'
  have e := map_tok_inj (h3.symm.trans h3')
  have e' : t ++ [] = t' ++ [] := by rw [e]
  obtain ⟨e1, -, -⟩ := spells_unique (sepTok_ok { FOpts.default with pretty := pretty }) sh h2 h2' e'
  refine ⟨h2.num h2' e', sh, h1, ?_⟩
  rw [e1]
  exact h1'

/-- **C67, numbers.** A number, of 32 or 64 bits or a varint, is told exactly: a field with the
same text is the same field. -/
theorem C67_number {pretty : Bool} {k k' n n' : Nat} {u u' : UVal} {s : List Char}
    (h : displayUnknown pretty k (n, u) = some s) (h' : displayUnknown pretty k' (n', u') = some s)
    (hu : u.wireType = .varint ∨ u.wireType = .thirtyTwoBit ∨ u.wireType = .sixtyFourBit) : n = n' ∧ u = u' := by
  obtain ⟨hn, sh, h1, h2⟩ := C67_told h h'
  refine ⟨hn, ?_⟩
  cases h1 with
  | varint v => cases h2; rfl
  | bits32 v => cases h2; rfl
  | bits64 v => cases h2; rfl
  | empty => simp [UVal.wireType] at hu
  | str _ => simp [UVal.wireType] at hu
  | msg _ _ _ => simp [UVal.wireType] at hu
  | group _ => simp [UVal.wireType] at hu

/-- **C67, it is printed.** A stack as deep as the field has bytes is enough. -/
theorem C67_total (pretty : Bool) {k n : Nat} {u : UVal} (h : uBytes u ≤ k) :
    ∃ s, displayUnknown pretty k (n, u) = some s := fmtUnknown_total k h

example : displayUnknown false 3 (3, .len [0x10, 0x42]) = some "3{2:66}".toList ∧
    displayUnknown true 3 (3, .len [0x10, 0x42]) = some "3 {\n  2: 66\n}".toList := by decide +kernel
example : displayUnknown false 1 (5, .thirtyTwo 0x2a#32) = some "5:0x0000002a".toList := by decide +kernel
example : displayUnknown false 5 (7, .group [(1, .varint 1), (2, .len [0xff]), (3, .group [])]) =
    some "7{1:1,2:\"\\377\",3{}}".toList := by decide +kernel

/-! ### Messages of unknown fields -/

theorem spellsAll_append {sep : List Tok} : (a : List (Nat × Shown)) → {b : List (Nat × Shown)} → {t t' : List Tok} →
    SpellsAll sep a t → SpellsAll sep b t' → a ≠ [] → b ≠ [] → SpellsAll sep (a ++ b) (t ++ (sep ++ t'))
  | [], _, _, _, _, _, h, _ => absurd rfl h
  | [(n, s)], b, t, t', ha, hb, _, hb' => by
    cases ha with
    | one h =>
      cases b with
      | nil => exact absurd rfl hb'
      | cons p b => exact .cons h hb
  | (n, s) :: p :: a, b, t, t', ha, hb, _, hb' => by
    cases ha with
    | cons h h' =>
      rw [List.append_assoc, List.append_assoc]
      exact .cons h (spellsAll_append (p :: a) h' hb (by simp) hb')

theorem showsAll_append {a b : USet} {s s' : List (Nat × Shown)} (h : ShowsAll a s) (h' : ShowsAll b s') :
    ShowsAll (a ++ b) (s ++ s') := by
  induction a generalizing s with
  | nil => cases h; exact h'
  | cons p a ih => cases h with
    | cons h1 h2 => exact .cons h1 (ih h2)

/-- The unknown fields of a message, in the order they are kept. -/
def unknowns (fs : FieldSet) : USet := fs.flatMap (fun p => match p.2 with
  | .unknown us => us
  | _ => [])

theorem lex_items {fp : List Char → Option (BitVec 64)} {o : FOpts} {S : Schema} {k ind : Nat}
    {val : Value → Option Kind → Option (List Char)} :
    (uss : List USet) → {ss : List (List Char)} → (∀ us ∈ uss, us ≠ []) →
    fmtAll (fmtItem S o k ind val) (uss.map .unknown) = some ss →
    ∃ shs t, ShowsAll uss.flatten shs ∧ SpellsAll (sepTok o) shs t ∧ (uss ≠ [] → shs ≠ []) ∧
      ∀ r, Stop r → lex fp (joinWith (if o.pretty then newline ind else [',']) ss ++ r) = t.map .tok ++ lex fp r
  | [], ss, _, h => by
    cases h
    exact ⟨[], [], .nil, .nil, fun h => absurd rfl h, fun r _ => rfl⟩
  | us :: uss, ss, hne, h => by
    simp only [List.map_cons, fmtAll] at h
    split at h
    · rename_i s ss' h1 h2
      cases h
      obtain ⟨l, hl, rfl⟩ := Option.map_eq_some_iff.1 h1
      obtain ⟨shs, t, hsh, ht, hlx⟩ := lex_fields (fp := fp) (o := o) (ind := ind) us hl (fun n u s h => fmtUnknown_lex k h)
      obtain ⟨shs', t', hsh', ht', hne', hlx'⟩ := lex_items (fp := fp) uss (fun us h => hne us (List.mem_cons_of_mem _ h)) h2
      have hs0 : shs ≠ [] := by
        have := hne us (by simp)
        cases hsh with
        | nil => exact absurd rfl this
        | cons _ _ => simp
      cases uss with
      | nil =>
        cases h2; cases hsh'
        refine ⟨_, t, by simpa using hsh, ht, fun _ => hs0, fun r hr => by simp only [joinWith]; exact hlx r hr⟩
      | cons us2 uss =>
        obtain ⟨s2, ss2, rfl⟩ : ∃ s2 ss2, ss' = s2 :: ss2 := by
          simp only [List.map_cons, fmtAll] at h2
          split at h2
          · cases h2; exact ⟨_, _, rfl⟩
          · cases h2
        refine ⟨_, _, showsAll_append hsh hsh', spellsAll_append _ ht ht' hs0 (hne' (by simp)), fun _ => by simp [hs0], ?_⟩
        intro r hr
        simp only [joinWith, List.append_assoc]
        have hstop : Stop ((if o.pretty then newline ind else [',']) ++
            (joinWith (if o.pretty then newline ind else [',']) (s2 :: ss2) ++ r)) := by
          split
          · exact stop_newline _ _
          · exact Stop.cons (by decide) (by decide)
        rw [hlx _ hstop, List.map_append, List.map_append, List.append_assoc, List.append_assoc]
        congr 1
        rw [← hlx' r hr]
        unfold sepTok
        split
        · simp only [List.map_nil, List.nil_append]; exact lex_newline _ _
        · exact lex_punct (t := .comma) rfl (by decide)
    · cases h

/-- The unknown fields kept, number by number. -/
def unknownSets : FieldSet → List USet
  | [] => []
  | (_, .unknown us) :: r => us :: unknownSets r
  | _ :: r => unknownSets r

theorem unknownSets_flat (fs : FieldSet) : (unknownSets fs).flatten = unknowns fs := by
  induction fs with
  | nil => rfl
  | cons p r ih =>
    obtain ⟨n, s⟩ := p
    cases s <;> simp_all [unknownSets, unknowns]

theorem iterExt_none {S : Schema} {md : MsgDesc} (he : md.extensions = []) : (fs : FieldSet) →
    iterExtPart S md fs = some ((unknownSets fs).map .unknown)
  | [] => rfl
  | (n, .val v) :: r => by
    have : md.getExtension n = none := by unfold MsgDesc.getExtension; simp [he]
    simp only [iterExtPart, this, unknownSets]
    exact iterExt_none he r
  | (n, .unknown u) :: r => by
    simp only [iterExtPart, unknownSets, iterExt_none he r]
    rfl
  | (n, .taken) :: r => by
    simp only [iterExtPart, unknownSets]
    exact iterExt_none he r

theorem items_none {o : FOpts} {S : Schema} {md : MsgDesc} (hf : md.fields = []) (he : md.extensions = []) (fs : FieldSet) :
    items o S md fs = some ((unknownSets fs).map .unknown) := by
  have : (if o.indexOrder then md.fields.map (fun f => (f.number, f)) else md.fieldsByNumber) = [] := by
    split
    · rw [hf]; rfl
    · unfold MsgDesc.fieldsByNumber; rw [hf]; rfl
  unfold items
  rw [this, iterExt_none he]
  rfl

theorem unknownSets_mem {fs : FieldSet} {us : USet} (h : us ∈ unknownSets fs) : ∃ n, (n, Slot.unknown us) ∈ fs := by
  induction fs with
  | nil => cases h
  | cons p r ih =>
    obtain ⟨n, s⟩ := p
    cases s with
    | unknown u =>
      rcases List.mem_cons.1 h with rfl | h'
      · exact ⟨n, by simp⟩
      · obtain ⟨m, hm⟩ := ih h'; exact ⟨m, List.mem_cons_of_mem _ hm⟩
    | val v => obtain ⟨m, hm⟩ := ih h; exact ⟨m, List.mem_cons_of_mem _ hm⟩
    | taken => obtain ⟨m, hm⟩ := ih h; exact ⟨m, List.mem_cons_of_mem _ hm⟩

theorem unknownSets_ne {S : Schema} {m : DynMsg} {md : MsgDesc} (hC : Conf S m md) : ∀ us ∈ unknownSets m.fields, us ≠ [] := by
  intro us hu
  obtain ⟨n, hn⟩ := unknownSets_mem hu
  have := hC.slots _ hn
  simp only [confSlot, unknownOk, Bool.and_eq_true] at this
  rintro rfl
  simp at this

theorem toText_none {env : TEnv} {S : Schema} {o : FOpts} {k : Nat} {m : DynMsg} {md : MsgDesc} (hd : S.msg? m.desc = some md)
    (hf : md.fields = []) (he : md.extensions = []) (ha : md.name ≠ anyName) (ho : o.skipUnknown = false) :
    toText env S o k m = fmtDelimited o 0 (fmtItem S o k 0 (fmtVal env S o k 0)) ((unknownSets m.fields).map .unknown) := by
  have h1 : asAny S md ⟨m.desc, m.fields⟩ = some none := by unfold asAny; rw [if_pos ha]
  have h2 : (if o.expandAny then asAny S md ⟨m.desc, m.fields⟩ else some none) = some none := by
    split
    · exact h1
    · rfl
  simp only [toText, hd, fmtMsg, h2, fmtFields, items_none hf he, ho, Bool.false_eq_true, if_false]

/-- **C67, messages.** When unknown fields are printed, the text of a message of a type without
fields tells each of its unknown fields, in the order they are kept. -/
theorem C67_message (env : TEnv) {S : Schema} {o : FOpts} {k : Nat} {m : DynMsg} {md : MsgDesc} (hm : confMsg S m = true)
    (hd : S.msg? m.desc = some md) (hf : md.fields = []) (he : md.extensions = []) (ha : md.name ≠ anyName)
    (ho : o.skipUnknown = false) {s : List Char} (h : toText env S o k m = some s) :
    ∃ shs t, ShowsAll (unknowns m.fields) shs ∧ SpellsAll (sepOf o.pretty) shs t ∧ lex env.parse64 s = t.map .tok := by
  obtain ⟨md', hC⟩ := confMsg_iff.1 hm
  rw [toText_none hd hf he ha ho] at h
  obtain ⟨l, hl, rfl⟩ := Option.map_eq_some_iff.1 h
  obtain ⟨shs, t, h1, h2, -, h3⟩ := lex_items (fp := env.parse64) (unknownSets m.fields) (unknownSets_ne hC) hl
  rw [unknownSets_flat] at h1
  have := h3 [] Stop.nil
  rw [List.append_nil, lex_nil, List.append_nil] at this
  exact ⟨shs, t, h1, h2, this⟩

/-- **C67, messages are not confused.** Two such messages with the same text tell the same. -/
theorem C67_message_told {env : TEnv} {S : Schema} {o : FOpts} {k k' : Nat} {m m' : DynMsg} {md md' : MsgDesc}
    (hm : confMsg S m = true) (hd : S.msg? m.desc = some md) (hf : md.fields = []) (he : md.extensions = [])
    (ha : md.name ≠ anyName) (hm' : confMsg S m' = true) (hd' : S.msg? m'.desc = some md') (hf' : md'.fields = [])
    (he' : md'.extensions = []) (ha' : md'.name ≠ anyName) (ho : o.skipUnknown = false) {s : List Char}
    (h : toText env S o k m = some s) (h' : toText env S o k' m' = some s) :
    ∃ shs, ShowsAll (unknowns m.fields) shs ∧ ShowsAll (unknowns m'.fields) shs := by
  obtain ⟨shs, t, h1, h2, h3⟩ := C67_message env hm hd hf he ha ho h
  obtain ⟨shs', t', h1', h2', h3'⟩ := C67_message env hm' hd' hf' he' ha' ho h'
  have e := map_tok_inj (h3.symm.trans h3')
  obtain ⟨e1, -, -⟩ := spellsAll_unique (sepTok_ok o) shs h2 h2' (.inl rfl) (.inl rfl)
    (show t ++ [] = t' ++ [] by rw [e])
  exact ⟨shs, h1, by rw [e1]; exact h1'⟩

/-- **C67, messages are printed.** -/
theorem C67_message_total (env : TEnv) {S : Schema} {o : FOpts} {k : Nat} {m : DynMsg} {md : MsgDesc}
    (hd : S.msg? m.desc = some md) (hf : md.fields = []) (he : md.extensions = []) (ha : md.name ≠ anyName)
    (ho : o.skipUnknown = false) (hk : usBytes (unknowns m.fields) ≤ k) : ∃ s, toText env S o k m = some s := by
  rw [toText_none hd hf he ha ho]
  obtain ⟨ss, hss⟩ : ∃ ss, fmtAll (fmtItem S o k 0 (fmtVal env S o k 0)) ((unknownSets m.fields).map .unknown) = some ss := by
    apply fmtAll_total
    intro it hit
    obtain ⟨us, hus, rfl⟩ := List.mem_map.1 hit
    obtain ⟨l, hl⟩ := fmtUs_total (f := fmtUnknown o k 0) (us := us) (by
      rintro ⟨n, u⟩ hp
      apply fmtUnknown_total
      have : (n, u) ∈ unknowns m.fields := by
        rw [← unknownSets_flat]
        exact List.mem_flatten.2 ⟨us, hus, hp⟩
      have := usBytes_mem this
      omega)
    exact ⟨_, by simp only [fmtItem, fmtDelimited, hl]; rfl⟩
  exact ⟨_, by simp only [fmtDelimited, hss]; rfl⟩

/-- A message type without fields. -/
def emptySchema : Schema where
  msgs := [{ name := "t.Empty".toList, fields := [], mapEntry := false, extensions := [] }]
  enums := []

example : ∃ m, decode emptySchema 0 [0x10, 0x05, 0x0d, 0x2a, 0, 0, 0, 0x12, 0x01, 0x61] = .ok m ∧ confMsg emptySchema m = true ∧
    toText exEnv emptySchema { FOpts.default with skipUnknown := false } 5 m = some "1:0x0000002a,2:5,2:\"a\"".toList ∧
    unknowns m.fields = [(1, .thirtyTwo 0x2a#32), (2, .varint 5), (2, .len [0x61])] :=
  ⟨⟨0, [(1, .unknown [(1, .thirtyTwo 0x2a#32)]), (2, .unknown [(2, .varint 5), (2, .len [0x61])])]⟩,
    by rfl, by decide +kernel, by decide +kernel, rfl⟩

/-! ### What fails -/

/-- **C67 fails in this**: a group and a length-delimited value, and even a string that happens to
look like fields, have the same text (here group 7 of `5: 49`, and the string `(1`). -/
theorem C67_kind_false : displayUnknown false 3 (7, .group [(5, .varint 49)]) = some "7{5:49}".toList ∧
    displayUnknown false 3 (7, .len (utf8Encode "(1".toList)) = some "7{5:49}".toList := by decide +kernel

/-- Length-delimited values inside each other. -/
def nested : Nat → Bytes
  | 0 => []
  | j + 1 => 0x0a :: (encodeVarint (nested j).length ++ nested j)

theorem nested_len : (j : Nat) → (nested j).length ≤ 11 * j
  | 0 => by simp [nested]
  | j + 1 => by
    have h1 := nested_len j
    have h2 := encodeVarint_le (nested j).length
    simp only [nested, List.length_cons, List.length_append]
    omega

theorem nested_decode {j : Nat} (h : j < 2 ^ 60) : decodeUSet (nested (j + 1)) = some [(1, .len (nested j))] := by
  have hl := nested_len j
  have hs := decUSet_steps [(1, .len (nested j))] recursionLimit []
    (by simp [USet.depth, UVal.depth]) (by
      refine ⟨⟨by decide, by decide⟩, ?_, trivial⟩
      show (nested j).length < 2 ^ 64
      omega)
  have e : encUSet [(1, .len (nested j))] = nested (j + 1) := by
    simp only [encUSet, encUVal, List.append_nil, nested]
    rfl
  rw [e] at hs
  unfold decodeUSet
  rw [mergeAll_of_fsteps hs]
  rfl

/-- **C67 fails in this**: printing calls itself once for each value that can be read as fields,
without a limit, although the value was decoded as one string. For every stack depth `k` some
value of at most `11 k` bytes overflows it. -/
theorem C67_stack_false (pretty : Bool) (k n : Nat) (hk : k < 2 ^ 60) :
    (nested k).length ≤ 11 * k ∧ displayUnknown pretty k (n, .len (nested k)) = none := by
  refine ⟨nested_len k, ?_⟩
  suffices h : ∀ (k n ind : Nat), k < 2 ^ 60 →
      fmtUnknown { FOpts.default with pretty := pretty } k ind (n, .len (nested k)) = none from h k n 0 hk
  intro k
  induction k with
  | zero => intro n ind _; rfl
  | succ k ih =>
    intro n ind hk
    have h1 := nested_decode (j := k) (by omega)
    have h2 : (nested (k + 1)).isEmpty = false := rfl
    simp only [fmtUnknown, h2, Bool.false_eq_true, if_false, h1, List.isEmpty_cons, braced, fmtDelimited, fmtAll]
    cases pretty <;> simp [ih _ _ (show k < 2 ^ 60 by omega)]

example : decode emptySchema 0 (nested 3) = .ok ⟨0, [(1, .unknown [(1, .len (nested 2))])]⟩ ∧
    displayUnknown false 2 (1, .len (nested 2)) = none ∧ displayUnknown false 3 (1, .len (nested 2)) ≠ none :=
  ⟨by rfl, by decide +kernel, by decide +kernel⟩

end Verif.Props
