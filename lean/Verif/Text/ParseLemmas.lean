import Verif.Text.Parse
/-!
Every parser consumes tokens and never runs out of its step bound.
-/
set_option autoImplicit false
namespace Verif.Text
open Verif.Wire Verif.Dyn Verif.Pool

/-- What is left is a proper suffix of the tokens, and the step bound was enough. -/
def Good {α : Type} (ts : List LTok) : PR α → Prop
  | .ok (_, r) => r <:+ ts ∧ r.length < ts.length
  | .error e => e ≠ .fuel

/-- The same, for a parser that may consume nothing. -/
def GoodLe {α : Type} (ts : List LTok) : PR α → Prop
  | .ok (_, r) => r <:+ ts
  | .error e => e ≠ .fuel

theorem Good.le {α : Type} {ts : List LTok} {x : PR α} (h : Good ts x) : GoodLe ts x := by
  cases x with
  | ok p => exact h.1
  | error e => exact h

theorem Good.ok {α : Type} {ts r : List LTok} {x : PR α} {a : α} (h : Good ts x) (e : x = .ok (a, r)) :
    r <:+ ts ∧ r.length < ts.length := by
  subst e
  exact h

theorem Good.err {α : Type} {ts : List LTok} {x : PR α} {e : TErr} (h : Good ts x)
    (he : x = .error e) : e ≠ .fuel := by
  subst he
  exact h

theorem unexpected_fuel {α : Type} {ts : List LTok} {e : TErr}
    (h : unexpected (α := α) ts = .error e) : e ≠ .fuel := by
  unfold unexpected at h
  split at h <;> cases h <;> decide

theorem unexpected_ok {α : Type} {ts : List LTok} {a : α} : unexpected ts ≠ .ok a := by
  unfold unexpected
  split <;> intro h <;> cases h

theorem good_unexpected {α : Type} {ts : List LTok} (us : List LTok) :
    Good (α := α) ts (unexpected us) := by
  unfold unexpected
  split <;> (show _ ≠ TErr.fuel; decide)

theorem good_cons {α : Type} {t : LTok} {r : List LTok} {a : α} : Good (t :: r) (.ok (a, r)) :=
  ⟨List.suffix_cons t r, by simp⟩

theorem good_cons2 {α : Type} {t u : LTok} {r : List LTok} {a : α} : Good (t :: u :: r) (.ok (a, r)) :=
  ⟨(List.suffix_cons u r).trans (List.suffix_cons t _), by simp only [List.length_cons]; omega⟩

/-- Consuming one token first. -/
theorem Good.step {α : Type} {t : LTok} {r : List LTok} {x : PR α} (h : GoodLe r x) :
    Good (t :: r) x := by
  cases x with
  | ok p =>
    refine ⟨h.trans (List.suffix_cons t r), ?_⟩
    have := h.length_le
    simp only [List.length_cons]
    omega
  | error e => exact h

theorem Good.mapP {α β : Type} {f : α → β} {ts : List LTok} {x : PR α} (h : Good ts x) :
    Good ts (Text.mapP f x) := by
  cases x with
  | ok p => exact h
  | error e => exact h

/-- A shrinking step followed by one that may consume nothing. -/
theorem Good.of_ok {α β : Type} {ts r : List LTok} {x : PR α} {a : α} {y : PR β} (h : Good ts x)
    (e : x = .ok (a, r)) (hy : GoodLe r y) : Good ts y := by
  obtain ⟨h1, h2⟩ := h.ok e
  cases y with
  | ok p =>
    refine ⟨hy.trans h1, ?_⟩
    have := hy.length_le
    omega
  | error e => exact hy

theorem parseInt_good (ts : List LTok) : Good ts (parseInt ts) := by
  unfold parseInt
  split
  · exact good_cons2
  · exact good_unexpected _
  · exact good_cons
  · exact good_unexpected _

theorem parseSigned_good (w : Nat) (ts : List LTok) : Good ts (parseSigned w ts) := by
  unfold parseSigned
  have h := parseInt_good ts
  split
  · rename_i e he
    exact h.err he
  · rename_i neg d x r he
    split
    · exact h.ok he
    · show TErr.outOfRange ≠ .fuel
      decide

theorem parseUnsigned_good (w : Nat) (ts : List LTok) : Good ts (parseUnsigned w ts) := by
  unfold parseUnsigned
  have h := parseInt_good ts
  split
  · rename_i e he
    exact h.err he
  · rename_i neg d x r he
    split
    · exact h.ok he
    · show TErr.outOfRange ≠ .fuel
      decide

theorem parseFloatAbs_good (env : TEnv) (ts : List LTok) : Good ts (parseFloatAbs env ts) := by
  unfold parseFloatAbs
  repeat' split
  all_goals first
    | exact good_cons
    | exact good_unexpected _
    | (show _ ≠ TErr.fuel; decide)

theorem parseFloat_good (env : TEnv) (ts : List LTok) : Good ts (parseFloat env ts) := by
  unfold parseFloat
  split
  · rename_i r
    have h := parseFloatAbs_good env r
    split
    · rename_i v r' he
      exact Good.step (h.ok he).1
    · rename_i e he
      exact h.err he
  · exact parseFloatAbs_good env _

theorem parseBool_good (ts : List LTok) : Good ts (parseBool ts) := by
  unfold parseBool
  repeat' split
  all_goals first
    | exact good_cons
    | exact good_unexpected _
    | (show _ ≠ TErr.fuel; decide)

theorem moreStrings_good (ts : List LTok) : GoodLe ts (moreStrings ts) := by
  fun_induction moreStrings ts with
  | case1 b r bs r' he ih =>
    rw [he] at ih
    exact List.IsSuffix.trans ih (List.suffix_cons _ r)
  | case2 b r e he ih =>
    rw [he] at ih
    exact ih
  | case3 => show TErr.lex ≠ .fuel; decide
  | case4 => show TErr.panic ≠ .fuel; decide
  | case5 r => exact List.suffix_refl _

theorem parseBytes_good (ts : List LTok) : Good ts (parseBytes ts) := by
  unfold parseBytes
  split
  · rename_i b r
    have h := moreStrings_good r
    split
    · rename_i bs r' he
      rw [he] at h
      exact Good.step h
    · rename_i e he
      rw [he] at h
      exact h
  · exact good_unexpected _

theorem parseEnum_good (S : Schema) (e : Nat) (ts : List LTok) : Good ts (parseEnum S e ts) := by
  unfold parseEnum
  split
  · split
    · show TErr.panic ≠ .fuel
      decide
    · split
      · exact good_cons
      · show TErr.enumValue ≠ .fuel
        decide
  · exact parseSigned_good _ _
  · exact parseSigned_good _ _
  · exact good_unexpected _

theorem parseVal_good {env : TEnv} {S : Schema} {sub : Nat → List LTok → PR FieldSet}
    (hs : ∀ i ts, Good ts (sub i ts)) (k : Kind) (ts : List LTok) :
    Good ts (parseVal env S sub k ts) := by
  cases k with
  | string =>
    have h := parseBytes_good ts
    cases hb : parseBytes ts with
    | error e =>
      simp only [parseVal, hb]
      exact h.err hb
    | ok p =>
      simp only [parseVal, hb]
      split
      · exact h.ok hb
      · show TErr.utf8 ≠ .fuel
        decide
  | message i => exact (hs i ts).mapP
  | enum e => exact (parseEnum_good S e ts).mapP
  | bool => exact (parseBool_good ts).mapP
  | bytes => exact (parseBytes_good ts).mapP
  | float => exact (parseFloat_good env ts).mapP
  | double => exact (parseFloat_good env ts).mapP
  | int32 => exact (parseSigned_good _ ts).mapP
  | sint32 => exact (parseSigned_good _ ts).mapP
  | sfixed32 => exact (parseSigned_good _ ts).mapP
  | int64 => exact (parseSigned_good _ ts).mapP
  | sint64 => exact (parseSigned_good _ ts).mapP
  | sfixed64 => exact (parseSigned_good _ ts).mapP
  | uint32 => exact (parseUnsigned_good _ ts).mapP
  | fixed32 => exact (parseUnsigned_good _ ts).mapP
  | uint64 => exact (parseUnsigned_good _ ts).mapP
  | fixed64 => exact (parseUnsigned_good _ ts).mapP

theorem listTail_good {pv : List LTok → PR Value} (hp : ∀ ts, Good ts (pv ts)) {n : Nat}
    {ts : List LTok} (hn : ts.length < n) : Good ts (listTail pv n ts) := by
  induction n generalizing ts with
  | zero => omega
  | succ n ih =>
    unfold listTail
    split
    · contradiction
    · rename_i n' r heq
      cases heq
      have h := hp r
      split
      · rename_i e he
        exact h.err he
      · rename_i v r' he
        obtain ⟨h1, h2⟩ := h.ok he
        simp only [List.length_cons] at hn
        have h3 := ih (ts := r') (by omega)
        split
        · rename_i e he'
          exact h3.err he'
        · rename_i vs r'' he'
          obtain ⟨h4, h5⟩ := h3.ok he'
          exact Good.step (h4.trans h1)
    · exact good_cons
    · exact good_unexpected _

/-- Any larger step bound gives the same list. -/
theorem listTail_fuel {pv : List LTok → PR Value} (hp : ∀ ts, Good ts (pv ts)) {n m : Nat}
    {ts : List LTok} (hn : ts.length < n) (hm : ts.length < m) : listTail pv n ts = listTail pv m ts := by
  induction n generalizing m ts with
  | zero => omega
  | succ n ih =>
    cases m with
    | zero => omega
    | succ m =>
      cases ts with
      | nil => rfl
      | cons t r =>
        simp only [List.length_cons] at hn hm
        cases t with
        | bad => rfl
        | panic => rfl
        | tok t =>
          cases t <;> try rfl
          unfold listTail
          cases he : pv r with
          | error e => rfl
          | ok p =>
            obtain ⟨v, r'⟩ := p
            obtain ⟨h1, h2⟩ := (hp r).ok he
            simp only
            rw [ih (ts := r') (m := m) (by omega) (by omega)]

theorem parseRep_good {pv : List LTok → PR Value} (hp : ∀ ts, Good ts (pv ts)) (ts : List LTok) :
    Good ts (parseRep pv ts) := by
  unfold parseRep
  split
  · exact good_cons2
  · rename_i r _
    have h := hp r
    split
    · rename_i e he
      exact h.err he
    · rename_i v r' he
      obtain ⟨h1, h2⟩ := h.ok he
      have h3 := listTail_good hp (n := r.length + 1) (ts := r') (by omega)
      split
      · rename_i e he'
        exact h3.err he'
      · rename_i vs r'' he'
        exact Good.step ((h3.ok he').1.trans h1)
  · exact (hp _).mapP

theorem unpack_fuel {S : Schema} {i : Nat} {v : Value} {e : TErr} (h : unpack S i v = .error e) :
    e ≠ .fuel := by
  unfold unpack at h
  repeat' split at h
  all_goals cases h
  all_goals decide

theorem insertEntries_fuel {S : Schema} {i : Nat} {vs : List Value} {kvs : List (MapKey × Value)}
    {e : TErr} (h : insertEntries S i kvs vs = .error e) : e ≠ .fuel := by
  induction vs generalizing kvs with
  | nil => cases h
  | cons v r ih =>
    unfold insertEntries at h
    split at h
    · rename_i e' he
      cases h
      exact unpack_fuel he
    · exact ih h

theorem parseFieldValue_good {env : TEnv} {S : Schema} {sub : Nat → List LTok → PR FieldSet}
    (hs : ∀ i ts, Good ts (sub i ts)) (sib : List Nat) (mem : List FieldDesc) (f : FieldDesc)
    (fs : FieldSet) (ts : List LTok) : Good ts (parseFieldValue env S sub sib mem f fs ts) := by
  have hv := parseVal_good (env := env) (S := S) hs f.kind
  unfold parseFieldValue
  split
  · have h := parseRep_good hv ts
    split
    · rename_i e he
      exact h.err he
    · rename_i vs r he
      split
      · exact h.ok he
      · show TErr.panic ≠ .fuel
        decide
  split
  · have h := parseRep_good hv ts
    split
    · rename_i e he
      exact h.err he
    · rename_i vs r he
      split
      · split
        · rename_i e he'
          exact insertEntries_fuel he'
        · exact h.ok he
      · show TErr.panic ≠ .fuel
        decide
  · have h := hv ts
    split
    · rename_i e he
      exact h.err he
    · rename_i v r he
      split
      · show TErr.panic ≠ .fuel
        decide
      · show TErr.alreadySet ≠ .fuel
        decide
      · split
        · show TErr.panic ≠ .fuel
          decide
        · show TErr.oneofSet ≠ .fuel
          decide
        · exact h.ok he

theorem fullIdentLoop_good (terms : List Tok) (acc : List Char) (ts : List LTok) :
    GoodLe ts (fullIdentLoop terms acc ts) := by
  fun_induction fullIdentLoop terms acc ts with
  | case1 acc s r ih =>
    cases h : fullIdentLoop terms (acc ++ '.' :: s) r with
    | error e => rw [h] at ih; exact ih
    | ok p =>
      rw [h] at ih
      exact List.IsSuffix.trans ih ((List.suffix_cons _ r).trans (List.suffix_cons _ _))
  | case2 => exact (good_unexpected (ts := _) _).le
  | case3 => exact List.suffix_refl _
  | case4 => show TErr.unexpected ≠ .fuel; decide
  | case5 => exact (good_unexpected (ts := _) _).le

theorem parseFullIdent_good (terms : List Tok) (ts : List LTok) :
    Good ts (parseFullIdent terms ts) := by
  unfold parseFullIdent
  split
  · exact Good.step (fullIdentLoop_good _ _ _)
  · exact good_unexpected _

theorem parseFieldName_good (ts : List LTok) : Good ts (parseFieldName ts) := by
  unfold parseFieldName
  split
  · exact good_cons
  · rename_i r
    have h := parseFullIdent_good [.rbracket, .slash] r
    split
    · rename_i e he
      exact h.err he
    · rename_i n r' he
      exact Good.step ((List.suffix_cons _ _).trans (h.ok he).1)
    · rename_i n r' he
      have h1 := (h.ok he).1
      have h' := parseFullIdent_good [.rbracket] r'
      split
      · rename_i e he'
        exact h'.err he'
      · rename_i t r'' he'
        exact Good.step ((List.suffix_cons _ _).trans ((h'.ok he').1.trans
          ((List.suffix_cons _ _).trans h1)))
      · exact good_unexpected _
    · exact good_unexpected _
  · exact good_unexpected _

theorem parseColon_ok {ts r : List LTok} (h : parseColon ts = .ok r) : r <:+ ts := by
  unfold parseColon at h
  split at h
  · cases h
    exact List.suffix_cons _ _
  · cases h
    exact List.suffix_refl _
  · cases h
    exact List.suffix_refl _
  · exact absurd h unexpected_ok

theorem parseColon_fuel {ts : List LTok} {e : TErr} (h : parseColon ts = .error e) : e ≠ .fuel := by
  unfold parseColon at h
  split at h
  · cases h
  · cases h
  · cases h
  · exact unexpected_fuel h

theorem parseAny_good {S : Schema} {sub : Nat → List LTok → PR FieldSet}
    (hs : ∀ i ts, Good ts (sub i ts)) (md : MsgDesc) (d : Nat) (dom name : List Char)
    (fs : FieldSet) (ts : List LTok) : Good ts (parseAny S sub md d dom name fs ts) := by
  unfold parseAny
  split
  · show TErr.messageNotFound ≠ .fuel
    decide
  · rename_i i _
    have h := hs i ts
    split
    · rename_i e he
      exact h.err he
    · rename_i body r he
      repeat' split
      all_goals first
        | exact h.ok he
        | (show _ ≠ TErr.fuel; decide)

theorem parseNamed_good {env : TEnv} {S : Schema} {sub : Nat → List LTok → PR FieldSet}
    (hs : ∀ i ts, Good ts (sub i ts)) (md : MsgDesc) (d : Nat) (name : FName)
    (fs : FieldSet) (ts : List LTok) : Good ts (parseNamed env S sub md d name fs ts) := by
  unfold parseNamed
  split
  · split
    · show TErr.panic ≠ .fuel
      decide
    · show TErr.fieldNotFound ≠ .fuel
      decide
    · exact parseFieldValue_good hs _ _ _ _ _
  · split
    · show TErr.extensionNotFound ≠ .fuel
      decide
    · exact parseFieldValue_good hs _ _ _ _ _
  · exact parseAny_good hs _ _ _ _ _ _

theorem parseSep_good (fs : FieldSet) (ts : List LTok) : GoodLe ts (parseSep fs ts) := by
  unfold parseSep
  split
  · exact List.suffix_cons _ _
  · exact List.suffix_cons _ _
  · show TErr.lex ≠ .fuel
    decide
  · show TErr.panic ≠ .fuel
    decide
  · exact List.suffix_refl _

theorem parseField_good {env : TEnv} {S : Schema} {sub : Nat → List LTok → PR FieldSet}
    (hs : ∀ i ts, Good ts (sub i ts)) (md : MsgDesc) (d : Nat)
    (fs : FieldSet) (ts : List LTok) : Good ts (parseField env S sub md d fs ts) := by
  unfold parseField
  have h := parseFieldName_good ts
  split
  · rename_i e he
    exact h.err he
  · rename_i name r he
    split
    · rename_i e he'
      exact parseColon_fuel he'
    · rename_i r' he'
      have h1 := parseColon_ok he'
      have h2 := parseNamed_good (env := env) (S := S) hs md d name fs r'
      split
      · rename_i e he2
        exact h2.err he2
      · rename_i fs' r'' he2
        refine h.of_ok he ?_
        have h3 := parseSep_good fs' r''
        cases hp : parseSep fs' r'' with
        | error e => rw [hp] at h3; exact h3
        | ok p =>
          rw [hp] at h3
          exact (List.IsSuffix.trans h3 (h2.ok he2).1).trans h1

theorem bodyLoop_good {pf : FieldSet → List LTok → PR FieldSet} (hp : ∀ fs ts, Good ts (pf fs ts))
    {term : Tok} {n : Nat} {fs : FieldSet} {ts : List LTok} (hn : ts.length < n) :
    Good ts (bodyLoop pf term n fs ts) := by
  induction n generalizing fs ts with
  | zero => omega
  | succ n ih =>
    cases ts with
    | nil => exact good_unexpected []
    | cons t r =>
      cases t with
      | bad => exact good_unexpected (.bad :: r)
      | panic => exact good_unexpected (.panic :: r)
      | tok t =>
        unfold bodyLoop
        split
        · have h := hp fs (.tok t :: r)
          split
          · rename_i e he
            exact h.err he
          · rename_i fs' r' he
            obtain ⟨h1, h2⟩ := h.ok he
            exact h.of_ok he (ih (by omega)).le
        · split
          · exact good_cons
          · show TErr.unexpected ≠ .fuel
            decide

theorem parseMsg_good (env : TEnv) (S : Schema) (k i : Nat) (ts : List LTok) :
    Good ts (parseMsg env S k i ts) := by
  induction k generalizing i ts with
  | zero => show TErr.stack ≠ .fuel; decide
  | succ k ih =>
    unfold parseMsg
    split
    · show TErr.panic ≠ .fuel
      decide
    · split
      · exact Good.step (bodyLoop_good (fun fs ts => parseField_good ih _ _ fs ts) (by omega)).le
      · exact Good.step (bodyLoop_good (fun fs ts => parseField_good ih _ _ fs ts) (by omega)).le
      · exact good_unexpected _

theorem topLoop_fuel {pf : FieldSet → List LTok → PR FieldSet} (hp : ∀ fs ts, Good ts (pf fs ts))
    {n : Nat} {fs : FieldSet} {ts : List LTok} {e : TErr} (hn : ts.length ≤ n)
    (h : topLoop pf n fs ts = .error e) : e ≠ .fuel := by
  induction n generalizing fs ts with
  | zero =>
    cases ts with
    | nil => cases h
    | cons t r => simp at hn
  | succ n ih =>
    cases ts with
    | nil => cases h
    | cons t r =>
      unfold topLoop at h
      have hg := hp fs (t :: r)
      split at h
      · rename_i e' he
        cases h
        exact hg.err he
      · rename_i fs' r' he
        have := (hg.ok he).2
        exact ih (by omega) h

/-- Parsing never fails because of the model's step bound. -/
theorem mergeToks_fuel {env : TEnv} {S : Schema} {k : Nat} {m : DynMsg} {ts : List LTok} :
    mergeToks env S k m ts ≠ .error .fuel := by
  intro h
  unfold mergeToks at h
  split at h
  · cases h
  · split at h
    · rename_i e he
      cases h
      exact topLoop_fuel (fun fs ts => parseField_good (parseMsg_good env S k) _ _ fs ts)
        (Nat.le_refl _) he rfl
    · cases h

/-! ### Runs of fields -/

/-- Zero or more fields, parsed one after the other. -/
inductive Fields (pf : FieldSet → List LTok → PR FieldSet) : FieldSet → List LTok → FieldSet →
    List LTok → Prop where
  | nil {fs : FieldSet} {ts : List LTok} : Fields pf fs ts fs ts
  | cons {fs fs1 fs2 : FieldSet} {t : Tok} {r ts1 ts2 : List LTok} (ht : startsField t = true)
      (h : pf fs (.tok t :: r) = .ok (fs1, ts1)) (hr : Fields pf fs1 ts1 fs2 ts2) :
      Fields pf fs (.tok t :: r) fs2 ts2

theorem Fields.body {pf : FieldSet → List LTok → PR FieldSet} (hp : ∀ fs ts, Good ts (pf fs ts))
    {term : Tok} {fs fs2 : FieldSet} {ts r : List LTok} (h : Fields pf fs ts fs2 (.tok term :: r))
    (ht : startsField term = false) {n : Nat} (hn : ts.length < n) :
    bodyLoop pf term n fs ts = .ok (fs2, r) := by
  generalize e : LTok.tok term :: r = ts2 at h
  induction h generalizing n with
  | nil =>
    subst e
    cases n with
    | zero => omega
    | succ n =>
      unfold bodyLoop
      simp [ht]
  | cons ht' h' hr ih =>
    rename_i fs fs1 fs2 t r' ts1 ts2
    cases n with
    | zero => omega
    | succ n =>
      have := (hp fs (.tok t :: r')).ok h'
      unfold bodyLoop
      rw [if_pos ht', h']
      exact ih (by omega) e

theorem Fields.top {pf : FieldSet → List LTok → PR FieldSet} (hp : ∀ fs ts, Good ts (pf fs ts))
    {fs fs2 : FieldSet} {ts : List LTok} (h : Fields pf fs ts fs2 []) {n : Nat}
    (hn : ts.length ≤ n) : topLoop pf n fs ts = .ok fs2 := by
  generalize e : ([] : List LTok) = ts2 at h
  induction h generalizing n with
  | nil => subst e; cases n <;> rfl
  | cons ht' h' hr ih =>
    rename_i fs fs1 fs2 t r' ts1 ts2
    cases n with
    | zero => simp at hn
    | succ n =>
      have := (hp fs (.tok t :: r')).ok h'
      unfold topLoop
      rw [h']
      exact ih (by omega) e

end Verif.Text
