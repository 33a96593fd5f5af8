import Verif.Text.Seam
import Verif.Props.TextSafe
/-!
C105: texts merged one after the other are the texts put together, with a line break after each.
-/
set_option autoImplicit false
namespace Verif.Props
open Verif.Wire Verif.Dyn Verif.Pool Verif.Text

/-- **C105.** If a text can be merged into a message and then a second one, the two texts with a line break between
them can be merged at once, with the same result.  Nothing is asked of the schema, the message or the texts. -/
theorem C105_lines (env : TEnv) (S : Schema) (k : Nat) {m m1 m2 : DynMsg} {a b : List Char}
    (h1 : mergeText env S k m a = .ok m1) (h2 : mergeText env S k m1 b = .ok m2) :
    mergeText env S k m (a ++ '\n' :: b) = .ok m2 :=
  mergeText_lines env S k h1 h2

/-- **C105**, for `parse_text_format`: parsing the first text and merging the second is parsing both. -/
theorem C105_parse (env : TEnv) (S : Schema) (k d : Nat) {m1 m2 : DynMsg} {a b : List Char}
    (h1 : parseText env S k d a = .ok m1) (h2 : mergeText env S k m1 b = .ok m2) :
    parseText env S k d (a ++ '\n' :: b) = .ok m2 :=
  mergeText_lines env S k h1 h2

/-- **C105, errors.** When the first text can be merged and the first token of the second is an identifier or `[`, or
there is none, merging both gives what merging the second gives, be it a message or an error. -/
theorem C105_exact (env : TEnv) (S : Schema) (k : Nat) {m m1 : DynMsg} {a b : List Char}
    (hb : (lex env.parse64 b).head?.all (fun x =>
      match x with
      | .tok (.ident _) => true
      | .tok .lbracket => true
      | _ => false) = true)
    (h : mergeText env S k m a = .ok m1) :
    mergeText env S k m (a ++ '\n' :: b) = mergeText env S k m1 b := by
  refine mergeText_seam env S k ?_ h
  cases hl : lex env.parse64 b with
  | nil => exact trivial
  | cons x xs =>
    rw [hl] at hb
    cases x with
    | tok t => cases t <;> first | rfl | cases hb
    | _ => cases hb

/-- An unknown field in the second text. -/
example : mergeText exEnv Ex.schema 5 ⟨0, [(1, .val (.i32 1))]⟩ "nosuch:1".toList = .error .fieldNotFound := by decide +kernel

/-- Without that, an error of the second text can go away: a string or a comma goes on where the first text ended. -/
theorem C105_exact_false : (mergeText exEnv Ex.schema 5 (DynMsg.empty 0) "a:1".toList).isOk = true ∧
    (mergeText exEnv Ex.schema 5 ⟨0, [(1, .val (.i32 1))]⟩ ", child{}".toList).isOk = false ∧
    (mergeText exEnv Ex.schema 5 (DynMsg.empty 0) "a:1\n, child{}".toList).isOk = true := by
  decide +kernel

/-- Texts, each followed by a line break. -/
def inLines : List (List Char) → List Char
  | [] => []
  | a :: r => a ++ '\n' :: inLines r

/-- **C105**, for any number of texts. -/
theorem C105_all (env : TEnv) (S : Schema) (k : Nat) : ∀ {texts : List (List Char)} {m m' : DynMsg},
    S.msg? m.desc ≠ none → texts.foldlM (mergeText env S k) m = .ok m' →
    mergeText env S k m (inLines texts) = .ok m' := by
  intro texts
  induction texts with
  | nil =>
    intro m m' hm h
    cases h
    unfold inLines mergeText mergeToks
    cases hd : S.msg? m.desc with
    | none => exact absurd hd hm
    | some md => rfl
  | cons a r ih =>
    intro m m' hm h
    rw [List.foldlM_cons] at h
    cases h1 : mergeText env S k m a with
    | error e => rw [h1] at h; cases h
    | ok m1 =>
      rw [h1] at h
      have hd : m1.desc = m.desc := by
        unfold mergeText mergeToks at h1
        split at h1
        · cases h1
        · split at h1
          · cases h1
          · cases h1; rfl
      exact mergeText_lines env S k h1 (ih (by rw [hd]; exact hm) h)

/-- The first text ends in a comment, the second sets a field inside a message and adds to a list. -/
example : mergeText exEnv Ex.schema 5 (DynMsg.empty 0) "a:1 xs:[2,3] # more".toList =
      .ok ⟨0, [(1, .val (.i32 1)), (4, .val (.list [.i32 2, .i32 3]))]⟩ ∧
    mergeText exEnv Ex.schema 5 ⟨0, [(1, .val (.i32 1)), (4, .val (.list [.i32 2, .i32 3]))]⟩ "child{a:7} xs:4".toList =
      .ok ⟨0, [(1, .val (.i32 1)), (3, .val (.msg 0 [(1, .val (.i32 7))])), (4, .val (.list [.i32 2, .i32 3, .i32 4]))]⟩ := by
  decide +kernel

/-- A text that can be merged need not fall into lines that can: the converse of **C105** does not hold. -/
theorem C105_converse_false : (mergeText exEnv Ex.schema 5 (DynMsg.empty 0) "child{\n}".toList).isOk = true ∧
    (mergeText exEnv Ex.schema 5 (DynMsg.empty 0) "child{".toList).isOk = false := by
  decide +kernel

/-- Something between the texts is needed: `a:1` and then `child{}` can be merged, `a:1child{}` cannot. -/
theorem C105_break_needed : (mergeText exEnv Ex.schema 5 (DynMsg.empty 0) "a:1".toList).isOk = true ∧
    (mergeText exEnv Ex.schema 5 ⟨0, [(1, .val (.i32 1))]⟩ "child{}".toList).isOk = true ∧
    (mergeText exEnv Ex.schema 5 (DynMsg.empty 0) "a:1child{}".toList).isOk = false := by
  decide +kernel

end Verif.Props
