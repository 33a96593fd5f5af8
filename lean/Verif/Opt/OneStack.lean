import Verif.Opt.Options
import Verif.Text.OneParse
/-!
Option resolution: how deep the stack of the text parser is does not matter, once it is deep enough.
-/
set_option autoImplicit false
namespace Verif.Opt
open Verif.Wire Verif.Dyn Verif.Text

/-- The text parser overflowed the first time, or the same comes out the second time. -/
def Firm {α : Type} (x y : Except OErr α) : Prop := x = .error (.message .stack) ∨ y = x

theorem Firm.refl {α : Type} (x : Except OErr α) : Firm x x := .inr rfl

/-- The environment with another stack. -/
def OEnv.at (env : OEnv) (k : Nat) : OEnv := { env with stack := k }

variable {env : OEnv} {S : Schema} {k : Nat}

theorem optMessage_firm (h : env.stack ≤ k) (d : Nat) (u : Uninterp) :
    Firm (optMessage env S d u) (optMessage (env.at k) S d u) := by
  unfold optMessage
  split
  next t _ =>
    rcases mergeText_steady env.text S (DynMsg.empty d) t h with hx | hx
    · left
      unfold parseText
      rw [hx]
    · right
      have hy : parseText (env.at k).text S (env.at k).stack d t = parseText env.text S env.stack d t := hx
      rw [hy]
  · exact .inr rfl

theorem optMapEntry_firm (h : env.stack ≤ k) (d : Nat) (u : Uninterp) :
    Firm (optMapEntry env S d u) (optMapEntry (env.at k) S d u) := by
  unfold optMapEntry
  rcases optMessage_firm (S := S) h d u with hx | hx
  · rw [hx]; exact .inl rfl
  · rw [hx]; exact .inr rfl

theorem setSingle_firm (h : env.stack ≤ k) (kd : Kind) (u : Uninterp) (v : Value) :
    Firm (setSingle env S kd u v) (setSingle (env.at k) S kd u v) := by
  cases v with
  | msg d fs =>
    simp only [setSingle]
    split
    next d' =>
      rcases optMessage_firm (S := S) h d' u with hx | hx
      · rw [hx]; exact .inl rfl
      · rw [hx]; exact .inr rfl
    · exact .inr rfl
  | _ => exact .inr rfl

theorem setValue_firm (h : env.stack ≤ k) (kd : Kind) (u : Uninterp) (v : Value) :
    Firm (setValue env S kd u v) (setValue (env.at k) S kd u v) := by
  cases v with
  | list vs =>
    simp only [setValue]
    split
    · exact .inr rfl
    next w _ =>
      rcases setSingle_firm (S := S) h kd u w with hx | hx
      · rw [hx]; exact .inl rfl
      · rw [hx]; exact .inr rfl
  | map kvs =>
    simp only [setValue]
    split
    next d =>
      rcases optMapEntry_firm (S := S) h d u with hx | hx
      · rw [hx]; exact .inl rfl
      · rw [hx]; exact .inr rfl
    · exact .inr rfl
  | _ => simp only [setValue]; exact setSingle_firm h kd u _

theorem setOption_firm (h : env.stack ≤ k) (u : Uninterp) : ∀ (ps : List Part) (m : DynMsg),
    Firm (setOption env S u ps m) (setOption (env.at k) S u ps m) := by
  intro ps
  induction ps with
  | nil => intro m; exact .inr rfl
  | cons p ps ih =>
    intro m
    unfold setOption
    split
    · exact .inr rfl
    next md _ =>
      rw [show lookPart (env.at k) md m.desc p = lookPart env md m.desc p from rfl]
      split
      · exact .inr rfl
      next f sib _ =>
        split
        · split
          · exact .inr rfl
          · exact .inr rfl
          · split
            · exact .inr rfl
            next fs v _ =>
              rcases setValue_firm (S := S) h f.kind u v with hx | hx
              · rw [hx]; exact .inl rfl
              · rw [hx]; exact .inr rfl
        · split
          · exact .inr rfl
          next fs d sub _ =>
            rcases ih ⟨d, sub⟩ with hx | hx
            · rw [hx]; exact .inl rfl
            · rw [hx]; exact .inr rfl
          · exact .inr rfl

theorem setOptions_firm (h : env.stack ≤ k) : ∀ (us : List Uninterp) (m : DynMsg),
    Firm (setOptions env S us m) (setOptions (env.at k) S us m) := by
  intro us
  induction us with
  | nil => intro m; exact .inr rfl
  | cons u us ih =>
    intro m
    unfold setOptions
    rcases setOption_firm (S := S) h u u.parts m with hx | hx
    · rw [hx]; exact .inl rfl
    · rw [hx]
      split
      · exact .inr rfl
      · exact ih _

theorem resolveOptions_firm (h : env.stack ≤ k) (d : Nat) (b : Bytes) (us : List Uninterp) :
    resolveOptions env S d b us = .option (.message .stack) ∨
    resolveOptions (env.at k) S d b us = resolveOptions env S d b us := by
  unfold resolveOptions
  split
  · exact .inr rfl
  split
  · exact .inr rfl
  next m _ =>
    rcases setOptions_firm (S := S) h us m with hx | hx
    · rw [hx]; exact .inl rfl
    · rw [hx]; exact .inr rfl

end Verif.Opt
