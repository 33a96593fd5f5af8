import Verif.Pool.Spec
import Verif.Pool.Hist
/-!
A concrete environment and concrete files: the examples beside the pool theorems use them.
-/
set_option autoImplicit false
namespace Verif.Props
open Verif.Wire Verif.Dyn Verif.Pool

/-- A linear scan does what `binary_search_by` promises on an ascending list. -/
def linearSearch (l : List (Int × Nat)) (n : Int) : Bool × Nat :=
  (l.any fun x => x.1 = n, (l.takeWhile fun x => x.1 < n).length)

theorem linearSearch_ok : SearchOk linearSearch where
  hit := by
    intro l n i ha h
    simp only [linearSearch, Prod.mk.injEq] at h
    obtain ⟨h1, rfl⟩ := h
    induction l with
    | nil => simp at h1
    | cons x l ih =>
      simp only [Ascending, List.pairwise_cons] at ha
      simp only [List.takeWhile_cons]
      by_cases hx : x.1 < n
      · simp only [hx, decide_true, if_true, List.length_cons, List.getElem?_cons_succ]
        refine ih ha.2 ?_
        simp only [List.any_cons, Bool.or_eq_true, decide_eq_true_eq] at h1
        rcases h1 with h1 | h1
        · omega
        · exact h1
      · simp only [hx, decide_false, Bool.false_eq_true, if_false, List.length_nil,
          List.getElem?_cons_zero, Option.some.injEq]
        simp only [List.any_cons, Bool.or_eq_true, decide_eq_true_eq, List.any_eq_true] at h1
        rcases h1 with h1 | ⟨y, hy, h1⟩
        · exact ⟨x.2, by rw [← h1]⟩
        · have := ha.1 y hy
          exact ⟨x.2, by rw [show n = x.1 by omega]⟩
  miss := by
    intro l n i ha h
    simp only [linearSearch, Prod.mk.injEq] at h
    obtain ⟨h1, rfl⟩ := h
    induction l with
    | nil => simp
    | cons x l ih =>
      simp only [Ascending, List.pairwise_cons] at ha
      simp only [List.any_cons, Bool.or_eq_false_iff, decide_eq_false_iff_not] at h1
      simp only [List.takeWhile_cons]
      by_cases hx : x.1 < n
      · simp only [hx, decide_true, if_true, List.length_cons, List.take_succ_cons,
          List.drop_succ_cons, List.mem_cons, forall_eq_or_imp]
        obtain ⟨g1, g2, g3⟩ := ih ha.2 h1.2
        exact ⟨by omega, ⟨trivial, g2⟩, g3⟩
      · simp only [hx, decide_false, Bool.false_eq_true, if_false, List.length_nil,
          List.take_zero, List.drop_zero, List.not_mem_nil, false_implies, implies_true, true_and,
          List.mem_cons, forall_eq_or_imp]
        refine ⟨by omega, by omega, fun y hy => ?_⟩
        have := ha.1 y hy
        omega

/-- Overflow checks on, a stack of 100 frames, options kept as declared. -/
def env0 : Env where
  fp := ⟨fun _ => none, fun _ => none⟩
  search := linearSearch
  checks := true
  stack := 100
  optErr := fun _ _ => .ok false
  msgOpt := fun _ e => match e with
    | .message _ _ _ _ _ m => m.options.join
    | _ => none
  fieldOpt := fun _ e => match e with
    | .field _ _ _ _ _ f => f.options.join
    | .extension _ _ _ _ _ f => f.options.join
    | _ => none

/-- The result of an addition, if it returned. -/
def added (p : Pool) (fs : List FileP) : Option Built :=
  match buildFiles env0 p fs with
  | .ok b => some b
  | .error _ => none

def nm (s : String) : Name := s.toList

/-- `package a.b; message M { int32 x = 1; repeated uint32 ys = 2; oneof o { N n = 3; E e = 4; }
message N {} enum E { ZERO = 0; ONE = 1; } extensions 100 to 199; }  service S { rpc Get(M)
returns (stream .a.b.M.N); }  extend M { string ext = 100; }` -/
def fileA : FileP where
  name := nm "a.proto"
  package := nm "a.b"
  messages := [{
    name := nm "M"
    fields := [
      { name := nm "x_y", number := 1, ty := .int32 },
      { name := nm "ys", number := 2, label := .repeated, ty := .uint32 },
      { name := nm "n", number := 3, ty := .message, typeName := nm "N", oneofIndex := some 0 },
      { name := nm "e", number := 4, ty := .enum, typeName := nm "M.E", oneofIndex := some 0 }]
    nested := [{ name := nm "N" }]
    enums := [{ name := nm "E", values := [⟨nm "ZERO", 0⟩, ⟨nm "ONE", 1⟩] }]
    oneofs := [⟨nm "o"⟩]
    extRanges := [(100, 200)]
    reserved := [(7, 9)] }]
  services := [{ name := nm "S", methods := [⟨nm "Get", nm "M", nm ".a.b.M.N", none, some true⟩] }]
  exts := [{ name := nm "ext", number := 100, ty := .string, extendee := some (nm "M") }]
  syn := some (nm "proto3")

/-- `import "a.proto"; package c; message P { a.b.M m = 1; }` -/
def fileB : FileP where
  name := nm "b.proto"
  package := nm "c"
  deps := [nm "a.proto"]
  messages := [{
    name := nm "P"
    fields := [{ name := nm "m", number := 1, ty := .message, typeName := nm "a.b.M" }] }]

/-- Run a list of additions, keeping track of the accepted files. -/
def run (acc : List FileP) (p : Pool) : List (List FileP) → Option (List FileP × Pool)
  | [] => some (acc, p)
  | b :: bs =>
    match buildFiles env0 p b with
    | .ok ⟨q, []⟩ => run (acc ++ b.filter fun f => (lookupN p.fileNames f.name).isNone) q bs
    | .ok ⟨q, _ :: _⟩ => run acc q bs
    | .error _ => none

theorem run_hist : ∀ {bs : List (List FileP)} {acc acc' : List FileP} {p p' : Pool},
    Hist env0 acc p → run acc p bs = some (acc', p') → Hist env0 acc' p'
  | [], acc, acc', p, p', h, hr => by
    simp only [run, Option.some.injEq, Prod.mk.injEq] at hr
    rw [← hr.1, ← hr.2]; exact h
  | b :: bs, acc, acc', p, p', h, hr => by
    simp only [run] at hr
    split at hr
    · next q hq => exact run_hist (.accept _ _ _ _ h hq) hr
    · next q e es hq => exact run_hist (.reject _ _ _ _ _ _ h hq) hr
    · cases hr

/-- A history exists in which a computable condition holds. -/
theorem run_ex (bs : List (List FileP)) (c : List FileP → Pool → Bool)
    (h : (match run [] Pool.empty bs with
      | some (a, p) => c a p
      | none => false) = true) : ∃ acc p, Hist env0 acc p ∧ c acc p = true := by
  split at h
  · next a p hr => exact ⟨a, p, run_hist .empty hr, h⟩
  · cases h

/-- A history and one more addition exist, such that a computable condition holds. -/
theorem step_ex (bs : List (List FileP)) (b : List FileP)
    (c : List FileP → Pool → Pool → List ErrKind → Bool)
    (h : (match run [] Pool.empty bs with
      | some (a, p) => match buildFiles env0 p b with
        | .ok ⟨q, es⟩ => c a p q es
        | .error _ => false
      | none => false) = true) :
    ∃ acc p q es, Hist env0 acc p ∧ buildFiles env0 p b = .ok ⟨q, es⟩ ∧ c acc p q es = true := by
  split at h
  · next a p hr =>
    split at h
    · next q es hb => exact ⟨a, p, q, es, run_hist .empty hr, hb, h⟩
    · cases h
  · cases h

/-- Run additions of new files that are all accepted. -/
def runNew (p : Pool) : List (List FileP) → Option Pool
  | [] => some p
  | b :: bs =>
    if b.all fun f => (lookupN p.fileNames f.name).isNone then
      match buildFiles env0 p b with
      | .ok ⟨q, []⟩ => runNew q bs
      | _ => none
    else none

theorem runNew_hist : ∀ {bs : List (List FileP)} {acc : List FileP} {p p' : Pool},
    Hist env0 acc p → runNew p bs = some p' → Hist env0 (acc ++ bs.flatten) p'
  | [], acc, p, p', h, hr => by
    simp only [runNew, Option.some.injEq] at hr
    subst hr
    simpa using h
  | b :: bs, acc, p, p', h, hr => by
    simp only [runNew] at hr
    split at hr
    · next hall =>
      split at hr
      · next q hq =>
        have := Hist.accept _ _ _ _ h hq
        rw [List.filter_eq_self.2 (by simpa using hall)] at this
        have := runNew_hist this hr
        rw [List.flatten_cons, ← List.append_assoc]
        exact this
      · cases hr
    · cases hr

theorem new_ex (bs : List (List FileP)) (c : Pool → Bool)
    (h : (match runNew Pool.empty bs with
      | some p => c p
      | none => false) = true) : ∃ p, Hist env0 bs.flatten p ∧ c p = true := by
  split at h
  · next p hr =>
    have := runNew_hist .empty hr
    rw [List.nil_append] at this
    exact ⟨p, this, h⟩
  · cases h

end Verif.Props
