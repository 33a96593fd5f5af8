import Verif.Dyn.Merge
import Verif.Dyn.Observe
/-! Helper lemmas for C04: interleaved packed and unpacked elements. -/
set_option autoImplicit false
namespace Verif.Dyn
open Verif.Wire

/-- One occurrence of a repeated packable field on the wire. -/
inductive Chunk where
  /-- key with the element's wire type, one element. -/
  | one (v : Value)
  /-- length-delimited key, length, elements. -/
  | packed (vs : List Value)

def Chunk.elems : Chunk → List Value
  | .one v => [v]
  | .packed vs => vs

/-- Elements written one after the other. -/
def elemBytes (k : Kind) : List Value → Option Bytes
  | [] => some []
  | v :: r =>
    match scalarEnc k v, elemBytes k r with
    | some a, some b => some (a ++ b)
    | _, _ => none

/-- The wire form of a chunk of field `n` with elements of kind `k`. -/
def Chunk.bytes (n : Nat) (k : Kind) : Chunk → Option Bytes
  | .one v => (scalarEnc k v).map (encodeKey n k.wireType ++ ·)
  | .packed vs => (elemBytes k vs).map
      (fun b => encodeKey n .lengthDelimited ++ (encodeVarint b.length ++ b))

def chunksBytes (n : Nat) (k : Kind) : List Chunk → Option Bytes
  | [] => some []
  | c :: r =>
    match c.bytes n k, chunksBytes n k r with
    | some a, some b => some (a ++ b)
    | _, _ => none

theorem elemBytes_eq {k : Kind} (hk : k.packable = true) : ∀ vs, elemBytes k vs = packedEncAll k vs
  | [] => rfl
  | v :: r => by
    simp only [elemBytes, packedEncAll, elemBytes_eq hk r, packedEnc_eq hk]
    cases scalarEnc k v <;> cases packedEncAll k r <;> rfl

/-- One chunk appends its elements. -/
theorem chunk_step {S : Schema} {d : Nat} {f : FieldDesc} (hf : FieldWf S f) (hL : isList S f = true)
    (hp : f.kind.packable = true) {ws : List Value} (c : Chunk)
    (hc : ∀ v ∈ c.elems, scalarOk f.kind v = true) {b : Bytes} (hb : c.bytes f.number f.kind = some b)
    (hl : b.length < 2 ^ 64) :
    VSteps S d f (.list ws) b (.list (ws ++ c.elems)) := by
  obtain ⟨v0, h0, hv0⟩ := kindDefault_conf hf
  have hk : f.kind.isMessage = false := by
    cases hkk : f.kind <;> rw [hkk] at hp <;> first | rfl | cases hp
  cases c with
  | one v =>
    obtain ⟨p, he, rfl⟩ := Option.map_eq_some_iff.1 hb
    have hs := hc v (by simp [Chunk.elems])
    refine VSteps.single f.kind.wireType_ne_end ?_
    intro t
    have hw : ¬ (f.kind.wireType = .lengthDelimited ∧ f.kind.packable = true) := by
      intro h; cases hkk : f.kind <;> rw [hkk] at h hp <;> simp [Kind.wireType, Kind.packable] at h hp
    have hdec := scalarDec_enc he (fun b hb => by subst hb; exact scalarOk_utf8 hs)
      (by rw [List.length_append] at hl; omega) t
    simp only [valueMerge, hL, if_true, listMerge, h0, if_neg hw]
    rw [singular_scalar hk hv0, hdec]
    rfl
  | packed vs =>
    obtain ⟨p, he, rfl⟩ := Option.map_eq_some_iff.1 hb
    refine VSteps.single (by simp) ?_
    intro t
    rw [elemBytes_eq hp] at he
    simp only [List.length_append] at hl
    have hcv : confVals S f.elem vs = true := (confVals_iff vs).2 (fun v hv =>
      confVal_scalar (f := f.elem) elem_card (hc v hv))
    have hst := packed_steps (nested := nestedAt S d) hp hv0 vs p he (by omega) hcv ws
    have := mergeLoop_of_steps hst (by omega) t
    simp only [valueMerge, hL, if_true, listMerge, h0, hp, and_self]
    rw [List.append_assoc, this]
    rfl

theorem VSteps.trans {S : Schema} {d : Nat} {f : FieldDesc} {a b c : Value} {x y : Bytes}
    (h1 : VSteps S d f a x b) (h2 : VSteps S d f b y c) : VSteps S d f a (x ++ y) c := by
  induction h1 with
  | nil v => simpa using h2
  | cons hw h hs ih => rw [List.append_assoc]; exact VSteps.cons hw h (ih h2)

theorem chunks_steps {S : Schema} {d : Nat} {f : FieldDesc} (hf : FieldWf S f) (hL : isList S f = true)
    (hp : f.kind.packable = true) : ∀ (cs : List Chunk) (ws : List Value),
    (∀ c ∈ cs, ∀ v ∈ c.elems, scalarOk f.kind v = true) → ∀ {b : Bytes},
    chunksBytes f.number f.kind cs = some b → b.length < 2 ^ 64 →
    VSteps S d f (.list ws) b (.list (ws ++ cs.flatMap Chunk.elems)) := by
  intro cs
  induction cs with
  | nil =>
    intro ws _ b hb _
    simp only [chunksBytes, Option.some.injEq] at hb
    subst hb
    simpa using VSteps.nil _
  | cons c r ih =>
    intro ws hc b hb hl
    simp only [chunksBytes] at hb
    split at hb
    · rename_i x y h1 h2
      cases hb
      rw [List.length_append] at hl
      have s1 := chunk_step (d := d) hf hL hp (ws := ws) c (hc c List.mem_cons_self) h1 (by omega)
      have s2 := ih (ws ++ c.elems) (fun c' hc' => hc c' (List.mem_cons_of_mem _ hc')) h2 (by omega)
      simp only [List.flatMap_cons, ← List.append_assoc]
      exact s1.trans s2
    · cases hb

theorem chunksBytes_ne_nil {n : Nat} {k : Kind} {c : Chunk} {r : List Chunk} {b : Bytes}
    (h : chunksBytes n k (c :: r) = some b) : b ≠ [] := by
  simp only [chunksBytes] at h
  split at h
  · rename_i x y h1 h2
    cases h
    cases c with
    | one v =>
      obtain ⟨p, _, rfl⟩ := Option.map_eq_some_iff.1 h1
      simp [encodeKey_ne_nil]
    | packed vs =>
      obtain ⟨p, _, rfl⟩ := Option.map_eq_some_iff.1 h1
      simp [encodeKey_ne_nil]
  · cases h

end Verif.Dyn
