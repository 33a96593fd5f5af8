import Verif.Dyn.FieldLemmas
/-!
A bound on the size of the encoding of a message.
-/
set_option autoImplicit false
namespace Verif.Dyn
open Verif.Wire

theorem encodeVarintAux_le : (k n : Nat) → (encodeVarintAux k n).length ≤ k
  | 0, _ => by simp [encodeVarintAux]
  | k + 1, n => by
    unfold encodeVarintAux
    split
    · simp
    · have := encodeVarintAux_le k (n / 128)
      simp only [List.length_cons]
      omega

theorem encodeVarint_le (n : Nat) : (encodeVarint n).length ≤ 10 := encodeVarintAux_le 10 n
theorem encodeKey_le (n : Nat) (w : WireType) : (encodeKey n w).length ≤ 10 := encodeVarint_le _

/-- The bytes in a string or byte string. -/
def textLen : Value → Nat
  | .str b | .bytes b => b.length
  | _ => 0

theorem scalarEnc_le {k : Kind} {v : Value} {b : Bytes} (h : scalarEnc k v = some b) : b.length ≤ 10 + textLen v := by
  unfold scalarEnc at h
  split at h <;> cases h
  all_goals simp only [textLen, List.length_append, putLE_length]
  all_goals first | omega | exact encodeVarint_le _ | exact Nat.add_le_add_right (encodeVarint_le _) _

theorem packedEnc_le {k : Kind} {v : Value} {b : Bytes} (h : packedEnc k v = some b) : b.length ≤ 10 := by
  unfold packedEnc at h
  split at h <;> cases h
  all_goals first | exact encodeVarint_le _ | (rw [putLE_length]; omega)

mutual
/-- A bound on the bytes a value takes, key included. -/
def weightVal : Value → Nat
  | .msg _ fs => 30 + weightSlots fs
  | .list vs => 20 + weightVals vs
  | .map kvs => weightMap kvs
  | .str b => 20 + b.length
  | .bytes b => 20 + b.length
  | _ => 20
def weightVals : List Value → Nat
  | [] => 0
  | v :: r => weightVal v + weightVals r
def weightMap : List (MapKey × Value) → Nat
  | [] => 0
  | (k, v) :: r => 40 + textLen k.toValue + weightVal v + weightMap r
def weightSlots : List (Nat × Slot) → Nat
  | [] => 0
  | (_, .taken) :: r => weightSlots r
  | (_, .unknown u) :: r => (encUSet u).length + weightSlots r
  | (_, .val v) :: r => weightVal v + weightSlots r
end

theorem unlessDefault_le {S : Schema} {f : FieldDesc} {v : Value} {k : Option Bytes} {b : Bytes} {n : Nat}
    (h : unlessDefault S f v [] k = some b) (hk : ∀ c, k = some c → c.length ≤ n) : b.length ≤ n := by
  unfold unlessDefault at h
  split at h
  · exact hk b h
  · split at h
    · cases h
    · cases h; simp
    · exact hk b h

theorem scalarVal_le {S : Schema} {f : FieldDesc} {v : Value} {b : Bytes}
    (h : unlessDefault S f v [] ((scalarEnc f.kind v).map (encodeKey f.number f.kind.wireType ++ ·)) = some b) :
    b.length ≤ 20 + textLen v := by
  refine unlessDefault_le h (fun c hc => ?_)
  obtain ⟨x, hx, rfl⟩ := Option.map_eq_some_iff.1 hc
  have h1 := scalarEnc_le hx
  have h2 := encodeKey_le f.number f.kind.wireType
  simp only [List.length_append]
  omega

theorem encKey_le {f : FieldDesc} {k : MapKey} {b : Bytes} (h : encKey f k = some b) : b.length ≤ 20 + textLen k.toValue := by
  have main : ∀ {b}, (scalarEnc f.kind k.toValue).map (encodeKey f.number f.kind.wireType ++ ·) = some b →
      b.length ≤ 20 + textLen k.toValue := by
    intro b hb
    obtain ⟨x, hx, rfl⟩ := Option.map_eq_some_iff.1 hb
    have h1 := scalarEnc_le hx
    have h2 := encodeKey_le f.number f.kind.wireType
    simp only [List.length_append]
    omega
  unfold encKey at h
  simp only at h
  split at h
  · exact main h
  · split at h
    · cases h
    · split at h
      · cases h; simp
      · exact main h

theorem packed_le {k : Kind} : (vs : List Value) → {b : Bytes} → packedEncAll k vs = some b → b.length ≤ weightVals vs
  | [], b, h => by cases h; simp
  | v :: r, b, h => by
    simp only [packedEncAll] at h
    split at h
    · rename_i a c h1 h2
      cases h
      have h3 := packedEnc_le h1
      have h4 := packed_le r h2
      have h5 : 10 ≤ weightVal v := by
        unfold packedEnc at h1
        split at h1 <;> cases h1 <;> simp [weightVal]
      simp only [List.length_append, weightVals]
      omega
    · cases h

mutual
theorem encVal_le {S : Schema} (hS : S.wf = true) : (v : Value) → {f : FieldDesc} → {b : Bytes} → encVal S f v = some b →
    b.length ≤ weightVal v
  | .msg d fs, f, b, h => by
    simp only [encVal] at h
    refine unlessDefault_le h (fun c hc => ?_)
    split at hc
    · split at hc
      · cases hc
      · rename_i a e he
        have ih := encSlots_le hS fs he
        simp only at ih
        simp only [weightVal]
        split at hc
        · cases hc
          have h1 := encodeKey_le f.number .startGroup
          have h2 := encodeKey_le f.number .endGroup
          simp only [List.length_append]
          omega
        · split at hc
          · cases hc
          · rename_i l hl
            cases hc
            have h1 := encodeKey_le f.number .lengthDelimited
            have h2 := encodeVarint_le l
            simp only [List.length_append]
            omega
    · cases hc
  | .list vs, f, b, h => by
    simp only [encVal] at h
    refine unlessDefault_le h (fun c hc => ?_)
    simp only [weightVal]
    split at hc
    · split at hc
      · unfold encPackedList at hc
        split at hc
        · split at hc
          · rename_i l e h1 h2
            cases hc
            have h3 := packed_le vs h2
            have h4 := encodeKey_le f.number .lengthDelimited
            have h5 := encodeVarint_le l
            simp only [List.length_append]
            omega
          · cases hc
        · cases hc
      · have := encVals_le hS vs hc
        omega
    · cases hc
  | .map kvs, f, b, h => by
    simp only [encVal] at h
    refine unlessDefault_le h (fun c hc => ?_)
    simp only [weightVal]
    split at hc
    · split at hc
      · split at hc
        · cases hc
        · exact encMap_le hS kvs hc
      · cases hc
    · cases hc
  | .str x, f, b, h => scalarVal_le (v := .str x) h
  | .bytes x, f, b, h => scalarVal_le (v := .bytes x) h
  | .bool x, f, b, h => scalarVal_le (v := .bool x) h
  | .i32 x, f, b, h => scalarVal_le (v := .i32 x) h
  | .i64 x, f, b, h => scalarVal_le (v := .i64 x) h
  | .u32 x, f, b, h => scalarVal_le (v := .u32 x) h
  | .u64 x, f, b, h => scalarVal_le (v := .u64 x) h
  | .f32 x, f, b, h => scalarVal_le (v := .f32 x) h
  | .f64 x, f, b, h => scalarVal_le (v := .f64 x) h
  | .enum x, f, b, h => scalarVal_le (v := .enum x) h
theorem encVals_le {S : Schema} (hS : S.wf = true) : (vs : List Value) → {f : FieldDesc} → {b : Bytes} →
    encVals S f vs = some b → b.length ≤ weightVals vs
  | [], f, b, h => by cases h; simp
  | v :: r, f, b, h => by
    simp only [encVals] at h
    split at h
    · rename_i a c h1 h2
      cases h
      have h3 := encVal_le hS v h1
      have h4 := encVals_le hS r h2
      simp only [List.length_append, weightVals]
      omega
    · cases h
theorem encMap_le {S : Schema} (hS : S.wf = true) : (kvs : List (MapKey × Value)) → {n : Nat} → {kd vd : FieldDesc} → {b : Bytes} →
    encMapEntries S n kd vd kvs = some b → b.length ≤ weightMap kvs
  | [], n, kd, vd, b, h => by cases h; simp
  | (k, v) :: r, n, kd, vd, b, h => by
    simp only [encMapEntries] at h
    split at h
    · rename_i la lb a c e h1 h2 h3 h4 h5
      cases h
      have g1 := encKey_le h3
      have g2 := encVal_le hS v h4
      have g3 := encMap_le hS r h5
      have g4 := encodeKey_le n .lengthDelimited
      have g5 := encodeVarint_le (la + lb)
      simp only [List.length_append, weightMap]
      omega
    · cases h
theorem encSlots_le {S : Schema} (hS : S.wf = true) : (fs : List (Nat × Slot)) → {d : Nat} → {p : Bytes × Bytes} →
    encSlots S d fs = some p → p.1.length + p.2.length ≤ weightSlots fs
  | [], d, p, h => by cases h; simp
  | (k, .taken) :: r, d, p, h => by
    simp only [encSlots] at h
    exact encSlots_le hS r h
  | (k, .unknown u) :: r, d, p, h => by
    simp only [encSlots] at h
    split at h
    · cases h
    · rename_i a b he
      cases h
      have := encSlots_le hS r he
      simp only [List.length_append, weightSlots]
      simp only at this
      omega
  | (k, .val v) :: r, d, p, h => by
    simp only [encSlots] at h
    have one : ∀ {o : Option FieldDesc} {a : Bytes}, ifPresent S o v [] (fun f => encVal S f v) = some a →
        a.length ≤ weightVal v := by
      intro o a ha
      unfold ifPresent at ha
      split at ha
      · cases ha; simp
      · split at ha
        · cases ha
        · cases ha; simp
        · exact encVal_le hS v ha
    split at h
    · rename_i a b q1 q2 h1 h2 h3
      cases h
      have h6 := encSlots_le hS r h3
      have h45 : a.length + b.length ≤ weightVal v := by
        have g1 := one h1
        have g2 := one h2
        have : a = [] ∨ b = [] := by
          cases hd : S.msg? d with
          | none =>
            left
            simp only [Schema.field?, hd, ifPresent] at h1
            cases h1; rfl
          | some md =>
            rw [field?_eq hd] at h1
            rw [ext?_eq hd] at h2
            cases he : md.getExtension k with
            | none => right; rw [he] at h2; cases h2; rfl
            | some f =>
              left
              obtain ⟨hmem, hn⟩ := getExtension_mem he
              have := ((Schema.wf_msg hS hd).extNew f hmem).1
              rw [hn] at this
              rw [this] at h1; cases h1; rfl
        rcases this with rfl | rfl
        · simpa using g2
        · simpa using g1
      simp only [List.length_append, weightSlots] at h6 ⊢
      omega
    · cases h
end

/-- The encoding is no larger than the weight. -/
theorem encMsg_le {S : Schema} (hS : S.wf = true) {m : DynMsg} {b : Bytes} (h : encMsg S m = some b) :
    b.length ≤ weightSlots m.fields := by
  unfold encMsg at h
  split at h
  · cases h
  · rename_i a c he
    cases h
    have := encSlots_le hS _ he
    simpa only [List.length_append] using this

end Verif.Dyn
