import Verif.Text.ShowTotal
import Verif.Text.RoundAny
import Verif.Dyn.Heft
/-!
Expanding `Any`s ends: the message in an `Any` weighs less than the `Any`.
-/
set_option autoImplicit false
namespace Verif.Text
open Verif.Wire Verif.Dyn Verif.Pool

mutual
theorem keep_heft {B : Nat} : ∀ v : Value, heft v ≤ B → keepVal (fun _ => True) (fun x => heftMsg x ≤ B) v
  | .msg d fs, h => by
    simp only [heft] at h
    simp only [keepVal, heftMsg]
    exact ⟨h, keep_heftSlots fs h⟩
  | .list vs, h => by simp only [heft] at h; simp only [keepVal]; exact keep_heftVals vs h
  | .map kvs, h => by simp only [heft] at h; simp only [keepVal]; exact keep_heftMap kvs h
  | .f32 _, _ | .f64 _, _ | .i32 _, _ | .i64 _, _ | .u32 _, _ | .u64 _, _ | .bool _, _ | .str _, _ | .bytes _, _
  | .enum _, _ => by simp only [keepVal]
theorem keep_heftVals {B : Nat} : ∀ vs : List Value, heftVals vs ≤ B →
    keepVals (fun _ => True) (fun x => heftMsg x ≤ B) vs
  | [], _ => by simp only [keepVals]
  | v :: r, h => by
    simp only [heftVals] at h
    simp only [keepVals]
    exact ⟨keep_heft v (by omega), keep_heftVals r (by omega)⟩
theorem keep_heftMap {B : Nat} : ∀ kvs : List (MapKey × Value), heftMap kvs ≤ B →
    keepMap (fun _ => True) (fun x => heftMsg x ≤ B) kvs
  | [], _ => by simp only [keepMap]
  | (_, v) :: r, h => by
    simp only [heftMap] at h
    simp only [keepMap]
    exact ⟨keep_heft v (by omega), keep_heftMap r (by omega)⟩
theorem keep_heftSlots {B : Nat} : ∀ fs : List (Nat × Slot), heftSlots fs ≤ B →
    keepSlots (fun _ => True) (fun x => heftMsg x ≤ B) fs
  | [], _ => by simp only [keepSlots]
  | (_, .val v) :: r, h => by
    simp only [heftSlots] at h
    simp only [keepSlots]
    exact ⟨keep_heft v (by omega), keep_heftSlots r (by omega)⟩
  | (_, .unknown _) :: r, h | (_, .taken) :: r, h => by
    simp only [heftSlots] at h
    simp only [keepSlots]
    exact keep_heftSlots r (by omega)
end

theorem encodeVarint_short (n : Nat) : (encodeVarint n).length ≤ encodedLenVarint n := by
  by_cases h : n < 2 ^ 64
  · rw [encodedLenVarint_eq h]; omega
  · have h1 := encodeVarint_le n
    have h2 : 64 ≤ Nat.log2 (n ||| 1) := by
      have hle : n ≤ n ||| 1 := Nat.left_le_or
      exact (Nat.le_log2 (by omega)).2 (by omega)
    unfold encodedLenVarint
    omega

/-- What a string or byte string writes. -/
theorem encVal_payload {S : Schema} {f : FieldDesc} (hf : f.number < 2 ^ 29) {v : Value} {b x : Bytes}
    (hv : v = .str x ∨ v = .bytes x) (h : encVal S f v = some b) : b.length ≤ payload f.number v := by
  have key : ∀ c, scalarEnc f.kind v = some c → c.length ≤ encodedLenVarint x.length + x.length := by
    intro c hc
    have := encodeVarint_short x.length
    rcases hv with rfl | rfl <;> cases hk : f.kind <;> rw [hk] at hc <;> simp only [scalarEnc] at hc <;> cases hc <;>
      simp only [List.length_append] <;> omega
  have hp : payload f.number v = keyLen f.number + (encodedLenVarint x.length + x.length) := by
    rcases hv with rfl | rfl <;> rfl
  have h' : unlessDefault S f v [] ((scalarEnc f.kind v).map (encodeKey f.number f.kind.wireType ++ ·)) = some b := by
    rcases hv with rfl | rfl <;> simpa only [encVal] using h
  have body : (scalarEnc f.kind v).map (encodeKey f.number f.kind.wireType ++ ·) = some b →
      b.length ≤ payload f.number v := by
    intro h
    obtain ⟨c, hc, rfl⟩ := Option.map_eq_some_iff.1 h
    have := key c hc
    rw [hp, List.length_append, ← keyLen_eq hf]
    omega
  unfold unlessDefault at h'
  split at h'
  · exact body h'
  · split at h'
    · cases h'
    · cases h'; simp
    · exact body h'

/-- An `Any` of the usual definition writes no more than it weighs. -/
theorem any_enc_heft {S : Schema} (hS : S.wf = true) {d : Nat} {md : MsgDesc} (hd : S.msg? d = some md)
    (hl : anyLike md = true) (hname : md.name = anyName) : ∀ (fs : List (Nat × Slot)),
    (∀ p ∈ fs, confSlot S d p.1 p.2 = true) → ∀ a b, encSlots S d fs = some (a, b) →
      a.length + b.length ≤ heftSlots fs := by
  have hne : ∀ n, S.ext? d n = none := by
    intro n
    rw [ext?_eq hd]
    simp only [anyLike, hname, bne_self_eq_false, Bool.false_or, Bool.and_eq_true, List.isEmpty_iff] at hl
    simp [MsgDesc.getExtension, hl.1.2]
  have hkd : ∀ n f, S.field? d n = some f → f.number = n ∧ f.number < 2 ^ 29 ∧ f.card = .optional ∧
      (f.kind = .string ∨ f.kind = .bytes) := by
    intro n f hf
    have hw := (Schema.wf_field hS hf).1
    rw [field?_eq hd] at hf
    obtain ⟨hmem, hnum⟩ := getField_mem hf
    simp only [anyLike, hname, bne_self_eq_false, Bool.false_or, Bool.and_eq_true] at hl
    obtain ⟨-, hl⟩ := hl
    refine ⟨hnum, hw.num.2, ?_⟩
    split at hl
    · rename_i g1 g2 he
      rw [he] at hmem
      simp only [anyField, Bool.and_eq_true, beq_iff_eq] at hl
      simp only [List.mem_cons, List.not_mem_nil, or_false] at hmem
      rcases hmem with rfl | rfl
      · exact ⟨hl.1.1.1.1.1.1.2, .inl hl.1.1.1.1.1.1.1.2⟩
      · exact ⟨hl.2.1.1.1.1.1.2, .inr hl.2.1.1.1.1.1.1.2⟩
    · cases hl
  intro fs
  induction fs with
  | nil => intro _ a b h; simp only [encSlots] at h; cases h; simp [heftSlots]
  | cons p r ih =>
    obtain ⟨n, s⟩ := p
    intro hc a b h
    have hcr := ih (fun q hq => hc q (List.mem_cons_of_mem _ hq))
    have hcs := hc (n, s) (by simp)
    cases s with
    | taken => simp only [encSlots] at h; simp only [heftSlots]; exact hcr a b h
    | unknown u =>
      simp only [encSlots] at h
      split at h
      · cases h
      · rename_i a' b' hr
        cases h
        have := hcr _ _ hr
        simp only [confSlot, unknownOk, Bool.and_eq_true] at hcs
        have hu := lenUSet_eq u ((Dyn.USet.wf_iff u).1 hcs.2.2)
        simp only [heftSlots, List.length_append]
        omega
    | val v =>
      simp only [encSlots, hne] at h
      cases hf : S.field? d n with
      | none => simp only [confSlot, hf, hne] at hcs; cases hcs
      | some f =>
        obtain ⟨hnum, hlt, hcard, hk⟩ := hkd n f hf
        simp only [confSlot, hf] at hcs
        have hx : ∃ x, v = .str x ∨ v = .bytes x := by
          cases v with
          | str x => exact ⟨x, .inl rfl⟩
          | bytes x => exact ⟨x, .inr rfl⟩
          | msg d fs =>
            simp only [confVal, Bool.and_eq_true, beq_iff_eq] at hcs
            rcases hk with hk | hk <;> rw [hk] at hcs <;> cases hcs.1.2
          | list vs => simp [confVal, isList, hcard] at hcs
          | map kvs => simp [confVal, isMap, hcard] at hcs
          | _ =>
            simp only [confVal, Bool.and_eq_true] at hcs
            rcases hk with hk | hk <;> rw [hk] at hcs <;> simp [scalarOk, Value.isValid] at hcs
        obtain ⟨x, hx⟩ := hx
        rw [hf] at h
        split at h
        · rename_i x' y a' b' hx' hy hr
          cases h
          have h1 := hcr _ _ hr
          have hy : y = [] := by simp only [ifPresent] at hy; cases hy; rfl
          have h2 : x'.length ≤ payload n v := by
            unfold ifPresent at hx'
            simp only at hx'
            split at hx'
            · cases hx'
            · cases hx'; simp
            · have := encVal_payload hlt hx hx'
              rw [hnum] at this
              exact this
          subst hy
          simp only [heftSlots, List.length_append, List.nil_append]
          omega
        · cases h

/-- The message in an `Any` weighs less than the `Any`. -/
theorem asAny_heft {S : Schema} (hS : S.wf = true) (hlike : anysLike S = true) {d : Nat} {md : MsgDesc} {fs : FieldSet}
    (hC : Conf S ⟨d, fs⟩ md) {url : List Char} {body : DynMsg} (ha : asAny S md ⟨d, fs⟩ = some (some (url, body))) :
    heftMsg body < heftMsg ⟨d, fs⟩ := by
  have hmd : S.msg? d = some md := hC.desc
  have hl : anyLike md = true := List.all_eq_true.1 hlike md (List.mem_of_getElem? hmd)
  unfold asAny at ha
  split at ha
  · cases ha
  rename_i hname
  have hname : md.name = anyName := Classical.not_not.1 hname
  split at ha <;> try (cases ha; done)
  rename_i u v ht
  split at ha <;> try (cases ha; done)
  rename_i url' hu
  split at ha <;> try (cases ha; done)
  rename_i n hun
  split at ha <;> try (cases ha; done)
  rename_i i hmn
  split at ha
  · cases ha
  rename_i p hdec
  cases ha
  obtain ⟨pd, hpd⟩ : ∃ pd, S.msg? i = some pd := by
    have := (List.findIdx?_eq_some_iff_getElem.1 hmn).1
    exact ⟨S.msgs[i], by simp [Schema.msg?, this]⟩
  have hb := decode_heft hS hpd hdec
  suffices hv : v.length < heftMsg ⟨d, fs⟩ by omega
  unfold transcodeAny at ht
  split at ht
  · cases ht
  rename_i e he
  have hlen : e.length ≤ heftMsg ⟨d, fs⟩ := by
    unfold encMsg at he
    split at he
    · cases he
    · rename_i a b hab
      cases he
      have := any_enc_heft hS hmd hl hname fs hC.slots a b hab
      simp only [heftMsg, List.length_append]
      omega
  split at ht
  · cases ht
  rename_i a hdec'
  have hw := decode_heft (S := anySchema) (by decide +kernel) (d := 0) rfl hdec'
  have hget : ∀ k x, FieldSet.getValue a.fields k = some x → payload k x ≤ heftMsg a := by
    intro k x hx
    unfold FieldSet.getValue at hx
    split at hx
    · rename_i w hw'
      cases hx
      have := get_heft hw'
      simp only [heftSlot] at this
      simp only [heftMsg]
      omega
    · cases hx
  have hk1 := keyLen_pos 1
  have hk2 := keyLen_pos 2
  split at ht
  · rename_i h2
    cases ht
    have := hget _ _ h2
    simp only [payload] at this
    omega
  · rename_i h1 _
    cases ht
    have := hget _ _ h1
    simp only [payload] at this
    simp only [List.length_nil]
    omega
  · rename_i h2 _
    cases ht
    have := hget _ _ h2
    simp only [payload] at this
    omega
  · cases ht
    have : url = [] := by
      have : utf8Decode [] = some [] := by decide +kernel
      rw [this] at hu
      cases hu
      rfl
    subst this
    simp [urlName] at hun

/-- Every conforming message prints, under all options, with `Any` as in `any.proto`. -/
theorem toText_any {env : TEnv} {S : Schema} {o : FOpts} (hS : S.wf = true) (hlike : anysLike S = true) :
    ∀ (B : Nat) (m : DynMsg), confMsg S m = true → heftMsg m < B →
    (∃ k0, ∀ k, k0 ≤ k → ∃ s, toText env S o k m = some s) ∧ Prints env S o m.toValue none := by
  intro B
  induction B with
  | zero => intro m _ h; omega
  | succ B ih =>
    intro m hm hB
    refine toText_shows (P := fun x => heftMsg x ≤ B) hS ?_ hm (keep_heft _ ?_)
    · intro md d fs url body _ hC hp ha
      have := asAny_heft hS hlike hC ha
      exact (ih body (asAny_conf hS ha) (by omega)).2
    · simp only [DynMsg.toValue, heft]
      simp only [heftMsg] at hB
      omega

/-! ### Values of any shape -/

/-- `HeldIn v w`: `w` is `v`, or in a list or map of `v`; messages are not looked into. -/
inductive HeldIn : Value → Value → Prop
  | self (v : Value) : HeldIn v v
  | list {vs : List Value} {v w : Value} : v ∈ vs → HeldIn v w → HeldIn (.list vs) w
  | map {kvs : List (MapKey × Value)} {p : MapKey × Value} {w : Value} : p ∈ kvs → HeldIn p.2 w → HeldIn (.map kvs) w

/-- A value whose messages conform prints, whatever else it is. -/
theorem value_prints {env : TEnv} {S : Schema} {o : FOpts} (hS : S.wf = true) (hlike : anysLike S = true) :
    ∀ (n : Nat) (v : Value), sizeOf v < n → (∀ d fs, HeldIn v (.msg d fs) → confMsg S ⟨d, fs⟩ = true) →
      Prints env S o v none := by
  intro n
  induction n with
  | zero => intro v h; omega
  | succ n ih =>
    intro v hn hv
    cases v with
    | msg d fs => exact (toText_any hS hlike _ ⟨d, fs⟩ (hv d fs (.self _)) (Nat.lt_succ_self _)).2
    | list vs =>
      obtain ⟨a, ha⟩ := uniform (xs := vs)
        (G := fun k v => ∀ ind, ∃ s, fmtVal env S o k ind v none = some s) (fun v hvm => by
          have := List.sizeOf_lt_of_mem hvm
          simp only [Value.list.sizeOf_spec] at hn
          exact ih v (by omega) (fun d fs h => hv d fs (.list hvm h)))
      refine Prints.step ⟨a, fun k hk ind => ?_⟩
      simp only [fmtVal, fmtList]
      obtain ⟨ss, hss⟩ := fmtAll_total (f := fun v => fmtVal env S o k ind v none) (xs := vs)
        (fun v hvm => ha k hk v hvm ind)
      exact ⟨_, by rw [hss]; rfl⟩
    | map kvs =>
      obtain ⟨a, ha⟩ := uniform (xs := kvs)
        (G := fun k p => ∀ ind, ∃ s, fmtVal env S o k ind p.2 none = some s) (fun p hp => by
          have := List.sizeOf_lt_of_mem hp
          have h2 : sizeOf p.2 < sizeOf p := by cases p; simp only [Prod.mk.sizeOf_spec]; omega
          simp only [Value.map.sizeOf_spec] at hn
          exact ih p.2 (by omega) (fun d fs h => hv d fs (.map hp h)))
      refine Prints.step ⟨a, fun k hk ind => ?_⟩
      simp only [fmtVal, mapValueKind, fmtList]
      obtain ⟨ss, hss⟩ := fmtAll_total (f := fmtEntry o ind (fun ind v => fmtVal env S o k ind v none))
        (xs := kvs) (by
        intro p hp
        obtain ⟨key, v⟩ := p
        have hval := ha k hk _ hp
        simp only [fmtEntry]
        split
        · obtain ⟨s, hs⟩ := hval (ind + 2)
          exact ⟨_, by rw [hs]; rfl⟩
        · obtain ⟨s, hs⟩ := hval ind
          exact ⟨_, by rw [hs]; rfl⟩)
      exact ⟨_, by rw [hss]; rfl⟩
    | _ => exact Prints.step ⟨0, fun k _ ind => ⟨_, rfl⟩⟩

end Verif.Text
