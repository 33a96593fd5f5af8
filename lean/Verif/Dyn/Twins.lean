import Verif.Dyn.AsUnknown
/-!
Fields that a message type cannot tell apart: merging one or the other gives the same message.
-/
set_option autoImplicit false
namespace Verif.Dyn
open Verif.Wire

/-- Two runs that succeed alike. -/
def RanAlike {α : Type} (a b : R (α × Bytes)) : Prop := ∀ c r, a = .ok (c, r) ↔ b = .ok (c, r)

theorem RanAlike.refl {α : Type} (a : R (α × Bytes)) : RanAlike a a := fun _ _ => Iff.rfl

theorem RanAlike.of_eq {α : Type} {a b : R (α × Bytes)} (h : a = b) : RanAlike a b := h ▸ .refl a

theorem RanAlike.mapV {α β : Type} {a b : R (α × Bytes)} (h : RanAlike a b) (g : α → β) :
    RanAlike (Wire.mapV g a) (Wire.mapV g b) := by
  intro c r
  constructor
  · intro e
    obtain ⟨v, hv, rfl⟩ := mapV_ok e
    rw [(h _ _).1 hv]; rfl
  · intro e
    obtain ⟨v, hv, rfl⟩ := mapV_ok e
    rw [(h _ _).2 hv]; rfl

/-- Fields that do the same to a message of type `i`. -/
def StepAlike (S : Schema) (D i : Nat) (p q : Nat × UVal) : Prop :=
  ∀ m, confMsg S m = true → m.desc = i → ∀ m', stepU S D m p = .ok m' ↔ stepU S D m q = .ok m'

/-- Sequences of fields that do the same to a message of type `i`. -/
def RunAlike (S : Schema) (D i : Nat) (x y : USet) : Prop :=
  ∀ m, confMsg S m = true → m.desc = i → ∀ m', runU S D m x = .ok m' ↔ runU S D m y = .ok m'

theorem RunAlike.trans {S : Schema} {D i : Nat} {x y z : USet} (h : RunAlike S D i x y)
    (h' : RunAlike S D i y z) : RunAlike S D i x z :=
  fun m hm hi m' => (h m hm hi m').trans (h' m hm hi m')

theorem RunAlike.cons {S : Schema} (hS : S.wf = true) {D i : Nat} {p q : Nat × UVal} {x y : USet}
    (hp : ValidNumber p.1) (hpq : StepAlike S D i p q) (h : RunAlike S D i x y) :
    RunAlike S D i (p :: x) (q :: y) := by
  intro m hm hi m'
  simp only [runU]
  constructor
  · intro e
    split at e
    · cases e
    · next m1 h1 =>
      have hc := step_conf hS hm hp h1
      rw [(hpq m hm hi m1).1 h1]
      exact (h m1 hc.1 (hc.2.trans hi) m').1 e
  · intro e
    split at e
    · cases e
    · next m1 h1 =>
      have h2 := (hpq m hm hi m1).2 h1
      have hc := step_conf hS hm hp h2
      rw [h2]
      exact (h m1 hc.1 (hc.2.trans hi) m').2 e

/-- Nested fields as delimited bytes. -/
theorem len_merge {S : Schema} (hS : S.wf = true) {D : Nat} {m m' : DynMsg} {p r : Bytes} {x : USet}
    (hm : confMsg S m = true) (hp : Parsed D p x) (hx : DelimitedAll S m.desc x) (hl : p.length < 2 ^ 64) :
    mergeLoop (keyThen (msgMerge S D)) m (encodeVarint p.length ++ p) = .ok (m', r) ↔
      r = [] ∧ runU S D m x = .ok m' := by
  unfold mergeLoop
  rw [decode_encode_varint hl]
  simp only [Nat.lt_irrefl, gt_iff_lt, if_false, Nat.sub_self]
  constructor
  · intro h
    split at h
    · cases h
    · next m1 r1 h1 =>
      split at h
      · cases h
      · next hr =>
        cases h
        exact ⟨List.length_eq_zero_iff.1 (by simpa using hr), run_of_loop hS hp _ hm hx h1⟩
  · rintro ⟨rfl, h⟩
    rw [loop_of_run hS hp _ (Nat.lt_succ_self _) hm hx h]
    simp

/-- Nested fields as a group. -/
theorem group_merge {S : Schema} (hS : S.wf = true) {D n : Nat} (hn : ValidNumber n) {m' : DynMsg} {r : Bytes} :
    ∀ (x : USet) {m : DynMsg} (k : Nat), confMsg S m = true →
    (∀ p ∈ x, ValidNumber p.1 ∧ p.2.Wf ∧ p.2.depth ≤ D) → DelimitedAll S m.desc x →
    (encUSet x ++ encodeKey n .endGroup).length < k →
    (groupLoop n (msgMerge S D) k m (encUSet x ++ encodeKey n .endGroup) = .ok (m', r) ↔
      r = [] ∧ runU S D m x = .ok m')
  | _, _, 0, _, _, _, hk => by omega
  | [], m, k + 1, hm, hx, hd, hk => by
    have := decode_encode_key hn.1 hn.2 .endGroup []
    rw [List.append_nil] at this
    simp only [encUSet, List.nil_append, groupLoop, this, if_true, ne_eq, not_true_eq_false, if_false,
      Except.ok.injEq, Prod.mk.injEq, runU]
    constructor
    · rintro ⟨h1, h2⟩; exact ⟨h2.symm, h1⟩
    · rintro ⟨h1, h2⟩; exact ⟨h2, h1.symm⟩
  | (j, u) :: x, m, k + 1, hm, hx, hd, hk => by
    obtain ⟨a1, a2, a3⟩ := hx (j, u) List.mem_cons_self
    simp only [DelimitedAll] at hd
    have hkey := decode_encode_key a1.1 a1.2 u.wireType (uPayload j u ++ (encUSet x ++ encodeKey n .endGroup))
    have hpay := decUVal_payload u D j (encUSet x ++ encodeKey n .endGroup) a3 a2 a1
    simp only [encUSet, encUVal_eq, List.append_assoc, List.length_append] at hk ⊢
    simp only [groupLoop, hkey, if_neg (UVal.wireType_ne_end u), runU]
    constructor
    · intro h
      split at h
      · cases h
      · next m1 b1 h1 =>
        obtain ⟨rfl, h2⟩ := step_of_merge hS hm a1.1 a1.2 hpay hd.1 h1
        have hc := step_conf hS hm a1 h2
        rw [h2]
        exact (group_merge hS hn x k hc.1 (fun p hp => hx p (List.mem_cons_of_mem _ hp))
          (by rw [hc.2]; exact hd.2) (by simp only [List.length_append]; have := List.length_pos_iff.2 (encodeKey_ne_nil j u.wireType); omega)).1 h
    · rintro ⟨h0, h⟩
      split at h
      · cases h
      · next m1 h1 =>
        have hc := step_conf hS hm a1 h1
        rw [merge_of_step hS hm a1.1 a1.2 hpay hd.1 h1]
        exact (group_merge hS hn x k hc.1 (fun p hp => hx p (List.mem_cons_of_mem _ hp))
          (by rw [hc.2]; exact hd.2) (by simp only [List.length_append]; have := List.length_pos_iff.2 (encodeKey_ne_nil j u.wireType); omega)).2 ⟨h0, h⟩

/-- Two values for field `f` that its type cannot tell apart. -/
structure Twin (S : Schema) (f : FieldDesc) (k : Nat) (u v : UVal) : Prop where
  wf : u.Wf ∧ v.Wf
  depth : u.depth ≤ k ∧ v.depth ≤ k
  fine : Fine S f u ∧ Fine S f v
  wire : v.wireType = u.wireType
  len : ∀ n, (uPayload n v).length = (uPayload n u).length
  alike : ∀ D, k ≤ D → ∀ w, confVal S f w = true →
    RanAlike (valueMerge S D (nestedAt S D) f w u.wireType (uPayload f.number u))
      (valueMerge S D (nestedAt S D) f w v.wireType (uPayload f.number v))

theorem Twin.refl {S : Schema} {f : FieldDesc} {k : Nat} {u : UVal} (hw : u.Wf) (hd : u.depth ≤ k)
    (hf : Fine S f u) : Twin S f k u u :=
  ⟨⟨hw, hw⟩, ⟨hd, hd⟩, ⟨hf, hf⟩, rfl, fun _ => rfl, fun _ _ _ _ => .refl _⟩

theorem Twin.mono {S : Schema} {f : FieldDesc} {k k' : Nat} {u v : UVal} (h : Twin S f k u v) (hk : k ≤ k') :
    Twin S f k' u v :=
  ⟨h.wf, ⟨Nat.le_trans h.depth.1 hk, Nat.le_trans h.depth.2 hk⟩, h.fine, h.wire, h.len,
    fun D hD => h.alike D (Nat.le_trans hk hD)⟩

/-- A field that is no map takes both alike if its messages do. -/
theorem value_alike {S : Schema} {f : FieldDesc} (hf : FieldWf S f) {j D : Nat}
    (hk : f.kind = .message j) (hm : isMap S f = false) {w w' : WireType} {b b' : Bytes}
    (h : ∀ fs, confMsg S ⟨j, fs⟩ = true → RanAlike (singularMerge (nestedAt S D) f (.msg j fs) w b)
      (singularMerge (nestedAt S D) f (.msg j fs) w' b')) {v : Value} (hv : confVal S f v = true) :
    RanAlike (valueMerge S D (nestedAt S D) f v w b) (valueMerge S D (nestedAt S D) f v w' b') := by
  have hpk : f.kind.packable = false := by rw [hk]; rfl
  cases v with
  | list vs =>
    simp only [valueMerge]
    split
    · refine RanAlike.mapV ?_ _
      unfold listMerge
      have h0 : kindDefault S f.kind = some (.msg j []) := by rw [hk]; rfl
      simp only [h0, hpk, Bool.false_eq_true, and_false, if_false]
      refine RanAlike.mapV (h [] ?_) _
      obtain ⟨v1, hk1, hc0⟩ := kindDefault_conf hf
      rw [h0] at hk1
      cases hk1
      exact (confMsg_of_confVal hc0).2.2
    · exact .refl _
  | map kvs =>
    simp only [confVal, hm, Bool.false_and, Bool.false_eq_true] at hv
  | msg i fs =>
    obtain ⟨-, h2, h3⟩ := confMsg_of_confVal hv
    rw [hk] at h2
    cases h2
    simpa only [valueMerge] using h fs h3
  | _ =>
    simp only [confVal, hk, Bool.and_eq_true] at hv
    exact absurd hv.2 (by simp [scalarOk])

theorem uset_wf {x : USet} {D : Nat} (h : ∀ p ∈ x, ValidNumber p.1 ∧ p.2.Wf ∧ p.2.depth ≤ D) :
    (UVal.group x).Wf := by
  simp only [UVal.Wf]
  exact (Wire.USet.wf_iff _).2 (fun p hp => ⟨(h p hp).1, (h p hp).2.1⟩)

/-- Nested messages whose fields do the same. -/
theorem Twin.msg {S : Schema} (hS : S.wf = true) {f : FieldDesc} (hf : FieldWf S f) {j k : Nat}
    (hk : f.kind = .message j) (hm : isMap S f = false) {x y : USet}
    (hx : ∀ p ∈ x, ValidNumber p.1 ∧ p.2.Wf ∧ p.2.depth ≤ k)
    (hy : ∀ p ∈ y, ValidNumber p.1 ∧ p.2.Wf ∧ p.2.depth ≤ k) (hdx : DelimitedAll S j x)
    (hdy : DelimitedAll S j y) (hlen : (encUSet y).length = (encUSet x).length)
    (hl : (encUSet x).length < 2 ^ 64) (h : ∀ D, k ≤ D → RunAlike S D j x y) :
    Twin S f (1 + k) (if f.group then .group x else .len (encUSet x))
      (if f.group then .group y else .len (encUSet y)) := by
  have hno : isMap S f = true → False := fun e => Bool.false_ne_true (hm.symm.trans e)
  by_cases hg : f.group = true
  · simp only [hg, if_true]
    refine ⟨⟨uset_wf hx, uset_wf hy⟩, ?_, ⟨⟨fun e => (hno e).elim, ?_⟩, ⟨fun e => (hno e).elim, ?_⟩⟩, rfl, ?_, ?_⟩
    · have h1 := (USet.depth_le x).2 (fun p hp => (hx p hp).2.2)
      have h2 := (USet.depth_le y).2 (fun p hp => (hy p hp).2.2)
      simp only [UVal.depth]; omega
    · intro us i e hi; cases e; rw [hk] at hi; cases hi; exact hdx
    · intro us i e hi; cases e; rw [hk] at hi; cases hi; exact hdy
    · intro n; simp only [uPayload, List.length_append, hlen]
    · intro D hD w hw
      refine value_alike hf hk hm (fun fs hfs => ?_) hw
      obtain ⟨D', rfl⟩ : ∃ D', D = D' + 1 := ⟨D - 1, by omega⟩
      simp only [singularMerge, hk, hg, if_true, UVal.wireType, uPayload]
      refine RanAlike.mapV ?_ _
      intro c r
      simp only [groupMerge, ne_eq, not_true_eq_false, if_false, nestedAt]
      have mono : ∀ {z : USet}, (∀ p ∈ z, ValidNumber p.1 ∧ p.2.Wf ∧ p.2.depth ≤ k) →
          ∀ p ∈ z, ValidNumber p.1 ∧ p.2.Wf ∧ p.2.depth ≤ D' := fun hz p hp =>
        ⟨(hz p hp).1, (hz p hp).2.1, Nat.le_trans (hz p hp).2.2 (by omega)⟩
      rw [group_merge hS hf.num x _ hfs (mono hx) hdx (Nat.lt_succ_self _),
        group_merge hS hf.num y _ hfs (mono hy) hdy (Nat.lt_succ_self _), h D' (by omega) _ hfs rfl]
  · simp only [hg, Bool.false_eq_true, if_false]
    refine ⟨⟨by simpa [UVal.Wf] using hl, by simpa [UVal.Wf, hlen] using hl⟩, by simp [UVal.depth],
      ⟨⟨fun e => (hno e).elim, nofun⟩, ⟨fun e => (hno e).elim, nofun⟩⟩, rfl, ?_, ?_⟩
    · intro n; simp only [uPayload, List.length_append, hlen]
    · intro D hD w hw
      refine value_alike hf hk hm (fun fs hfs => ?_) hw
      obtain ⟨D', rfl⟩ : ∃ D', D = D' + 1 := ⟨D - 1, by omega⟩
      simp only [singularMerge, hk, hg, Bool.false_eq_true, if_false, UVal.wireType, uPayload]
      refine RanAlike.mapV ?_ _
      intro c r
      simp only [messageMerge, ne_eq, not_true_eq_false, if_false, nestedAt]
      have mono : ∀ {z : USet}, (∀ p ∈ z, ValidNumber p.1 ∧ p.2.Wf ∧ p.2.depth ≤ k) →
          ∀ p ∈ z, ValidNumber p.1 ∧ p.2.Wf ∧ p.2.depth ≤ D' := fun hz p hp =>
        ⟨(hz p hp).1, (hz p hp).2.1, Nat.le_trans (hz p hp).2.2 (by omega)⟩
      rw [len_merge hS hfs (parsed_enc x (mono hx)) hdx hl,
        len_merge hS hfs (parsed_enc y (mono hy)) hdy (by rw [hlen]; exact hl), h D' (by omega) _ hfs rfl]

theorem loop_alike {σ : Type} {body : σ → Bytes → R (σ × Bytes)} {st : σ} {b b' : Bytes}
    (hlen : b'.length = b.length) (h : RanAlike (body st b) (body st b')) :
    ∀ k, RanAlike (loopTo 0 body k st b) (loopTo 0 body k st b')
  | 0 => .of_eq rfl
  | k + 1 => by
    simp only [loopTo, hlen]
    split
    · next h0 =>
      have e1 : b = [] := List.length_eq_zero_iff.1 (by omega)
      have e2 : b' = [] := List.length_eq_zero_iff.1 (by omega)
      rw [e1, e2]
      exact .refl _
    · intro c r
      constructor
      · intro e
        split at e
        · cases e
        · next s1 b1 h1 => rw [(h _ _).1 h1]; exact e
      · intro e
        split at e
        · cases e
        · next s1 b1 h1 => rw [(h _ _).2 h1]; exact e

theorem steps_alike {σ : Type} {body : σ → Bytes → R (σ × Bytes)} {st st' : σ} {a b b' : Bytes}
    (hs : Steps body st a st') (h : ∀ k, RanAlike (loopTo 0 body k st' b) (loopTo 0 body k st' b')) :
    ∀ k, RanAlike (loopTo 0 body k st (a ++ b)) (loopTo 0 body k st (a ++ b')) := by
  induction hs with
  | nil => exact h
  | @cons st st1 st2 c c' hne hb hs ih =>
    intro k
    cases k with
    | zero => exact .of_eq rfl
    | succ k =>
      have hp : 0 < c.length := List.length_pos_iff.2 hne
      simp only [loopTo, List.append_assoc, hb]
      rw [if_neg (by simp only [List.length_append]; omega), if_neg (by simp only [List.length_append]; omega)]
      exact ih h k

theorem uPayload_len (n : Nat) (b : Bytes) : uPayload n (.len b) = encodeVarint b.length ++ b := rfl

/-- Entries of a map with the same key and values that the value field cannot tell apart. -/
theorem Twin.entry {S : Schema} (hS : S.wf = true) {f kd vd : FieldDesc} {i k : Nat} (hk : f.kind = .message i)
    (hm : isMap S f = true) (hkv : S.mapKV i = some (kd, vd)) {key : MapKey} {a : Bytes}
    (hkey : keyOk kd.kind key = true) (ha : encKey kd key = some a) {u v : UVal} (h : Twin S vd k u v)
    (hl : (a ++ (encodeKey 2 u.wireType ++ uPayload 2 u)).length < 2 ^ 64) :
    Twin S f k (.len (a ++ (encodeKey 2 u.wireType ++ uPayload 2 u)))
      (.len (a ++ (encodeKey 2 v.wireType ++ uPayload 2 v))) := by
  have hmi : S.isMapEntry i = true := by
    unfold isMap at hm
    simp only [hk, Bool.and_eq_true] at hm
    exact hm.2
  obtain ⟨kd', vd', hE⟩ := Schema.wf_entry hS hmi
  have := hE.kv
  rw [hkv] at this
  cases this
  have hlen : (a ++ (encodeKey 2 v.wireType ++ uPayload 2 v)).length =
      (a ++ (encodeKey 2 u.wireType ++ uPayload 2 u)).length := by
    simp only [List.length_append, h.wire, h.len]
  refine ⟨⟨by simpa [UVal.Wf] using hl, by simpa only [UVal.Wf, hlen] using hl⟩, by simp [UVal.depth],
    ⟨⟨fun _ => ⟨_, rfl⟩, nofun⟩, ⟨fun _ => ⟨_, rfl⟩, nofun⟩⟩, rfl, ?_, ?_⟩
  · intro n; simp only [uPayload_len, List.length_append, h.wire, h.len]
  · intro D hD w hw
    obtain ⟨kvs, rfl⟩ := isMap_value hw hm
    simp only [valueMerge, hk, hm, if_true]
    refine RanAlike.mapV ?_ _
    unfold mapMerge
    simp only [hkv]
    obtain ⟨k0, hk0⟩ := hE.key.2.2.2
    obtain ⟨v0, hv0, hc0⟩ := fieldDefault_conf hS hE.val.1
    simp only [hk0, hv0]
    refine RanAlike.mapV ?_ _
    simp only [uPayload_len]
    unfold mergeLoop
    rw [decode_encode_varint hl, decode_encode_varint (by rw [hlen]; exact hl)]
    simp only [Nat.lt_irrefl, gt_iff_lt, if_false, Nat.sub_self, hlen]
    have hnum : vd.number = 2 := hE.val.2.1
    have hcard := hE.val.2.2
    have key2 : ∀ w0, confVal S vd w0 = true → ∀ wt b,
        entryValueMerge S (nestedAt S D) vd w0 wt b = valueMerge S D (nestedAt S D) vd w0 wt b := by
      intro w0 hw0 wt b
      cases w0 with
      | list vs => simp only [confVal, isList, Bool.and_eq_true, beq_iff_eq] at hw0; exact absurd hw0.1.1 hcard
      | map vs => simp only [confVal, isMap, Bool.and_eq_true, beq_iff_eq] at hw0; exact absurd hw0.1.1 hcard
      | _ => rfl
    have body : RanAlike
        (keyThen (entryField S D (nestedAt S D) kd vd) (key, v0) (encodeKey 2 u.wireType ++ uPayload 2 u))
        (keyThen (entryField S D (nestedAt S D) kd vd) (key, v0) (encodeKey 2 v.wireType ++ uPayload 2 v)) := by
      simp only [keyThen, decode_encode_key (n := 2) (by omega) (by omega), entryField,
        show ¬ (2 : Nat) = 1 by omega, if_false, if_true]
      refine RanAlike.mapV ?_ _
      rw [key2 v0 hc0, key2 v0 hc0]
      have := h.alike D hD v0 hc0
      rw [hnum] at this
      exact this
    have loop := steps_alike (encKey_steps (d := D) hE hk0 hkey ha (by simp only [List.length_append] at hl; omega) v0).toSteps
      (loop_alike (by simp only [List.length_append, h.wire, h.len]) body)
      ((a ++ (encodeKey 2 u.wireType ++ uPayload 2 u)).length + 1)
    intro c r
    constructor
    · intro e
      split at e
      · cases e
      · next s1 b1 h1 => rw [(loop _ _).1 h1]; exact e
    · intro e
      split at e
      · cases e
      · next s1 b1 h1 => rw [(loop _ _).2 h1]; exact e

/-- What holds for the values holds for the fields. -/
theorem Twin.step {S : Schema} (hS : S.wf = true) {i : Nat} {f : FieldDesc} (hk : Known S i f) {k D : Nat}
    {u v : UVal} (h : Twin S f k u v) (hD : k ≤ D) : StepAlike S D i (f.number, u) (f.number, v) := by
  intro m hm hi m'
  subst hi
  obtain ⟨md, hC⟩ := confMsg_iff.1 hm
  have hw := Schema.wf_msg hS hC.desc
  have go : ∀ w : Value, confVal S f w = true → ∀ g : Value → DynMsg,
      (∀ wt b, msgMerge S D m f.number wt b = mapV g (valueMerge S D (nestedAt S D) f w wt b)) →
      (stepU S D m (f.number, u) = .ok m' ↔ stepU S D m (f.number, v) = .ok m') := by
    intro w hcw g hg
    have hA := RanAlike.mapV (h.alike D hD w hcw) g
    unfold stepU
    simp only [hg]
    constructor
    · intro e
      split at e
      · cases e
      · next s1 b1 h1 => rw [(hA _ _).1 h1]; exact e
    · intro e
      split at e
      · cases e
      · next s1 b1 h1 => rw [(hA _ _).2 h1]; exact e
  rcases hk with hk | hk
  · rw [field?_eq hC.desc] at hk
    obtain ⟨w, hcw, -, hmerge, -⟩ := field_place hS hC hk D
    exact go w hcw _ hmerge
  · rw [ext?_eq hC.desc] at hk
    obtain ⟨w, hcw, -, hmerge, -⟩ := ext_place hS hC hk D
    exact go w hcw _ hmerge

end Verif.Dyn
