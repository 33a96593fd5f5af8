import Verif.Json.SerSafe
import Verif.Text.ShowAny
/-!
Writing JSON ends: a stack deep enough exists for every conforming message, and how deep it is does not matter then.
-/
set_option autoImplicit false
namespace Verif.Json
open Verif.Wire Verif.Dyn Verif.Pool Verif.Text

/-- The stack did not overflow. -/
def Calm {α : Type} (x : Except JErr α) : Prop := x ≠ .error .stack

theorem Calm.map {α β : Type} {x : Except JErr α} (h : Calm x) (g : α → β) : Calm (x.map g) := by
  cases x with
  | ok a => nofun
  | error e => intro h'; cases h'; exact h rfl

theorem mapE_calm {α β : Type} {f : α → Except JErr β} : ∀ {xs : List α}, (∀ a ∈ xs, Calm (f a)) → Calm (mapE f xs)
  | [], _ => nofun
  | a :: r, h => by
    have h1 := h a (by simp)
    have h2 := mapE_calm (xs := r) (fun b hb => h b (List.mem_cons_of_mem _ hb))
    unfold mapE
    split
    · rename_i e he
      rw [he] at h1
      intro h'
      cases h'
      exact h1 rfl
    · split
      · rename_i e he
        rw [he] at h2
        intro h'
        cases h'
        exact h2 rfl
      · nofun

theorem strOf_calm (b : Bytes) : Calm (strOf b) := by
  unfold strOf
  split <;> nofun

theorem serKey_calm (k : MapKey) : Calm (serKey k) := by
  cases k <;> first | exact strOf_calm _ | nofun

theorem serEnum_calm (env : JEnv) (S : Schema) (o : SOpts) (kind : Kind) (v : BitVec 32) :
    Calm (serEnum env S o kind v) := by
  unfold serEnum
  split
  · split
    · nofun
    · split
      · nofun
      · split
        · nofun
        · split <;> nofun
  · nofun

theorem serScalar_calm (env : JEnv) (S : Schema) (o : SOpts) (kind : Kind) (v : Value) :
    Calm (serScalar env S o kind v) := by
  cases v <;> first | exact (strOf_calm _).map _ | exact serEnum_calm _ _ _ _ _ | nofun

theorem mapKind_calm (S : Schema) (kind : Kind) : Calm (mapKind S kind) := by
  unfold mapKind
  split
  · split
    · split <;> nofun
    · nofun
  · nofun

theorem ofDecode_calm {α : Type} (r : R α) : Calm (ofDecode r) := by
  unfold ofDecode
  split <;> nofun

theorem transcodeTo_calm (S : Schema) (w : Wkt) (m : DynMsg) : Calm (transcodeTo S w m) := by
  unfold transcodeTo
  split
  · nofun
  · rename_i b _
    have := ofDecode_calm (decode stdSchema w.std b)
    split
    · rename_i e he
      rw [he] at this
      intro h
      cases h
      exact this rfl
    · split <;> nofun

theorem serEntry_calm {val : Value → Except JErr Json} {p : MapKey × Value} (h : Calm (val p.2)) :
    Calm (serEntry val p) := by
  have hk := serKey_calm p.1
  unfold serEntry
  split
  · rename_i e he
    rw [he] at hk
    intro h'
    cases h'
    exact hk rfl
  · split
    · rename_i e he
      rw [he] at h
      intro h'
      cases h'
      exact h rfl
    · nofun

theorem stdEntry_calm {val : Value → Except JErr Json} {p : MapKey × Value} (h : Calm (val p.2)) :
    Calm (stdEntry val p) := by
  unfold stdEntry
  split
  · rename_i b _
    have hk := strOf_calm b
    split
    · rename_i e he
      rw [he] at hk
      intro h'
      cases h'
      exact hk rfl
    · split
      · rename_i e he
        rw [he] at h
        intro h'
        cases h'
        exact h rfl
      · nofun
  · nofun

theorem getValue_size {n : Nat} {v : Value} : ∀ {fs : FieldSet}, FieldSet.getValue fs n = some v → sizeOf v < sizeOf fs := by
  intro fs h
  unfold FieldSet.getValue at h
  split at h
  · rename_i w hw
    cases h
    induction fs with
    | nil => cases hw
    | cons p r ih =>
      obtain ⟨k, s⟩ := p
      simp only [SMap.get?] at hw
      split at hw
      · cases hw
        simp only [List.cons.sizeOf_spec, Prod.mk.sizeOf_spec, Slot.val.sizeOf_spec]
        omega
      · have := ih hw
        simp only [List.cons.sizeOf_spec]
        omega
  · cases h

theorem serStruct_calm {val : Value → Except JErr Json} {fs : FieldSet} (h : ∀ v, sizeOf v < sizeOf fs → Calm (val v)) :
    Calm (serStruct val fs) := by
  unfold serStruct
  split
  · rename_i kvs hg
    have := getValue_size hg
    refine (mapE_calm fun p hp => stdEntry_calm (h p.2 ?_)).map _
    have h1 := List.sizeOf_lt_of_mem hp
    have h2 : sizeOf p.2 < sizeOf p := by cases p; simp only [Prod.mk.sizeOf_spec]; omega
    simp only [Value.map.sizeOf_spec] at this
    omega
  · nofun

theorem serList_calm {val : Value → Except JErr Json} {fs : FieldSet} (h : ∀ v, sizeOf v < sizeOf fs → Calm (val v)) :
    Calm (serList val fs) := by
  unfold serList
  split
  · rename_i vs hg
    have := getValue_size hg
    refine (mapE_calm fun v hv => h v ?_).map _
    have h1 := List.sizeOf_lt_of_mem hv
    simp only [Value.list.sizeOf_spec] at this
    omega
  · nofun

theorem serValue_calm : ∀ (k : Nat) (v : Value), sizeOf v < k → Calm (serValue k v) := by
  intro k
  induction k with
  | zero => intro v h; omega
  | succ k ih =>
    intro v h
    cases v with
    | msg d fs =>
      simp only [Value.msg.sizeOf_spec] at h
      unfold serValue
      split
      · split <;> nofun
      · exact (strOf_calm _).map _
      · nofun
      · rename_i hg _ _ _
        have := getValue_size hg
        simp only [Value.msg.sizeOf_spec] at this
        exact serStruct_calm (fun v hv => ih v (by omega))
      · rename_i hg _ _ _ _
        have := getValue_size hg
        simp only [Value.msg.sizeOf_spec] at this
        exact serList_calm (fun v hv => ih v (by omega))
      · nofun
    | _ => nofun

theorem strVal_calm (v : Value) : Calm (strVal v) := by
  cases v <;> first | exact strOf_calm _ | nofun

theorem serStd_calm (env : JEnv) (o : SOpts) (fs : FieldSet) (w : Wkt) {k : Nat} (hk : sizeOf fs + 10 ≤ k) :
    Calm (serStd env o k fs w) := by
  cases w with
  | timestamp => simp only [serStd]; split <;> nofun
  | duration => simp only [serStd]; split <;> nofun
  | string => exact (strOf_calm _).map _
  | fieldMask =>
    have := mapE_calm (f := strVal) (xs := stdList fs 1) (fun v _ => strVal_calm v)
    simp only [serStd]
    split
    · rename_i e he
      rw [he] at this
      intro h
      cases h
      exact this rfl
    · split <;> nofun
  | struct => exact serStruct_calm (fun v hv => serValue_calm k v (by omega))
  | list => exact serList_calm (fun v hv => serValue_calm k v (by omega))
  | value =>
    refine serValue_calm (k + 1) _ ?_
    simp only [Value.msg.sizeOf_spec, Wkt.std]
    have : sizeOf (5 : Nat) = 5 := rfl
    omega
  | _ => nofun

section
variable {env : JEnv} {S : Schema} {o : SOpts}

/-- With a deep enough stack, writing the value does not overflow it. -/
def JEnds (env : JEnv) (S : Schema) (o : SOpts) (v : Value) (kind : Kind) : Prop :=
  ∃ k0, ∀ k, k0 ≤ k → Calm (serVal env S o k kind v)

theorem JEnds.step {v : Value} {kind : Kind} (h : ∃ k0, ∀ k, k0 ≤ k → Calm (serVal env S o (k + 1) kind v)) :
    JEnds env S o v kind := by
  obtain ⟨k0, h⟩ := h
  refine ⟨k0 + 1, fun k hk => ?_⟩
  obtain ⟨j, rfl⟩ : ∃ j, k = j + 1 := ⟨k - 1, by omega⟩
  exact h j (by omega)

/-- The `Any`s that have the property do not overflow the stack. -/
def AnyEnds (env : JEnv) (S : Schema) (o : SOpts) (P : DynMsg → Prop) : Prop :=
  ∀ (md : MsgDesc) (m : DynMsg), Conf S m md → P m → wkt? md.name = some .any →
    ∃ k0, ∀ k, k0 ≤ k → Calm (serAny S o (serVal env S o k) m)

theorem serFields_ends {P : DynMsg → Prop} (hS : S.wf = true)
    {d : Nat} {md : MsgDesc} {fs : FieldSet} (hC : Conf S ⟨d, fs⟩ md) (hq : keepSlots (fun _ => True) P fs)
    (h : ∀ f v, FieldWf S f → confVal S f v = true → keepVal (fun _ => True) P v → depthVal v ≤ depthSlots fs →
      JEnds env S o v f.kind) :
    ∃ k0, ∀ k, k0 ≤ k → Calm (serFields S o (serVal env S o k) md fs) := by
  have hm : S.msg? d = some md := hC.desc
  obtain ⟨its, hi⟩ := iter_total hS hm (!o.skipDefault) fs
  have hL := iter_listing hS hC hi
  obtain ⟨a, ha⟩ := uniform (xs := its.filterMap Item.ent)
    (G := fun k e => Calm (serVal env S o k e.f.kind e.v))
    (fun e he => h e.f e.v (hL.wf hS hm he) (hL.conf e he) (listing_keep' hS hm hL hq he) (hL.depth hS hm he))
  refine ⟨a, fun k hk => ?_⟩
  unfold serFields
  rw [hi]
  refine (mapE_calm fun it hit => ?_).map _
  have key : ∀ e, it.ent = some e → Calm (serVal env S o k e.f.kind e.v) := fun e he =>
    ha k hk e (List.mem_filterMap.2 ⟨it, hit, he⟩)
  cases it with
  | unknown u => nofun
  | field f v => exact (key ⟨false, f, v⟩ rfl).map _
  | ext f v => exact (key ⟨true, f, v⟩ rfl).map _

theorem serMsg_ends {P : DynMsg → Prop} (hS : S.wf = true) (hA : AnyEnds env S o P)
    {d : Nat} {md : MsgDesc} {fs : FieldSet} (hC : Conf S ⟨d, fs⟩ md) (hp : P ⟨d, fs⟩)
    (hq : keepSlots (fun _ => True) P fs)
    (h : ∀ f v, FieldWf S f → confVal S f v = true → keepVal (fun _ => True) P v → depthVal v ≤ depthSlots fs →
      JEnds env S o v f.kind) :
    ∃ k0, ∀ k, k0 ≤ k → Calm (serMsg env S o k (serVal env S o k) ⟨d, fs⟩) := by
  have hmd : S.msg? d = some md := hC.desc
  cases hw : wkt? md.name with
  | none =>
    obtain ⟨a, ha⟩ := serFields_ends (o := o) hS hC hq h
    refine ⟨a, fun k hk => ?_⟩
    unfold serMsg
    simp only [hmd, hw]
    exact (ha k hk).map _
  | some w =>
    by_cases hany : w = .any
    · subst hany
      obtain ⟨a, ha⟩ := hA md ⟨d, fs⟩ hC hp hw
      refine ⟨a, fun k hk => ?_⟩
      unfold serMsg
      simp only [hmd, hw]
      exact ha k hk
    · have ht := transcodeTo_calm S w ⟨d, fs⟩
      cases htr : transcodeTo S w ⟨d, fs⟩ with
      | error e =>
        rw [htr] at ht
        refine ⟨0, fun k _ => ?_⟩
        unfold serMsg
        simp only [hmd, hw]
        split
        · rename_i h; cases h; exact absurd rfl hany
        · nofun
        · rename_i h; cases h
          rw [htr]
          exact fun h => ht (by cases h; rfl)
        · rename_i h; cases h
      | ok gs =>
        refine ⟨sizeOf gs + 10, fun k hk => ?_⟩
        unfold serMsg
        simp only [hmd, hw]
        split
        · rename_i h; cases h; exact absurd rfl hany
        · nofun
        · rename_i h; cases h
          rw [htr]
          exact serStd_calm env o gs _ hk
        · rename_i h; cases h

theorem serVal_ends {P : DynMsg → Prop} (hS : S.wf = true) (hA : AnyEnds env S o P) :
    ∀ (n : Nat) (f : FieldDesc) (v : Value), confVal S f v = true → keepVal (fun _ => True) P v →
      2 * depthVal v + (if f.card = .repeated then 1 else 0) < n → JEnds env S o v f.kind := by
  intro n
  induction n with
  | zero => intro f v _ _ h; omega
  | succ n ih =>
    intro f v hv hq hn
    cases v with
    | msg d fs =>
      obtain ⟨hc, hkind, hm⟩ := confMsg_of_confVal hv
      obtain ⟨md, hC⟩ := confMsg_iff.1 hm
      rw [if_neg hc] at hn
      simp only [depthVal] at hn
      simp only [keepVal] at hq
      obtain ⟨a, ha⟩ := serMsg_ends hS hA hC hq.1 hq.2 (fun f v hf hv hq hd => ih f v hv hq (by split <;> omega))
      exact JEnds.step ⟨a, fun k hk => by simp only [serVal]; exact ha k hk⟩
    | list vs =>
      simp only [confVal, Bool.and_eq_true] at hv
      have hc : f.card = .repeated := (isList_iff.1 hv.1).1
      rw [if_pos hc] at hn
      simp only [depthVal] at hn
      simp only [keepVal] at hq
      obtain ⟨a, ha⟩ := uniform (xs := vs)
        (G := fun k v => Calm (serVal env S o k f.kind v)) (fun v hvm => by
          have hd := (depthVals_le (B := depthVals vs) vs).1 (Nat.le_refl _) v hvm
          exact ih f.elem v ((confVals_iff vs).1 hv.2 v hvm) (keepVals_mem hq hvm) (by
            rw [if_neg elem_card]; omega))
      refine JEnds.step ⟨a, fun k hk => ?_⟩
      simp only [serVal]
      exact (mapE_calm fun v hvm => ha k hk v hvm).map _
    | map kvs =>
      simp only [confVal, Bool.and_eq_true] at hv
      obtain ⟨hc, i, hki, hme⟩ := isMap_iff.1 hv.1
      obtain ⟨kd, vd, hE⟩ := Schema.wf_entry hS hme
      have hc2 := hv.2
      simp only [hki, hE.kv, Bool.and_eq_true] at hc2
      obtain ⟨-, h2⟩ := mapKV_some hE.kv
      rw [if_pos hc] at hn
      simp only [depthVal] at hn
      simp only [keepVal] at hq
      obtain ⟨a, ha⟩ := uniform (xs := kvs)
        (G := fun k p => Calm (serVal env S o k vd.kind p.2)) (fun p hp => by
          obtain ⟨key, v⟩ := p
          have hd := (depthMap_le (B := depthMap kvs) kvs).1 (Nat.le_refl _) _ hp
          have hcv := ((confMap_iff kvs).1 hc2.2 _ hp).2
          exact ih vd v hcv (keepMap_mem hq hp) (by
            rw [if_neg hE.val.2.2]; simp only at hd; omega))
      refine JEnds.step ⟨a, fun k hk => ?_⟩
      simp only [serVal, hki, mapKind, hme, if_true, h2]
      exact (mapE_calm fun p hp => serEntry_calm (ha k hk p hp)).map _
    | _ =>
      refine JEnds.step ⟨0, fun k _ => ?_⟩
      simp only [serVal]
      exact serScalar_calm _ _ _ _ _

theorem wkt_any {n : Name} (h : wkt? n = some .any) : n = anyName := by
  have := List.find?_some h
  simp only [beq_iff_eq] at this
  exact this.symm

/-- The bytes in an `Any` are shorter than the `Any` weighs. -/
theorem raw_heft (hS : S.wf = true) (hlike : anysLike S = true) {m : DynMsg} {md : MsgDesc} (hC : Conf S m md)
    (hw : wkt? md.name = some .any) {raw : FieldSet} (ht : transcodeTo S .any m = .ok raw) {url : List Char}
    (hu : strOf (stdStr raw 1) = .ok url) {n : Name} (hn : urlName url = some n) :
    (stdBytes raw 2).length < heftMsg m := by
  have hmd : S.msg? m.desc = some md := hC.desc
  have hl : anyLike md = true := List.all_eq_true.1 hlike md (List.mem_of_getElem? hmd)
  unfold transcodeTo at ht
  split at ht
  · cases ht
  rename_i e he
  have hlen : e.length ≤ heftMsg m := by
    unfold encMsg at he
    split at he
    · cases he
    · rename_i a b hab
      cases he
      have := any_enc_heft hS hmd hl (wkt_any hw) m.fields hC.slots a b hab
      simp only [heftMsg, List.length_append]
      omega
  split at ht
  · cases ht
  rename_i a hdec
  split at ht <;> try (cases ht; done)
  cases ht
  have hdec : decode stdSchema Wkt.any.std e = .ok a := by
    unfold ofDecode at hdec
    split at hdec
    · cases hdec; assumption
    · cases hdec
    · cases hdec
  have hw := decode_heft (S := stdSchema) (by decide +kernel) (d := 0) rfl hdec
  have hget : ∀ k x, FieldSet.getValue a.fields k = some x → payload k x ≤ heftMsg a := by
    intro k x hx
    unfold FieldSet.getValue at hx
    split at hx
    · rename_i w hw'
      cases hx
      have := get_heft hw'
      simp only [heftSlot] at this
      simp only [heftMsg]
      omega
    · cases hx
  have hk1 := keyLen_pos 1
  have hk2 := keyLen_pos 2
  unfold stdBytes
  split
  · rename_i x hx
    have := hget _ _ hx
    simp only [payload] at this
    omega
  · simp only [List.length_nil]
    unfold stdStr at hu
    split at hu
    · rename_i x hx
      have := hget _ _ hx
      simp only [payload] at this
      omega
    · have h0 : strOf [] = .ok [] := by decide +kernel
      rw [h0] at hu
      cases hu
      simp [urlName] at hn

/-- Writing a conforming message does not overflow a deep enough stack. -/
theorem toJson_ends (hS : S.wf = true) (hlike : anysLike S = true) : ∀ (B : Nat) (m : DynMsg) (md : MsgDesc),
    Conf S m md → heftMsg m < B →
      (∃ k0, ∀ k, k0 ≤ k → Calm (serFields S o (serVal env S o k) md m.fields)) ∧
      (∃ k0, ∀ k, k0 ≤ k → Calm (serMsg env S o k (serVal env S o k) m)) := by
  intro B
  induction B with
  | zero => intro m md _ h; omega
  | succ B ih =>
    intro m md hC hB
    have hA : AnyEnds env S o (fun x => heftMsg x ≤ B) := by
      intro md m hC hp hw
      unfold serAny
      have h1 := transcodeTo_calm S .any m
      cases ht : transcodeTo S .any m with
      | error e => rw [ht] at h1; exact ⟨0, fun _ _ h => h1 (by cases h; rfl)⟩
      | ok raw =>
        simp only
        have h2 := strOf_calm (stdStr raw 1)
        cases hu : strOf (stdStr raw 1) with
        | error e => rw [hu] at h2; exact ⟨0, fun _ _ h => h2 (by cases h; rfl)⟩
        | ok url =>
          simp only
          cases hn : urlName url with
          | none => exact ⟨0, fun _ _ => nofun⟩
          | some n =>
            simp only
            cases hi : Text.Schema.msgByName S n with
            | none => exact ⟨0, fun _ _ => nofun⟩
            | some i =>
              simp only
              have h3 := ofDecode_calm (decode S i (stdBytes raw 2))
              cases hdec : ofDecode (decode S i (stdBytes raw 2)) with
              | error e => rw [hdec] at h3; exact ⟨0, fun _ _ h => h3 (by cases h; rfl)⟩
              | ok p =>
                simp only
                have hdec : decode S i (stdBytes raw 2) = .ok p := by
                  unfold ofDecode at hdec
                  split at hdec
                  · cases hdec; assumption
                  · cases hdec
                  · cases hdec
                obtain ⟨pd, hpd⟩ : ∃ pd, S.msg? i = some pd := by
                  have := (List.findIdx?_eq_some_iff_getElem.1 hi).1
                  exact ⟨S.msgs[i], by simp [Schema.msg?, this]⟩
                have hb := decode_heft hS hpd hdec
                have hr := raw_heft hS hlike hC hw ht hu hn
                obtain ⟨hc, hdm⟩ := (merge_ok hS (confMsg_iff.2 ⟨pd, Conf.empty hpd⟩) _).2 p hdec
                have hdm : p.desc = i := hdm
                obtain ⟨pd', hC'⟩ := confMsg_iff.1 hc
                obtain ⟨⟨a, ha⟩, b, hb'⟩ := ih p pd' hC' (by omega)
                have hpd' : S.msg? i = some pd' := by rw [← hdm]; exact hC'.desc
                refine ⟨max a (b + 1), fun k hk => ?_⟩
                split
                · refine Calm.map ?_ _
                  obtain ⟨j, rfl⟩ : ∃ j, k = j + 1 := ⟨k - 1, by omega⟩
                  obtain ⟨pd0, pfs⟩ := p
                  simp only [DynMsg.toValue, serVal]
                  exact hb' j (by omega)
                · rw [hpd']
                  exact (ha k (by omega)).map _
    have hq : keepVal (fun _ => True) (fun x => heftMsg x ≤ B) m.toValue := keep_heft _ (by
      simp only [DynMsg.toValue, heft]
      simp only [heftMsg] at hB
      omega)
    obtain ⟨d, fs⟩ := m
    simp only [DynMsg.toValue, keepVal] at hq
    have hv : ∀ f v, FieldWf S f → confVal S f v = true → keepVal (fun _ => True) (fun x => heftMsg x ≤ B) v →
        depthVal v ≤ depthSlots fs → JEnds env S o v f.kind :=
      fun f v _ hv hq _ => serVal_ends hS hA _ f v hv hq (Nat.lt_succ_self _)
    exact ⟨serFields_ends hS hC hq.2 hv, serMsg_ends hS hA hC hq.1 hq.2 hv⟩

end

/-! ### How deep the stack is does not matter -/

/-- What came out without an overflow comes out again. -/
def Lasts {α : Type} (x y : Except JErr α) : Prop := Calm x → y = x

theorem Lasts.refl {α : Type} (x : Except JErr α) : Lasts x x := fun _ => rfl

theorem Lasts.map {α β : Type} {x y : Except JErr α} (h : Lasts x y) (g : α → β) : Lasts (x.map g) (y.map g) := by
  intro hc
  rw [h]
  intro hx
  rw [hx] at hc
  exact hc rfl

theorem mapE_lasts {α β : Type} {f g : α → Except JErr β} (h : ∀ a, Lasts (f a) (g a)) :
    ∀ xs, Lasts (mapE f xs) (mapE g xs)
  | [] => Lasts.refl _
  | a :: r => by
    intro hc
    have h1 : Calm (f a) := by
      intro hx
      simp only [mapE, hx] at hc
      exact hc rfl
    simp only [mapE] at hc ⊢
    rw [h a h1]
    cases hf : f a with
    | error e => rfl
    | ok b =>
      simp only
      rw [hf] at hc
      have h2 : Calm (mapE f r) := by
        intro hx
        rw [hx] at hc
        exact hc rfl
      rw [mapE_lasts h r h2]

theorem serEntry_lasts {val val' : Value → Except JErr Json} (h : ∀ v, Lasts (val v) (val' v)) (p : MapKey × Value) :
    Lasts (serEntry val p) (serEntry val' p) := by
  intro hc
  unfold serEntry at hc ⊢
  cases hk : serKey p.1 with
  | error e => rfl
  | ok k =>
    rw [hk] at hc
    simp only at hc ⊢
    rw [h p.2]
    intro hx
    rw [hx] at hc
    exact hc rfl

theorem stdEntry_lasts {val val' : Value → Except JErr Json} (h : ∀ v, Lasts (val v) (val' v)) (p : MapKey × Value) :
    Lasts (stdEntry val p) (stdEntry val' p) := by
  intro hc
  obtain ⟨k, v⟩ := p
  cases k with
  | str b =>
    simp only [stdEntry] at hc ⊢
    cases hk : strOf b with
    | error e => rfl
    | ok k =>
      rw [hk] at hc
      simp only at hc ⊢
      rw [h v]
      intro hx
      rw [hx] at hc
      exact hc rfl
  | _ => rfl

theorem serStruct_lasts {val val' : Value → Except JErr Json} (h : ∀ v, Lasts (val v) (val' v)) (fs : FieldSet) :
    Lasts (serStruct val fs) (serStruct val' fs) := by
  unfold serStruct
  split
  · exact (mapE_lasts (stdEntry_lasts h) _).map _
  · exact Lasts.refl _

theorem serList_lasts {val val' : Value → Except JErr Json} (h : ∀ v, Lasts (val v) (val' v)) (fs : FieldSet) :
    Lasts (serList val fs) (serList val' fs) := by
  unfold serList
  split
  · exact (mapE_lasts h _).map _
  · exact Lasts.refl _

theorem serValue_lasts : ∀ (k : Nat) (v : Value), Lasts (serValue k v) (serValue (k + 1) v) := by
  intro k
  induction k with
  | zero => intro v h; exact absurd rfl h
  | succ k ih =>
    intro v
    cases v with
    | msg d fs =>
      unfold serValue
      split
      · exact Lasts.refl _
      · exact Lasts.refl _
      · exact Lasts.refl _
      · exact serStruct_lasts ih _
      · exact serList_lasts ih _
      · exact Lasts.refl _
    | _ => exact Lasts.refl _

theorem serStd_lasts (env : JEnv) (o : SOpts) (k : Nat) (fs : FieldSet) (w : Wkt) :
    Lasts (serStd env o k fs w) (serStd env o (k + 1) fs w) := by
  cases w with
  | struct => exact serStruct_lasts (serValue_lasts k) fs
  | list => exact serList_lasts (serValue_lasts k) fs
  | value => exact serValue_lasts (k + 1) _
  | _ => exact Lasts.refl _

section
variable {S : Schema} {o : SOpts} {val val' : Kind → Value → Except JErr Json}

theorem serItem_lasts (h : ∀ kd v, Lasts (val kd v) (val' kd v)) (it : Item) :
    Lasts (serItem o val it) (serItem o val' it) := by
  cases it with
  | field f v => exact (h _ _).map _
  | ext f v => exact (h _ _).map _
  | unknown u => exact Lasts.refl _

theorem serFields_lasts (h : ∀ kd v, Lasts (val kd v) (val' kd v)) (md : MsgDesc) (fs : FieldSet) :
    Lasts (serFields S o val md fs) (serFields S o val' md fs) := by
  unfold serFields
  split
  · exact Lasts.refl _
  · exact (mapE_lasts (serItem_lasts h) _).map _

theorem serAny_lasts (h : ∀ kd v, Lasts (val kd v) (val' kd v)) (m : DynMsg) :
    Lasts (serAny S o val m) (serAny S o val' m) := by
  unfold serAny
  split
  · exact Lasts.refl _
  split
  · exact Lasts.refl _
  split
  · exact Lasts.refl _
  split
  · exact Lasts.refl _
  split
  · exact Lasts.refl _
  split
  · exact (h _ _).map _
  split
  · exact Lasts.refl _
  · exact (serFields_lasts h _ _).map _

theorem serMsg_lasts (env : JEnv) (k : Nat) (h : ∀ kd v, Lasts (val kd v) (val' kd v)) (m : DynMsg) :
    Lasts (serMsg env S o k val m) (serMsg env S o (k + 1) val' m) := by
  unfold serMsg
  split
  · exact Lasts.refl _
  split
  · exact serAny_lasts h m
  · exact Lasts.refl _
  · split
    · exact Lasts.refl _
    · exact serStd_lasts _ _ _ _ _
  · exact (serFields_lasts h _ _).map _
end

theorem serVal_lasts (env : JEnv) (S : Schema) (o : SOpts) : ∀ (k : Nat) (kind : Kind) (v : Value),
    Lasts (serVal env S o k kind v) (serVal env S o (k + 1) kind v) := by
  intro k
  induction k with
  | zero => intro kind v h; exact absurd (by simp only [serVal]) h
  | succ k ih =>
    intro kind v
    cases v with
    | msg d fs => simp only [serVal]; exact serMsg_lasts env k ih _
    | list vs => simp only [serVal]; exact (mapE_lasts (ih kind) vs).map _
    | map kvs =>
      simp only [serVal]
      split
      · exact Lasts.refl _
      · exact (mapE_lasts (serEntry_lasts (ih _)) kvs).map _
    | _ => simp only [serVal]; exact Lasts.refl _

theorem toJson_lasts (env : JEnv) (S : Schema) (o : SOpts) (m : DynMsg) {k k' : Nat} (h : k ≤ k') :
    Lasts (toJson env S o k m) (toJson env S o k' m) := by
  obtain ⟨j, rfl⟩ := Nat.exists_eq_add_of_le h
  clear h
  induction j with
  | zero => exact Lasts.refl _
  | succ j ih =>
    intro hc
    have h1 := ih hc
    rw [← h1] at hc ⊢
    exact serMsg_lasts env (k + j) (serVal_lasts env S o (k + j)) m hc

end Verif.Json
