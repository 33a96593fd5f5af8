import Verif.Json.De
import Verif.Text.Safe
import Verif.Dyn.Accept
import Verif.Dyn.Total
/-!
What reading JSON yields: values, well-known types, and the conditions on a schema.
-/
set_option autoImplicit false
namespace Verif.Json
open Verif.Wire Verif.Dyn Verif.Pool

/-- The result is a value with `P`, an `Err`, or (unless `st`) a stack overflow. -/
def Sound {α : Type} (st : Bool) (P : α → Prop) : Except JErr α → Prop
  | .ok a => P a
  | .error e => e ≠ .panic ∧ (st = true → e ≠ .stack)

theorem Sound.ok {α : Type} {st : Bool} {P : α → Prop} {x : Except JErr α} {a : α} (h : Sound st P x)
    (e : x = .ok a) : P a := by rw [e] at h; exact h

theorem Sound.error {α : Type} {st : Bool} {P : α → Prop} {x : Except JErr α} {a : JErr} (h : Sound st P x)
    (e : x = .error a) : a ≠ .panic ∧ (st = true → a ≠ .stack) := by rw [e] at h; exact h

theorem sound_err {α : Type} {st : Bool} {P : α → Prop} : Sound st P (.error .err : Except JErr α) :=
  ⟨nofun, nofun⟩

theorem Sound.map {α β : Type} {st : Bool} {P : α → Prop} {Q : β → Prop} {x : Except JErr α} {g : α → β}
    (h : Sound st P x) (hg : ∀ a, P a → Q (g a)) : Sound st Q (x.map g) := by
  cases x with
  | ok a => exact hg a h
  | error e => exact h

theorem Sound.imp {α : Type} {st : Bool} {P Q : α → Prop} {x : Except JErr α}
    (h : Sound st P x) (hg : ∀ a, P a → Q a) : Sound st Q x := by
  cases x with
  | ok a => exact hg a h
  | error e => exact h

theorem mapE_sound {α β : Type} {st : Bool} {P : β → Prop} {f : α → Except JErr β} :
    {l : List α} → (∀ a ∈ l, Sound st P (f a)) → Sound st (fun bs => ∀ b ∈ bs, P b) (mapE f l)
  | [], _ => by intro b hb; cases hb
  | a :: r, h => by
    have h1 := h a (by simp)
    have h2 := mapE_sound (l := r) (fun x hx => h x (by simp [hx]))
    unfold mapE
    cases hf : f a with
    | error e => exact h1.error hf
    | ok b =>
      simp only
      cases hr : mapE f r with
      | error e => exact h2.error hr
      | ok bs =>
        intro x hx
        rcases List.mem_cons.1 hx with rfl | hx
        · exact h1.ok hf
        · exact h2.ok hr x hx

/-! ### Depth of a value -/

mutual
/-- How deep arrays and objects are nested; one for anything else. -/
def Json.depth : Json → Nat
  | .arr xs => depthList xs + 1
  | .obj es => depthObj es + 1
  | _ => 1
/-- The deepest element. -/
def depthList : List Json → Nat
  | [] => 0
  | j :: r => max j.depth (depthList r)
/-- The deepest entry. -/
def depthObj : List (List Char × Json) → Nat
  | [] => 0
  | (_, j) :: r => max j.depth (depthObj r)
end

theorem Json.depth_pos (j : Json) : 0 < j.depth := by
  cases j <;> simp only [Json.depth] <;> omega

theorem depthList_le {xs : List Json} {n : Nat} : depthList xs ≤ n ↔ ∀ j ∈ xs, j.depth ≤ n := by
  induction xs with
  | nil => simp [depthList]
  | cons j r ih => simp only [depthList, List.forall_mem_cons, ← ih]; omega

theorem depthObj_le {es : List (List Char × Json)} {n : Nat} :
    depthObj es ≤ n ↔ ∀ p ∈ es, p.2.depth ≤ n := by
  induction es with
  | nil => simp [depthObj]
  | cons p r ih =>
    obtain ⟨k, j⟩ := p
    simp only [depthObj, List.forall_mem_cons, ← ih]; omega

theorem mem_putSorted {α : Type} {k : List Char} {v : α} {acc : List (List Char × α)}
    {p : List Char × α} (h : p ∈ putSorted k v acc) : p = (k, v) ∨ p ∈ acc := by
  induction acc with
  | nil => simpa [putSorted] using h
  | cons q r ih =>
    obtain ⟨k', v'⟩ := q
    unfold putSorted at h
    split at h
    · rcases List.mem_cons.1 h with h | h
      · exact .inl h
      · exact .inr (List.mem_cons_of_mem _ h)
    · split at h
      · rcases List.mem_cons.1 h with h | h
        · exact .inl h
        · exact .inr h
      · rcases List.mem_cons.1 h with h | h
        · exact .inr (by simp [h])
        · rcases ih h with h | h
          · exact .inl h
          · exact .inr (List.mem_cons_of_mem _ h)

theorem mem_put {α : Type} {k : List Char} {v : α} {acc : List (List Char × α)}
    {p : List Char × α} (h : p ∈ put k v acc) : p = (k, v) ∨ p ∈ acc := by
  induction acc with
  | nil => simpa [put] using h
  | cons q r ih =>
    obtain ⟨k', v'⟩ := q
    unfold put at h
    split at h
    · rcases List.mem_cons.1 h with h | h
      · exact .inl h
      · exact .inr (List.mem_cons_of_mem _ h)
    · rcases List.mem_cons.1 h with h | h
      · exact .inr (by simp [h])
      · rcases ih h with h | h
        · exact .inl h
        · exact .inr (List.mem_cons_of_mem _ h)

theorem lookup_mem {α : Type} {k : List Char} {l : List (List Char × α)} {v : α}
    (h : lookup k l = some v) : (k, v) ∈ l := by
  induction l with
  | nil => cases h
  | cons q r ih =>
    obtain ⟨k', v'⟩ := q
    unfold lookup at h
    split at h
    · rename_i hk; cases h; subst hk; simp
    · exact List.mem_cons_of_mem _ (ih h)

mutual
theorem norm_depth : (j : Json) → (norm j).depth ≤ j.depth
  | .null => by simp [norm]
  | .bool _ => by simp [norm]
  | .uint _ => by simp [norm]
  | .sint _ => by simp [norm]
  | .float _ => by simp [norm]
  | .str _ => by simp [norm]
  | .arr xs => by
    have := normList_depth xs
    simp only [norm, Json.depth]; omega
  | .obj es => by
    have := normObj_depth es [] (depthObj es) (by simp [depthObj]) (Nat.le_refl _)
    simp only [norm, Json.depth]; omega
theorem normList_depth : (xs : List Json) → depthList (normList xs) ≤ depthList xs
  | [] => by simp [normList]
  | j :: r => by
    have h1 := norm_depth j
    have h2 := normList_depth r
    simp only [normList, depthList]; omega
theorem normObj_depth : (es acc : List (List Char × Json)) → (n : Nat) → depthObj acc ≤ n →
    depthObj es ≤ n → depthObj (normObj acc es) ≤ n
  | [], acc, n, h, _ => by simpa [normObj] using h
  | (k, j) :: r, acc, n, h, h' => by
    have h1 := norm_depth j
    simp only [depthObj] at h'
    rw [normObj]
    refine normObj_depth r _ n (depthObj_le.2 ?_) (by omega)
    intro p hp
    rcases mem_putSorted hp with rfl | hp
    · simp only; omega
    · exact depthObj_le.1 h p hp
end

/-! ### The standard messages -/

theorem stdSchema_wf : stdSchema.wf = true := by decide +kernel

theorem std_one {d n : Nat} {md : MsgDesc} {f : FieldDesc} {v : Value} (hd : stdSchema.msg? d = some md)
    (hf : md.getField n = some f) (hv : confVal stdSchema f v = true) :
    confMsg stdSchema ⟨d, [(n, .val v)]⟩ = true := by
  have h := Conf.insert_field stdSchema_wf (Conf.empty hd) hf hv
  have e : FieldSet.clearAll (siblings md f) [] = [] := by
    generalize siblings md f = l
    induction l with
    | nil => rfl
    | cons a r ih => simpa [FieldSet.clearAll, SMap.erase] using ih
  rw [confMsg_iff]
  refine ⟨md, ?_⟩
  have := h
  simp only [DynMsg.fields, e] at this
  exact this

theorem std_sec {w : Wkt} (hw : w = .timestamp ∨ w = .duration) (p : BitVec 64 × BitVec 32) :
    confMsg stdSchema ⟨w.std, secNanos p⟩ = true := by
  obtain ⟨a, b⟩ := p
  rcases hw with rfl | rfl
  all_goals
    simp only [confMsg, secNanos, confSlots, confVal, scalarOk, Value.isValid, Wkt.std]
    rfl

theorem std_any {u : Bytes} (hu : utf8Valid u = true) (b : Bytes) :
    confMsg stdSchema ⟨Wkt.any.std, [(1, .val (.str u)), (2, .val (.bytes b))]⟩ = true := by
  obtain ⟨md, h⟩ := confMsg_iff.1 (std_one (d := Wkt.any.std) (n := 1) (v := .str u) rfl rfl (by
    simp only [confVal, scalarOk, stdField, hu]
    rfl))
  have hd := h.desc
  have hf : md.getField 2 = some (stdField 2 "value" .bytes .optional false none) := by
    cases hd
    rfl
  exact confMsg_iff.2 ⟨md, Conf.insert_field stdSchema_wf h hf (v := .bytes b) rfl⟩

/-! ### Keys in order -/

theorem keyLt_irrefl (a : List Char) : keyLt a a = false := by
  induction a with
  | nil => rfl
  | cons c r ih => simp [keyLt, ih]

theorem keyLt_total {a b : List Char} (h : a ≠ b) (h' : keyLt a b = false) : keyLt b a = true := by
  induction a generalizing b with
  | nil => cases b with
    | nil => exact absurd rfl h
    | cons => cases h'
  | cons c r ih => cases b with
    | nil => rfl
    | cons c' r' =>
      unfold keyLt at h' ⊢
      by_cases hc : c = c'
      · subst hc
        rw [if_pos rfl] at h' ⊢
        exact ih (fun e => h (by rw [e])) h'
      · rw [if_neg hc] at h'
        rw [if_neg (Ne.symm hc)]
        have : c.toNat ≠ c'.toNat := fun e => hc (Char.toNat_inj.1 e)
        simp only [decide_eq_false_iff_not, decide_eq_true_eq] at h' ⊢
        omega

theorem keyLt_trans {a b c : List Char} (h : keyLt a b = true) (h' : keyLt b c = true) :
    keyLt a c = true := by
  induction a generalizing b c with
  | nil => cases c with
    | nil => cases b <;> cases h'
    | cons => rfl
  | cons x r ih => cases b with
    | nil => cases h
    | cons y s => cases c with
      | nil => cases h'
      | cons z t =>
        unfold keyLt at h h' ⊢
        by_cases h1 : x = y
        · subst h1
          rw [if_pos rfl] at h
          by_cases h2 : x = z
          · subst h2
            rw [if_pos rfl] at h' ⊢
            exact ih h h'
          · rw [if_neg h2] at h' ⊢
            exact h'
        · rw [if_neg h1] at h
          by_cases h2 : y = z
          · subst h2
            rw [if_neg h1]
            exact h
          · rw [if_neg h2] at h'
            simp only [decide_eq_true_eq] at h h'
            have : x ≠ z := by rintro rfl; omega
            rw [if_neg this]
            simp only [decide_eq_true_eq]; omega

/-- The keys are in order. -/
def KeysSorted {α : Type} (l : List (List Char × α)) : Prop := l.Pairwise (fun a b => keyLt a.1 b.1 = true)

theorem putSorted_sorted {α : Type} (k : List Char) (v : α) {l : List (List Char × α)} (h : KeysSorted l) :
    KeysSorted (putSorted k v l) := by
  induction l with
  | nil => exact List.pairwise_singleton _ _
  | cons q r ih =>
    obtain ⟨k', v'⟩ := q
    have h1 := List.pairwise_cons.1 h
    unfold putSorted
    split
    · rename_i hk
      subst hk
      exact List.pairwise_cons.2 h1
    · rename_i hk
      split
      · rename_i hlt
        refine List.pairwise_cons.2 ⟨?_, h⟩
        intro p hp
        rcases List.mem_cons.1 hp with rfl | hp
        · exact hlt
        · exact keyLt_trans hlt (h1.1 p hp)
      · rename_i hlt
        refine List.pairwise_cons.2 ⟨?_, ih h1.2⟩
        intro p hp
        rcases mem_putSorted hp with rfl | hp
        · exact keyLt_total hk (by simpa using hlt)
        · exact h1.1 p hp

theorem utf8Encode_inj {a b : List Char} (h : utf8Encode a = utf8Encode b) : a = b := by
  have h1 := utf8Decode_encode a
  rw [h, utf8Decode_encode] at h1
  cases h1
  rfl

/-- The keys as map keys. -/
def strKeys (l : List (List Char × Value)) : List (MapKey × Value) :=
  l.map (fun p => (.str (utf8Encode p.1), p.2))

theorem strKeys_get {l : List (List Char × Value)} {k : List Char} (h : ∀ p ∈ l, p.1 ≠ k) :
    KMap.get? (strKeys l) (MapKey.str (utf8Encode k)) = none := by
  induction l with
  | nil => rfl
  | cons p r ih =>
    have h1 : MapKey.str (utf8Encode k) ≠ MapKey.str (utf8Encode p.1) := by
      intro e
      rw [MapKey.str.injEq] at e
      exact h p (by simp) (utf8Encode_inj e).symm
    have h2 := ih (fun q hq => h q (by simp [hq]))
    simp only [strKeys, List.map_cons, KMap.get?, if_neg h1, if_neg (Ne.symm h1)] at h2 ⊢
    exact h2

theorem strKeys_distinct {l : List (List Char × Value)} (h : KeysSorted l) :
    KMap.distinct (strKeys l) = true := by
  induction l with
  | nil => rfl
  | cons p r ih =>
    have h1 := List.pairwise_cons.1 h
    have h2 : KMap.get? (strKeys r) (MapKey.str (utf8Encode p.1)) = none := by
      refine strKeys_get (fun q hq e => ?_)
      have := h1.1 q hq
      rw [e, keyLt_irrefl] at this
      cases this
    have h3 := ih h1.2
    simp only [strKeys, List.map_cons, KMap.distinct, Bool.and_eq_true] at h2 h3 ⊢
    exact ⟨by rw [h2]; rfl, h3⟩

/-! ### `Struct`, `Value`, `ListValue` -/

/-- A `Value` message. -/
def IsValue (v : Value) : Prop := ∃ fs, v = .msg Wkt.value.std fs ∧ confMsg stdSchema ⟨Wkt.value.std, fs⟩ = true

theorem stdPairs_sound {st : Bool} {f : Json → Except JErr Value} :
    {es : List (List Char × Json)} → (∀ p ∈ es, Sound st IsValue (f p.2)) →
    {acc : List (List Char × Value)} → KeysSorted acc → (∀ p ∈ acc, IsValue p.2) →
    Sound st (fun l => KeysSorted l ∧ ∀ p ∈ l, IsValue p.2) (stdPairs f acc es)
  | [], _, acc, h1, h2 => ⟨h1, h2⟩
  | (k, j) :: r, h, acc, h1, h2 => by
    have h3 := h (k, j) (by simp)
    unfold stdPairs
    cases hf : f j with
    | error e => exact h3.error hf
    | ok v =>
      refine stdPairs_sound (fun p hp => h p (by simp [hp])) (putSorted_sorted k v h1) ?_
      intro p hp
      rcases mem_putSorted hp with rfl | hp
      · exact h3.ok hf
      · exact h2 p hp

theorem IsValue.conf {v : Value} (h : IsValue v) {f : FieldDesc} (hc : f.card ≠ .repeated)
    (hk : f.kind = .message Wkt.value.std) : confVal stdSchema f v = true := by
  obtain ⟨fs, rfl, h⟩ := h
  exact confVal_msg (m := ⟨Wkt.value.std, fs⟩) hc hk h

theorem deStruct_sound {st : Bool} {f : Json → Except JErr Value} {j : Json}
    (h : ∀ es, j = .obj es → ∀ p ∈ es, Sound st IsValue (f p.2)) :
    Sound st (fun fs => confMsg stdSchema ⟨Wkt.struct.std, fs⟩ = true) (deStruct f j) := by
  unfold deStruct
  split
  · rename_i es
    refine (stdPairs_sound (h es rfl) List.Pairwise.nil nofun).map (fun l hl => ?_)
    refine std_one (md := _) (f := _) rfl rfl ?_
    have hm : isMap stdSchema (stdField 1 "fields" (.message 4) .repeated false none) = true := by
      decide +kernel
    have hkv : stdSchema.mapKV 4 = some (stdField 1 "key" .string .optional false none,
      stdField 2 "value" (.message 5) .optional true none) := rfl
    have hd := strKeys_distinct hl.1
    simp only [strKeys] at hd
    simp only [confVal, hm, Bool.true_and]
    show (match stdSchema.mapKV 4 with
      | some (kd, vd) => KMap.distinct (strKeys l) && confMap stdSchema kd vd (strKeys l)
      | none => false) = true
    rw [hkv]
    simp only [strKeys, hd, Bool.true_and]
    rw [confMap_iff]
    intro p hp
    obtain ⟨q, hq, rfl⟩ := List.mem_map.1 hp
    refine ⟨?_, (hl.2 q hq).conf nofun rfl⟩
    simp only [keyOk, utf8Valid_encode, Bool.and_true]
    rfl
  · exact sound_err

theorem deList_sound {st : Bool} {f : Json → Except JErr Value} {j : Json}
    (h : ∀ xs, j = .arr xs → ∀ x ∈ xs, Sound st IsValue (f x)) :
    Sound st (fun fs => confMsg stdSchema ⟨Wkt.list.std, fs⟩ = true) (deList f j) := by
  unfold deList
  split
  · rename_i xs
    refine (mapE_sound (h xs rfl)).map (fun l hl => ?_)
    refine std_one (md := _) (f := _) rfl rfl ?_
    have hm : isList stdSchema (stdField 1 "values" (.message 5) .repeated false none) = true := by
      decide +kernel
    simp only [confVal, hm, Bool.true_and]
    rw [confVals_iff]
    exact fun v hv => (hl v hv).conf nofun rfl
  · exact sound_err

theorem isValue_one {n : Nat} {f : FieldDesc} {v : Value}
    (hf : stdSchema.field? Wkt.value.std n = some f) (hv : confVal stdSchema f v = true) :
    IsValue (stdValue n v) := by
  obtain ⟨md, hm, hg⟩ := field?_some hf
  exact ⟨_, rfl, std_one hm hg hv⟩

theorem deValue_sound {st : Bool} (env : JEnv) : (k : Nat) → (j : Json) → (st = true → j.depth ≤ k) →
    Sound st IsValue (deValue env k j)
  | 0, j, h => ⟨nofun, fun hs => by have := h hs; have := j.depth_pos; omega⟩
  | k + 1, .null, _ => isValue_one rfl rfl
  | k + 1, .bool b, _ => isValue_one rfl rfl
  | k + 1, .uint v, _ => isValue_one rfl rfl
  | k + 1, .sint v, _ => isValue_one rfl rfl
  | k + 1, .float v, _ => isValue_one rfl rfl
  | k + 1, .str s, _ => by
    refine isValue_one rfl ?_
    simp only [confVal, scalarOk, stdField, utf8Valid_encode]
    rfl
  | k + 1, .arr xs, h => by
    refine (deList_sound (st := st) (fun xs' e x hx => deValue_sound env k x (fun hs => ?_))).map (fun fs hfs => ?_)
    · cases e
      have := h hs
      simp only [Json.depth] at this
      exact depthList_le.1 (by omega) x hx
    · refine isValue_one rfl ?_
      exact confVal_msg (m := ⟨Wkt.list.std, fs⟩) nofun rfl hfs
  | k + 1, .obj es, h => by
    refine (deStruct_sound (st := st) (fun xs' e x hx => deValue_sound env k x.2 (fun hs => ?_))).map (fun fs hfs => ?_)
    · cases e
      have := h hs
      simp only [Json.depth] at this
      exact depthObj_le.1 (by omega) x hx
    · refine isValue_one rfl ?_
      exact confVal_msg (m := ⟨Wkt.struct.std, fs⟩) nofun rfl hfs

theorem wrap_conf {w : Wkt} {md : MsgDesc} {f : FieldDesc} {v : Value} (hd : stdSchema.msg? w.std = some md)
    (hf : md.getField 1 = some f) (hv : confVal stdSchema f v = true) :
    confMsg stdSchema ⟨w.std, one1 v⟩ = true := std_one hd hf hv

theorem orErr_sound {α : Type} {st : Bool} (x : Option α) : Sound st (fun _ => True) (orErr x) := by
  cases x with
  | none => exact sound_err
  | some _ => trivial

theorem tryInto_sound {st : Bool} (lo hi v : Int) : Sound st (fun _ => True) (tryInto lo hi v) := by
  unfold tryInto
  split
  · trivial
  · exact sound_err

theorem visitInt_sound {st : Bool} (lo hi hiF : Int) (p : List Char → Option Int) (j : Json) :
    Sound st (fun _ => True) (visitInt lo hi hiF p j) := by
  unfold visitInt
  split
  · exact tryInto_sound _ _ _
  · exact tryInto_sound _ _ _
  · unfold visitF64
    split
    · exact sound_err
    · split
      · exact sound_err
      · trivial
  · exact orErr_sound _
  · exact sound_err

theorem visitDouble_sound {st : Bool} (env : JEnv) (j : Json) : Sound st (fun _ => True) (visitDouble env j) := by
  unfold visitDouble
  repeat' split
  all_goals first | trivial | exact sound_err

theorem visitFloat_sound {st : Bool} (env : JEnv) (j : Json) : Sound st (fun _ => True) (visitFloat env j) := by
  unfold visitFloat
  repeat' split
  all_goals first | trivial | exact sound_err

theorem visitBytes_sound {st : Bool} (j : Json) : Sound st (fun _ => True) (visitBytes j) := by
  unfold visitBytes visitBytesStr
  repeat' split
  all_goals first | trivial | exact sound_err

theorem visitBool_sound {st : Bool} (j : Json) : Sound st (fun _ => True) (visitBool j) := by
  unfold visitBool
  repeat' split
  all_goals first | trivial | exact sound_err

theorem visitString_sound {st : Bool} (j : Json) : Sound st (fun b => utf8Valid b = true) (visitString j) := by
  unfold visitString
  split
  · exact utf8Valid_encode _
  · exact sound_err

theorem visitI32_sound {st : Bool} (j : Json) : Sound st (fun _ => True) (visitI32 j) :=
  (visitInt_sound _ _ _ _ j).map (fun _ h => h)
theorem visitU32_sound {st : Bool} (j : Json) : Sound st (fun _ => True) (visitU32 j) :=
  (visitInt_sound _ _ _ _ j).map (fun _ h => h)
theorem visitI64_sound {st : Bool} (j : Json) : Sound st (fun _ => True) (visitI64 j) :=
  (visitInt_sound _ _ _ _ j).map (fun _ h => h)
theorem visitU64_sound {st : Bool} (j : Json) : Sound st (fun _ => True) (visitU64 j) :=
  (visitInt_sound _ _ _ _ j).map (fun _ h => h)

theorem deStd_sound {st : Bool} (env : JEnv) (k : Nat) (j : Json) (h : st = true → j.depth ≤ k + 1) (w : Wkt)
    (hw : w ≠ .any) : Sound st (fun fs => confMsg stdSchema ⟨w.std, fs⟩ = true) (deStd env k j w) := by
  have sub1 : ∀ es, j = .obj es → ∀ p ∈ es, Sound st IsValue (deValue env k p.2) := by
    rintro es rfl p hp
    refine deValue_sound env k p.2 (fun hs => ?_)
    have := h hs
    simp only [Json.depth] at this
    exact depthObj_le.1 (by omega) p hp
  have sub2 : ∀ xs, j = .arr xs → ∀ p ∈ xs, Sound st IsValue (deValue env k p) := by
    rintro xs rfl p hp
    refine deValue_sound env k p (fun hs => ?_)
    have := h hs
    simp only [Json.depth] at this
    exact depthList_le.1 (by omega) p hp
  cases w with
  | any => exact absurd rfl hw
  | timestamp =>
    unfold deStd
    simp only
    repeat' split
    all_goals first | exact sound_err | exact std_sec (.inl rfl) _
  | duration =>
    unfold deStd
    simp only
    repeat' split
    all_goals first | exact sound_err | exact std_sec (.inr rfl) _
  | float => exact (visitFloat_sound env j).map (fun v _ => wrap_conf rfl rfl rfl)
  | double => exact (visitDouble_sound env j).map (fun v _ => wrap_conf rfl rfl rfl)
  | int32 => exact (visitI32_sound j).map (fun v _ => wrap_conf rfl rfl rfl)
  | int64 => exact (visitI64_sound j).map (fun v _ => wrap_conf rfl rfl rfl)
  | uint32 => exact (visitU32_sound j).map (fun v _ => wrap_conf rfl rfl rfl)
  | uint64 => exact (visitU64_sound j).map (fun v _ => wrap_conf rfl rfl rfl)
  | bool => exact (visitBool_sound j).map (fun v _ => wrap_conf rfl rfl rfl)
  | string =>
    refine (visitString_sound j).map (fun v hv => wrap_conf rfl rfl ?_)
    simp only [confVal, scalarOk, stdField, hv]
    rfl
  | bytes => exact (visitBytes_sound j).map (fun v _ => wrap_conf rfl rfl rfl)
  | fieldMask =>
    unfold deStd
    simp only
    split
    · split
      · refine wrap_conf rfl rfl ?_
        have hm : isList stdSchema (stdField 1 "paths" .string .repeated false none) = true := by
          decide +kernel
        simp only [confVal, hm, Bool.true_and]
        rw [confVals_iff]
        intro v hv
        obtain ⟨p, _, rfl⟩ := List.mem_map.1 hv
        simp only [confVal, scalarOk, stdField, FieldDesc.elem, utf8Valid_encode]
        rfl
      · exact sound_err
    · exact sound_err
  | struct => exact deStruct_sound sub1
  | list => exact deList_sound sub2
  | value =>
    unfold deStd
    simp only
    have := deValue_sound env (k + 1) j h
    split
    · rename_i e he
      exact this.error he
    · rename_i v hv
      obtain ⟨fs, rfl, hc⟩ := this.ok hv
      exact hc
  | empty =>
    unfold deStd
    simp only
    split
    · exact confMsg_iff.2 ⟨_, Conf.empty rfl⟩
    · exact sound_err

/-! ### Messages -/

section
variable {S : Schema} {st : Bool} {o : DOpts} {env : JEnv}

theorem ofDecode_sound {α : Type} {r : R α} (h : Safe r) {P : α → Prop} (hp : ∀ a, r = .ok a → P a) :
    Sound st P (ofDecode r) := by
  cases r with
  | ok a => exact hp a rfl
  | error e =>
    have := h e rfl
    cases e <;> first | exact sound_err | cases this

theorem makeMsg_sound (hS : S.wf = true) {d : Nat} {md : MsgDesc} (hd : S.msg? d = some md) {w : Wkt}
    {fs : FieldSet} (h : confMsg stdSchema ⟨w.std, fs⟩ = true) :
    Sound st (fun m => confMsg S m = true ∧ m.desc = d) (makeMsg S d w fs) := by
  unfold makeMsg
  obtain ⟨b, hb⟩ := (encMsg_total stdSchema_wf _ (confMsg_accepted stdSchema_wf h)).1
  rw [hb]
  have hm := merge_ok hS (confMsg_iff.2 ⟨md, Conf.empty hd⟩) b
  exact ofDecode_sound hm.1 hm.2

theorem deScalar_sound {k : Kind} (hk : k.isMessage = false) (he : ∀ e, k ≠ .enum e) (j : Json) :
    Sound st (fun v => scalarOk k v = true) (deScalar env k j) := by
  cases k with
  | message => cases hk
  | enum e => exact absurd rfl (he e)
  | double => exact (visitDouble_sound env j).map (fun _ _ => rfl)
  | float => exact (visitFloat_sound env j).map (fun _ _ => rfl)
  | int32 => exact (visitI32_sound j).map (fun _ _ => rfl)
  | sint32 => exact (visitI32_sound j).map (fun _ _ => rfl)
  | sfixed32 => exact (visitI32_sound j).map (fun _ _ => rfl)
  | int64 => exact (visitI64_sound j).map (fun _ _ => rfl)
  | sint64 => exact (visitI64_sound j).map (fun _ _ => rfl)
  | sfixed64 => exact (visitI64_sound j).map (fun _ _ => rfl)
  | uint32 => exact (visitU32_sound j).map (fun _ _ => rfl)
  | fixed32 => exact (visitU32_sound j).map (fun _ _ => rfl)
  | uint64 => exact (visitU64_sound j).map (fun _ _ => rfl)
  | fixed64 => exact (visitU64_sound j).map (fun _ _ => rfl)
  | bool => exact (visitBool_sound j).map (fun _ _ => rfl)
  | string =>
    refine (visitString_sound j).map (fun v hv => ?_)
    simp only [scalarOk, hv, Bool.and_true]
    rfl
  | bytes => exact (visitBytes_sound j).map (fun _ _ => rfl)

theorem enum_some {e : Nat} (he : kindOk S (.enum e) = true) : ∃ ed, S.enums[e]? = some ed := by
  simp only [kindOk, Schema.enumDefault] at he
  cases h : S.enums[e]? with
  | none => rw [h] at he; cases he
  | some ed => exact ⟨ed, rfl⟩

theorem deEnum_sound {e : Nat} (he : kindOk S (.enum e) = true) (j : Json) :
    Sound st (fun r => ∀ v, r = some v → scalarOk (.enum e) v = true) (deEnum S o e j) := by
  obtain ⟨ed, hed⟩ := enum_some he
  unfold deEnum
  rw [hed]
  simp only
  have key : ∀ x : Except JErr (Option (BitVec 32)), Sound st (fun _ => True) x →
      Sound st (fun r => ∀ v, r = some v → scalarOk (.enum e) v = true)
        (x.map (fun v => v.map Value.enum)) := by
    intro x hx
    refine hx.map (fun a _ v hv => ?_)
    cases a with
    | none => cases hv
    | some b => cases hv; rfl
  apply key
  split
  · unfold visitNull
    repeat' split
    all_goals first | trivial | exact sound_err
  · unfold visitEnum
    split
    · repeat' split
      all_goals first | trivial | exact sound_err
    · exact (tryInto_sound _ _ _).map (fun _ h => h)
    · exact (tryInto_sound _ _ _).map (fun _ h => h)
    · exact sound_err

/-- The kinds for which `null` is a value of its own. -/
def nullKind (S : Schema) : Kind → Bool
  | .message d =>
    match S.msg? d with
    | some md => md.name == Wkt.value.name
    | none => false
  | .enum e =>
    match S.enums[e]? with
    | some ed => ed.name == nullName
    | none => false
  | _ => false

/-- The extensions of a message have distinct numbers. -/
def extsApart (S : Schema) : Bool := S.msgs.all (fun md => decide (md.extensions.map (·.number)).Nodup)

/-- What reading JSON relies on beyond `Schema.wf`: the extensions of a message have distinct
numbers, and no repeated field of a message that is read field by field holds
`google.protobuf.Value` or `google.protobuf.NullValue`. -/
def jsonSafe (S : Schema) : Bool :=
  extsApart S && S.msgs.all (fun md => (wkt? md.name).isSome ||
    (md.fields ++ md.extensions).all (fun f => f.card != .repeated || !nullKind S f.kind))

theorem jsonSafe_null (h : jsonSafe S = true) {d : Nat} {md : MsgDesc} (hd : S.msg? d = some md)
    (hw : wkt? md.name = none) {f : FieldDesc} (hf : f ∈ md.fields ++ md.extensions) (hc : f.card = .repeated) :
    nullKind S f.kind = false := by
  rw [jsonSafe, Bool.and_eq_true] at h
  have h1 := List.all_eq_true.1 h.2 md (List.mem_of_getElem? hd)
  rw [hw, Option.isSome_none, Bool.false_or] at h1
  have h2 := List.all_eq_true.1 h1 f hf
  simpa [hc] using h2

theorem jsonSafe_exts (h : jsonSafe S = true) : extsApart S = true := by
  rw [jsonSafe, Bool.and_eq_true] at h
  exact h.1

theorem getExtension_of_nodup {md : MsgDesc} (h : (md.extensions.map (·.number)).Nodup)
    {f : FieldDesc} (hf : f ∈ md.extensions) : md.getExtension f.number = some f := by
  unfold MsgDesc.getExtension
  revert hf h
  generalize md.extensions = l
  intro h2 hf
  induction l with
  | nil => cases hf
  | cons g r ih =>
    simp only [List.map_cons, List.nodup_cons, List.mem_map, not_exists, not_and] at h2
    rw [List.find?_cons]
    rcases List.mem_cons.1 hf with rfl | hf
    · simp
    · have : (g.number == f.number) = false := by
        simp only [beq_eq_false_iff_ne]
        exact fun e => h2.1 f hf e.symm
      rw [this]
      exact ih h2.2 hf

theorem extsApart_ext (h : extsApart S = true) {d : Nat} {md : MsgDesc} (hd : S.msg? d = some md)
    {f : FieldDesc} (hf : f ∈ md.extensions) : md.getExtension f.number = some f := by
  have h1 := List.all_eq_true.1 h md (List.mem_of_getElem? hd)
  simp only [decide_eq_true_eq] at h1
  exact getExtension_of_nodup h1 hf

/-- A value read for a field: it conforms, and a message field always gets one. -/
def Read (S : Schema) (f : FieldDesc) (r : Option Value) : Prop :=
  (∀ v, r = some v → confVal S f v = true) ∧ (f.card ≠ .repeated → f.kind.isMessage = true → r.isSome = true)

/-- Reading the values inside is sound for values no deeper than `L`. -/
def SubOk (S : Schema) (st : Bool) (L : Nat) (val : FieldDesc → Json → Except JErr (Option Value)) : Prop :=
  ∀ f j, FieldWf S f → (st = true → j.depth ≤ L) → Sound st (Read S f) (val f j)

theorem deNull_sound (hS : S.wf = true) {f : FieldDesc} (hf : FieldWf S f)
    (hn : f.card = .repeated → nullKind S f.kind = false) :
    Sound st (fun r => ∀ v, r = some v → confVal S f v = true) (deNull S f) := by
  unfold deNull
  split
  · rename_i d hk
    have := hf.kind
    rw [hk] at this
    obtain ⟨md, hmd⟩ := Option.isSome_iff_exists.1 this
    rw [hmd]
    simp only
    split
    · rename_i hname
      have hc : f.card ≠ .repeated := by
        intro hc
        have := hn hc
        simp [nullKind, hk, hmd, hname] at this
      refine (makeMsg_sound hS hmd (wrap_conf (w := .value) (v := .enum 0) rfl rfl rfl)).map
        (fun m hm v hv => ?_)
      cases hv
      exact confVal_msg hc (hm.2 ▸ hk) hm.1
    · intro v hv; cases hv
  · rename_i e hk
    have := hf.kind
    rw [hk] at this
    obtain ⟨ed, hed⟩ := enum_some this
    rw [hed]
    simp only
    split
    · rename_i hname
      intro v hv
      cases hv
      have hc : f.card ≠ .repeated := by
        intro hc
        have := hn hc
        simp [nullKind, hk, hed, hname] at this
      exact confVal_scalar hc (by rw [hk]; rfl)
    · intro v hv; cases hv
  · intro v hv; cases hv

theorem deOpt_sound (hS : S.wf = true) {L : Nat} {val : FieldDesc → Json → Except JErr (Option Value)}
    (hv : SubOk S st L val) {f : FieldDesc} (hf : FieldWf S f)
    (hn : f.card = .repeated → nullKind S f.kind = false) {j : Json} (hj : st = true → j.depth ≤ L) :
    Sound st (fun r => ∀ v, r = some v → confVal S f v = true) (deOpt S val f j) := by
  unfold deOpt
  split
  · exact deNull_sound hS hf hn
  · exact (hv f j hf hj).imp (fun r hr => hr.1)

theorem keyField_mem {md : MsgDesc} {key : Name} {f : FieldDesc} (h : keyField md key = some f) :
    f ∈ md.fields := by
  unfold keyField at h
  split at h
  · rename_i g hg
    cases h
    exact List.mem_of_find?_eq_some hg
  · exact List.mem_of_find?_eq_some h

theorem findKey_depth {key : List Char} {L : Nat} : {es buf : List (List Char × Json)} →
    {buf' : List (List Char × Json)} → {j : Json} → {rest : List (List Char × Json)} →
    findKey key buf es = some (buf', j, rest) →
    (∀ p ∈ es, p.2.depth ≤ L) → (∀ p ∈ buf, p.2.depth ≤ L) →
    (∀ p ∈ buf', p.2.depth ≤ L) ∧ j.depth ≤ L ∧ ∀ p ∈ rest, p.2.depth ≤ L
  | [], _, _, _, _, h, _, _ => by cases h
  | (k, j) :: r, buf, buf', j', rest, h, h1, h2 => by
    unfold findKey at h
    split at h
    · cases h
      exact ⟨h2, h1 (k, _) List.mem_cons_self, fun p hp => h1 p (by simp [hp])⟩
    · refine findKey_depth h (fun p hp => h1 p (by simp [hp])) (fun p hp => ?_)
      rcases mem_put hp with rfl | hp
      · exact Nat.le_trans (norm_depth j) (h1 (k, j) (by simp))
      · exact h2 p hp

/-- A `HashMap` yields its entries in some order. -/
def OrderOk (env : JEnv) : Prop := ∀ l, (env.order l).Perm l

theorem plainField_wf {k : Kind} (hk : kindOk S k = true) : FieldWf S (plainField k) where
  num := by show ValidNumber 1; decide
  kind := hk
  group := nofun
  packed := nofun
  rep := nofun
  msg := fun _ _ => rfl
  dflt := nofun
  oneof := .inl rfl

theorem deKey_sound {k : Kind} (hk : ∃ k0, MapKey.default k = some k0) (s : List Char) :
    Sound st (fun key => keyOk k key = true) (deKey k s) := by
  obtain ⟨k0, hk⟩ := hk
  unfold deKey
  split
  all_goals first
    | exact (orErr_sound _).map (fun _ _ => rfl)
    | skip
  · simp only [Sound, keyOk, utf8Valid_encode, Bool.and_true]; rfl
  · rename_i h1 h2 h3 h4 h5 h6 h7 h8 h9 h10 h11 h12
    cases k <;> first | contradiction | (cases hk; done)

end

end Verif.Json
