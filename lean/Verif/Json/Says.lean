import Verif.Json.Make
/-!
The JSON value a `google.protobuf.Value`, `Struct` or `ListValue` stands for.
-/
set_option autoImplicit false
namespace Verif.Json
open Verif.Wire Verif.Dyn Verif.Pool

mutual
/-- The message is a `Value` that stands for the JSON value. -/
inductive Says : Json → Value → Prop
  | null {d : Nat} : Says .null (.msg d [(1, .val (.enum 0))])
  | bool {d : Nat} (b : Bool) : Says (.bool b) (.msg d [(4, .val (.bool b))])
  | num {d : Nat} {v : BitVec 64} : finite64 v = true → Says (.float v) (.msg d [(2, .val (.f64 v))])
  | str {d : Nat} (s : List Char) : Says (.str s) (.msg d [(3, .val (.str (utf8Encode s)))])
  | arr {d e : Nat} {js : List Json} {fs : FieldSet} : SaysList js fs → Says (.arr js) (.msg d [(6, .val (.msg e fs))])
  | obj {d e : Nat} {es : List (List Char × Json)} {fs : FieldSet} : SaysStruct es fs →
      Says (.obj es) (.msg d [(5, .val (.msg e fs))])
/-- The fields are those of a `ListValue` that stands for the array. -/
inductive SaysList : List Json → FieldSet → Prop
  | none : SaysList [] []
  | some {js : List Json} {vs : List Value} : SaysAll js vs → SaysList js [(1, .val (.list vs))]
/-- The fields are those of a `Struct` that stands for the object. -/
inductive SaysStruct : List (List Char × Json) → FieldSet → Prop
  | none : SaysStruct [] []
  | some {es : List (List Char × Json)} {kvs : List (MapKey × Value)} : SaysObj es kvs → KeysSorted es →
      SaysStruct es [(1, .val (.map kvs))]
/-- One by one. -/
inductive SaysAll : List Json → List Value → Prop
  | nil : SaysAll [] []
  | cons {j : Json} {v : Value} {js : List Json} {vs : List Value} : Says j v → SaysAll js vs → SaysAll (j :: js) (v :: vs)
/-- One by one. -/
inductive SaysObj : List (List Char × Json) → List (MapKey × Value) → Prop
  | nil : SaysObj [] []
  | cons {k : List Char} {j : Json} {v : Value} {es : List (List Char × Json)} {kvs : List (MapKey × Value)} : Says j v →
      SaysObj es kvs → SaysObj ((k, j) :: es) ((.str (utf8Encode k), v) :: kvs)
end

/-! ### Renaming -/

mutual
theorem Says.ren (ρ : Nat → Nat) : (j : Json) → {v : Value} → Says j v → Says j (renVal ρ v)
  | .null, _, .null => .null
  | .bool _, _, .bool b => .bool b
  | .float _, _, .num h => .num h
  | .str _, _, .str s => .str s
  | .uint _, _, h => by cases h
  | .sint _, _, h => by cases h
  | .arr js, _, .arr h => .arr (SaysList.ren ρ js h)
  | .obj es, _, .obj h => .obj (SaysStruct.ren ρ es h)
theorem SaysList.ren (ρ : Nat → Nat) : (js : List Json) → {fs : FieldSet} → SaysList js fs → SaysList js (renSlots ρ fs)
  | [], _, h => by
    cases h with
    | none => exact .none
    | some h => cases h; exact .some .nil
  | j :: js, _, h => by
    cases h with
    | some h => exact .some (SaysAll.ren ρ (j :: js) h)
theorem SaysStruct.ren (ρ : Nat → Nat) : (es : List (List Char × Json)) → {fs : FieldSet} → SaysStruct es fs →
    SaysStruct es (renSlots ρ fs)
  | [], _, h => by
    cases h with
    | none => exact .none
    | some h hs => cases h; exact .some .nil hs
  | e :: es, _, h => by
    cases h with
    | some h hs => exact .some (SaysObj.ren ρ (e :: es) h) hs
theorem SaysAll.ren (ρ : Nat → Nat) : (js : List Json) → {vs : List Value} → SaysAll js vs → SaysAll js (renVals ρ vs)
  | [], _, .nil => .nil
  | j :: js, _, .cons h1 h2 => .cons (Says.ren ρ j h1) (SaysAll.ren ρ js h2)
theorem SaysObj.ren (ρ : Nat → Nat) : (es : List (List Char × Json)) → {kvs : List (MapKey × Value)} → SaysObj es kvs →
    SaysObj es (renMap ρ kvs)
  | [], _, .nil => .nil
  | (_, j) :: es, _, .cons h1 h2 => .cons (Says.ren ρ j h1) (SaysObj.ren ρ es h2)
end

/-! ### The canonical form -/

theorem conf_slot {d n : Nat} {v : Value} {f : FieldDesc} (hc : confMsg stdSchema ⟨d, [(n, .val v)]⟩ = true)
    (hf : stdSchema.field? d n = some f) : confVal stdSchema f v = true := by
  simp only [confMsg, Bool.and_eq_true, confSlots, hf] at hc
  exact hc.2.1

theorem canon_slot {d n : Nat} {v : Value} {f : FieldDesc} (hf : stdSchema.field? d n = some f)
    (hh : hasVal stdSchema f v = some true) :
    canonSlots stdSchema d [(n, .val v)] = [(n, .val (canonVal stdSchema f v))] := by
  simp only [canonSlots, hf, hh, if_true]

theorem has_values (vs : List Value) :
    hasVal stdSchema (stdField 1 "values" (.message 5) .repeated false none) (.list vs) = some (!vs.isEmpty) := by
  have h : fieldDefault stdSchema (stdField 1 "values" (.message 5) .repeated false none) = some (.list []) := by decide +kernel
  simp only [hasVal, isDefault, h, Option.map_some]
  cases vs <;> simp [Value.beq, beqVals, stdField]

theorem has_entries (kvs : List (MapKey × Value)) :
    hasVal stdSchema (stdField 1 "fields" (.message 4) .repeated false none) (.map kvs) = some (!kvs.isEmpty) := by
  have h : fieldDefault stdSchema (stdField 1 "fields" (.message 4) .repeated false none) = some (.map []) := by decide +kernel
  simp only [hasVal, isDefault, h, Option.map_some]
  cases kvs <;> simp [Value.beq, beqMap, stdField]

theorem drop_slot {d n : Nat} {v : Value} {f : FieldDesc} (hf : stdSchema.field? d n = some f)
    (hh : hasVal stdSchema f v = some false) : canonSlots stdSchema d [(n, .val v)] = [] := by
  simp only [canonSlots, hf, hh]
  rfl

mutual
theorem Says.canon : (j : Json) → {v : Value} → {f : FieldDesc} → Says j v → confVal stdSchema f v = true →
    f.kind = .message 5 → Says j (canonVal stdSchema f v)
  | .null, _, f, .null, hc, hk => by
    obtain ⟨-, h, hc⟩ := confMsg_of_confVal hc
    rw [hk] at h
    cases h
    simp only [canonVal]
    rw [canon_slot (f := stdField 1 "null_value" (.enum 0) .optional true (some 0)) rfl rfl]
    exact .null
  | .bool _, _, f, .bool b, hc, hk => by
    obtain ⟨-, h, hc⟩ := confMsg_of_confVal hc
    rw [hk] at h
    cases h
    simp only [canonVal]
    rw [canon_slot (f := stdField 4 "bool_value" .bool .optional true (some 0)) rfl rfl]
    exact .bool b
  | .float _, _, f, .num hv, hc, hk => by
    obtain ⟨-, h, hc⟩ := confMsg_of_confVal hc
    rw [hk] at h
    cases h
    simp only [canonVal]
    rw [canon_slot (f := stdField 2 "number_value" .double .optional true (some 0)) rfl rfl]
    exact .num hv
  | .str _, _, f, .str s, hc, hk => by
    obtain ⟨-, h, hc⟩ := confMsg_of_confVal hc
    rw [hk] at h
    cases h
    simp only [canonVal]
    rw [canon_slot (f := stdField 3 "string_value" .string .optional true (some 0)) rfl rfl]
    exact .str s
  | .uint _, _, _, h, _, _ => by cases h
  | .sint _, _, _, h, _, _ => by cases h
  | .arr js, _, f, .arr h, hc, hk => by
    obtain ⟨-, h', hc⟩ := confMsg_of_confVal hc
    rw [hk] at h'
    cases h'
    have hc' := conf_slot (f := stdField 6 "list_value" (.message 6) .optional true (some 0)) hc rfl
    obtain ⟨-, h', hc'⟩ := confMsg_of_confVal hc'
    cases h'
    simp only [canonVal]
    rw [canon_slot (f := stdField 6 "list_value" (.message 6) .optional true (some 0)) rfl rfl]
    exact .arr (SaysList.canon js h hc')
  | .obj es, _, f, .obj h, hc, hk => by
    obtain ⟨-, h', hc⟩ := confMsg_of_confVal hc
    rw [hk] at h'
    cases h'
    have hc' := conf_slot (f := stdField 5 "struct_value" (.message 3) .optional true (some 0)) hc rfl
    obtain ⟨-, h', hc'⟩ := confMsg_of_confVal hc'
    cases h'
    simp only [canonVal]
    rw [canon_slot (f := stdField 5 "struct_value" (.message 3) .optional true (some 0)) rfl rfl]
    exact .obj (SaysStruct.canon es h hc')
theorem SaysList.canon : (js : List Json) → {fs : FieldSet} → SaysList js fs → confMsg stdSchema ⟨6, fs⟩ = true →
    SaysList js (canonSlots stdSchema 6 fs)
  | [], _, h, hc => by
    cases h with
    | none => exact .none
    | some h =>
      cases h
      rw [drop_slot (f := stdField 1 "values" (.message 5) .repeated false none) rfl (has_values [])]
      exact .none
  | j :: js, _, h, hc => by
    cases h with
    | some h =>
      have hc' := conf_slot (f := stdField 1 "values" (.message 5) .repeated false none) hc rfl
      simp only [confVal, Bool.and_eq_true] at hc'
      rw [canon_slot (f := stdField 1 "values" (.message 5) .repeated false none) rfl (by rw [has_values]; cases h; rfl)]
      exact .some (SaysAll.canon (j :: js) h hc'.2 rfl)
theorem SaysStruct.canon : (es : List (List Char × Json)) → {fs : FieldSet} → SaysStruct es fs →
    confMsg stdSchema ⟨3, fs⟩ = true → SaysStruct es (canonSlots stdSchema 3 fs)
  | [], _, h, hc => by
    cases h with
    | none => exact .none
    | some h =>
      cases h
      rw [drop_slot (f := stdField 1 "fields" (.message 4) .repeated false none) rfl (has_entries [])]
      exact .none
  | e :: es, _, h, hc => by
    cases h with
    | some h hs =>
      have hc' := conf_slot (f := stdField 1 "fields" (.message 4) .repeated false none) hc rfl
      simp only [confVal, Bool.and_eq_true] at hc'
      have hm := hc'.2
      have hkv : stdSchema.mapKV 4 = some (stdField 1 "key" .string .optional false none,
        stdField 2 "value" (.message 5) .optional true none) := rfl
      simp only [stdField] at hm hkv
      simp only [hkv, Bool.and_eq_true] at hm
      rw [canon_slot (f := stdField 1 "fields" (.message 4) .repeated false none) rfl (by rw [has_entries]; cases h; rfl)]
      exact .some (SaysObj.canon (e :: es) h hm.2 trivial) hs
theorem SaysAll.canon : (js : List Json) → {vs : List Value} → {f : FieldDesc} → SaysAll js vs →
    confVals stdSchema f vs = true → f.kind = .message 5 → SaysAll js (canonVals stdSchema f vs)
  | [], _, _, .nil, _, _ => .nil
  | j :: js, _, f, .cons h1 h2, hc, hk => by
    simp only [confVals, Bool.and_eq_true] at hc
    exact .cons (Says.canon j h1 hc.1 hk) (SaysAll.canon js h2 hc.2 hk)
theorem SaysObj.canon : (es : List (List Char × Json)) → {kvs : List (MapKey × Value)} → {kd : FieldDesc} → SaysObj es kvs →
    confMap stdSchema kd (stdField 2 "value" (.message 5) .optional true none) kvs = true →
    True → SaysObj es (canonMap stdSchema (stdField 2 "value" (.message 5) .optional true none) kvs)
  | [], _, _, .nil, _, _ => .nil
  | (_, j) :: es, _, _, .cons h1 h2, hc, _ => by
    simp only [confMap, Bool.and_eq_true] at hc
    exact .cons (Says.canon j h1 hc.1.2 rfl) (SaysObj.canon es h2 hc.2 trivial)
end

/-! ### Written -/

theorem strOf_encode (s : List Char) : strOf (utf8Encode s) = .ok s := by
  unfold strOf
  rw [utf8Decode_encode]

theorem putSorted_last {α : Type} {k : List Char} {v : α} : (l : List (List Char × α)) → (∀ p ∈ l, keyLt p.1 k = true) →
    putSorted k v l = l ++ [(k, v)]
  | [], _ => rfl
  | (k', v') :: r, h => by
    have h1 := h (k', v') (by simp)
    simp only at h1
    have h2 : k ≠ k' := fun e => by rw [e, keyLt_irrefl] at h1; cases h1
    have h3 : keyLt k k' = false := by
      cases h4 : keyLt k k' with
      | false => rfl
      | true => have := keyLt_trans h1 h4; rw [keyLt_irrefl] at this; cases this
    simp only [putSorted, if_neg h2, h3, List.cons_append]
    rw [putSorted_last r (fun p hp => h p (by simp [hp]))]
    rfl

theorem sortKeys_sorted {α : Type} {es : List (List Char × α)} (h : KeysSorted es) : sortKeys es = es := by
  have main : ∀ (es acc : List (List Char × α)), KeysSorted (acc ++ es) →
      es.foldl (fun acc p => putSorted p.1 p.2 acc) acc = acc ++ es := by
    intro es
    induction es with
    | nil => intro acc _; simp
    | cons e r ih =>
      intro acc hs
      have h1 : ∀ p ∈ acc, keyLt p.1 e.1 = true := fun p hp => (List.pairwise_append.1 hs).2.2 p hp e (by simp)
      rw [List.foldl_cons, putSorted_last acc h1, ih _ (by simpa using hs)]
      simp
  exact main es [] (by simpa using h)

mutual
theorem Says.write : (j : Json) → {v : Value} → Says j v → {k : Nat} → j.depth ≤ k → serValue k v = .ok j
  | j, _, _, 0, hk => absurd hk (by have := j.depth_pos; omega)
  | .null, _, .null, _ + 1, _ => rfl
  | .bool _, _, .bool b, _ + 1, _ => rfl
  | .float _, _, .num hv, _ + 1, _ => by
    simp only [serValue]
    show (if finite64 _ = true then _ else _) = _
    rw [if_pos hv]
  | .str _, _, .str s, _ + 1, _ => by
    show (strOf (utf8Encode s)).map Json.str = _
    rw [strOf_encode]; rfl
  | .uint _, _, h, _ + 1, _ => by cases h
  | .sint _, _, h, _ + 1, _ => by cases h
  | .arr js, _, .arr h, k + 1, hk => by
    simp only [Json.depth] at hk
    exact SaysList.write js h (by omega)
  | .obj es, _, .obj h, k + 1, hk => by
    simp only [Json.depth] at hk
    exact SaysStruct.write es h (by omega)
theorem SaysList.write : (js : List Json) → {fs : FieldSet} → SaysList js fs → {k : Nat} → depthList js ≤ k →
    serList (serValue k) fs = .ok (.arr js)
  | [], _, h, k, hk => by
    cases h with
    | none => rfl
    | some h => cases h; rfl
  | j :: js, _, h, k, hk => by
    cases h with
    | @some _ vs h =>
      show (mapE (serValue k) vs).map Json.arr = _
      rw [SaysAll.write (j :: js) h hk]; rfl
theorem SaysStruct.write : (es : List (List Char × Json)) → {fs : FieldSet} → SaysStruct es fs → {k : Nat} → depthObj es ≤ k →
    serStruct (serValue k) fs = .ok (.obj es)
  | [], _, h, k, hk => by
    cases h with
    | none => rfl
    | some h => cases h; rfl
  | e :: es, _, h, k, hk => by
    cases h with
    | @some _ kvs h hs =>
      show (mapE (stdEntry (serValue k)) kvs).map (fun es => Json.obj (sortKeys es)) = _
      rw [SaysObj.write (e :: es) h hk]
      simp only [Except.map, sortKeys_sorted hs]
theorem SaysAll.write : (js : List Json) → {vs : List Value} → SaysAll js vs → {k : Nat} → depthList js ≤ k →
    mapE (serValue k) vs = .ok js
  | [], _, .nil, _, _ => rfl
  | j :: js, _, .cons h1 h2, k, hk => by
    simp only [depthList] at hk
    simp only [mapE, Says.write j h1 (k := k) (by omega), SaysAll.write js h2 (k := k) (by omega)]
theorem SaysObj.write : (es : List (List Char × Json)) → {kvs : List (MapKey × Value)} → SaysObj es kvs → {k : Nat} →
    depthObj es ≤ k → mapE (stdEntry (serValue k)) kvs = .ok es
  | [], _, .nil, _, _ => rfl
  | (_, j) :: es, _, .cons h1 h2, k, hk => by
    simp only [depthObj] at hk
    simp only [mapE, stdEntry, strOf_encode, Says.write j h1 (k := k) (by omega), SaysObj.write es h2 (k := k) (by omega)]
end

end Verif.Json
