import Verif.Json.Settle
import Verif.Props.JsonStd
/-!
Any JSON in `google.protobuf.Value`, `Struct` and `ListValue` (C66).
-/
set_option autoImplicit false
namespace Verif.Props
open Verif.Wire Verif.Dyn Verif.Pool Verif.Json

/-! ### What is kept is determined -/

theorem last_unique {es : List (List Char × Json)} {k : List Char} {a b : Json} (ha : Last es k a) (hb : Last es k b) : a = b := by
  induction es with
  | nil => obtain ⟨x, y, h, -⟩ := ha; cases x <;> cases h
  | cons e r ih =>
    obtain ⟨x, y, h, h'⟩ := ha
    obtain ⟨z, w, g, g'⟩ := hb
    cases x with
    | nil =>
      cases h
      cases z with
      | nil => cases g; rfl
      | cons q z =>
        cases g
        exact absurd rfl (h' (k, b) (by simp))
    | cons p x =>
      cases h
      cases z with
      | nil =>
        cases g
        exact absurd rfl (g' (k, a) (by simp))
      | cons q z =>
        simp only [List.cons_append, List.cons.injEq] at g
        exact ih ⟨x, y, rfl, h'⟩ ⟨z, w, g.2, g'⟩

theorem sorted_ext {α : Type} {a b : List (List Char × α)} (ha : KeysSorted a) (hb : KeysSorted b) (h : ∀ p, p ∈ a ↔ p ∈ b) : a = b := by
  have irr : ∀ k, ¬ keyLt k k = true := fun k h => by rw [keyLt_irrefl] at h; cases h
  induction a generalizing b with
  | nil =>
    cases b with
    | nil => rfl
    | cons q r => exact absurd ((h q).2 (by simp)) (by simp)
  | cons p r ih =>
    cases b with
    | nil => exact absurd ((h p).1 (by simp)) (by simp)
    | cons q s =>
      have h1 := List.pairwise_cons.1 ha
      have h2 := List.pairwise_cons.1 hb
      have e : p = q := by
        rcases List.mem_cons.1 ((h p).1 (by simp)) with e | hp
        · exact e
        · rcases List.mem_cons.1 ((h q).2 (by simp)) with e | hq
          · exact e.symm
          · exact absurd (keyLt_trans (h1.1 q hq) (h2.1 p hp)) (irr _)
      subst e
      rw [ih h1.2 h2.2 (fun x => ?_)]
      constructor
      · intro hx
        rcases List.mem_cons.1 ((h x).1 (by simp [hx])) with rfl | hx'
        · exact absurd (h1.1 _ hx) (irr _)
        · exact hx'
      · intro hx
        rcases List.mem_cons.1 ((h x).2 (by simp [hx])) with rfl | hx'
        · exact absurd (h2.1 _ hx) (irr _)
        · exact hx'

mutual
/-- There is one thing that is kept of a JSON value. -/
theorem settles_unique {env : JEnv} : {j a b : Json} → Settles env j a → Settles env j b → a = b
  | _, _, _, .null, h => by cases h; rfl
  | _, _, _, .bool _, h => by cases h; rfl
  | _, _, _, .uint _, h => by cases h; rfl
  | _, _, _, .sint _, h => by cases h; rfl
  | _, _, _, .float _, h => by cases h; rfl
  | _, _, _, .str _, h => by cases h; rfl
  | _, _, _, .arr h1, h => by
    cases h with
    | arr h2 => rw [settlesAll_unique h1 h2]
  | _, _, _, .obj src hs hl hv ha, h => by
    cases h with
    | obj src' hs' hl' hv' ha' =>
      rename_i es a b
      congr 1
      have key : ∀ p q, p ∈ a → q ∈ b → p.1 = q.1 → p = q := by
        intro p q hp hq e
        have e1 := last_unique (hl p hp) (by rw [e]; exact hl' q hq)
        have e2 := settles_unique (hv p hp) (by rw [e1]; exact hv' q hq)
        exact Prod.ext e e2
      have inEs : ∀ {k j}, Last es k j → ∃ p ∈ es, p.1 = k := by
        rintro k j ⟨x, y, rfl, -⟩
        exact ⟨(k, j), by simp, rfl⟩
      refine sorted_ext hs hs' (fun p => ⟨fun hp => ?_, fun hp => ?_⟩)
      · obtain ⟨e, he, ee⟩ := inEs (hl p hp)
        obtain ⟨q, hq, eq⟩ := ha' e he
        rw [key p q hp hq (by rw [eq, ee])]
        exact hq
      · obtain ⟨e, he, ee⟩ := inEs (hl' p hp)
        obtain ⟨q, hq, eq⟩ := ha e he
        rw [← key q p hq hp (by rw [eq, ee])]
        exact hq
theorem settlesAll_unique {env : JEnv} : {js as bs : List Json} → SettlesAll env js as → SettlesAll env js bs → as = bs
  | _, _, _, .nil, h => by cases h; rfl
  | _, _, _, .cons h1 h2, h => by
    cases h with
    | cons h3 h4 => rw [settles_unique h1 h3, settlesAll_unique h2 h4]
end

/-! ### Through the message -/

theorem nest_mono : ∀ (j : Json), j.nest 2 ≤ j.nest 3 := by
  have key : ∀ n, (∀ j : Json, j.depth ≤ n → j.nest 2 ≤ j.nest 3) := by
    intro n
    induction n with
    | zero => intro j h; have := j.depth_pos; omega
    | succ n ih =>
      have hl : ∀ js : List Json, depthList js ≤ n → nestAll 2 js ≤ nestAll 3 js := by
        intro js
        induction js with
        | nil => intro _; simp [nestAll]
        | cons j r ihr =>
          intro h
          simp only [depthList] at h
          have h1 := ih j (by omega)
          have h2 := ihr (by omega)
          simp only [nestAll]
          omega
      have ho : ∀ es : List (List Char × Json), depthObj es ≤ n → nestObj 2 es ≤ nestObj 3 es := by
        intro es
        induction es with
        | nil => intro _; simp [nestObj]
        | cons e r ihr =>
          obtain ⟨k, j⟩ := e
          intro h
          simp only [depthObj] at h
          have h1 := ih j (by omega)
          have h2 := ihr (by omega)
          simp only [nestObj]
          omega
      intro j h
      cases j with
      | arr js => simp only [Json.depth] at h; have := hl js (by omega); simp only [Json.nest]; omega
      | obj es => simp only [Json.depth] at h; have := ho es (by omega); simp only [Json.nest]; omega
      | _ => simp [Json.nest]
  exact fun j => key _ j (Nat.le_refl _)

/-- What is true of the fields read, and kept by new indices and by dropping what counts as absent,
is true of the fields written. -/
theorem through {env : JEnv} {S : Schema} (hS : S.wf = true) (hL : StdLike S) {d : Nat} {md : MsgDesc} {w : Wkt}
    (hmd : S.msg? d = some md) (hw : wkt? md.name = some w) (hany : w ≠ .any) (he : w ≠ .empty) (o : DOpts) {k : Nat} {j : Json}
    {gs : FieldSet} (hj : deStd env k j w = .ok gs) {Q : FieldSet → Prop} (hQ : Q gs)
    (hren : ∀ ρ fs, Q fs → Q (renSlots ρ fs))
    (hcanon : ∀ fs, Q fs → confMsg stdSchema ⟨w.std, fs⟩ = true → Q (canonSlots stdSchema w.std fs))
    (hd : ∀ fs, Q fs → depthSlots fs ≤ 100) (hwt : ∀ fs, Q fs → weightSlots fs < 2 ^ 64) :
    ∃ m, fromJson env S o k d j = .ok m ∧ m.desc = d ∧ confMsg S m = true ∧ Q m.fields ∧
      ((∀ fs, Q fs → levelsSlots fs ≤ 100) →
        ∃ fs, Q fs ∧ ∀ so k', toJson env S so k' m = serStd env so k' fs w) := by
  have hc : confMsg stdSchema ⟨w.std, gs⟩ = true := (deStd_sound (st := false) env k j nofun w hany).ok hj
  obtain ⟨σ, J, hσ, hJ, hd', hm, -, hc2⟩ := make_std hS hL hmd hw hc (hd _ hQ) (fun b hb => by
    have := encMsg_le stdSchema_wf hb
    have := hwt _ hQ
    simp only at *
    omega)
  have hQ1 := hren σ _ (hcanon _ hQ hc)
  have e := canonMsg_ren hσ (m := ⟨w.std, gs⟩) hJ hc
  generalize hM : canonMsg S (renMsg σ ⟨w.std, gs⟩) = m at hm hc2 e
  have hMf : m.fields = renSlots σ (canonSlots stdSchema w.std gs) := by rw [e]; rfl
  have hMd : m.desc = d := by rw [e, ← hd']; rfl
  rw [← hMf] at hQ1
  refine ⟨m, ?_, hMd, hc2, hQ1, fun hlev => ?_⟩
  · rw [read_std hmd hw hany o k j, hj]
    exact hm
  · have hmd' : S.msg? m.desc = some md := by rw [hMd]; exact hmd
    obtain ⟨ρ, I, hρ, hI, hdd, ht, hc3, hc4⟩ := to_std hS hL hmd' hw hc2 (hlev _ hQ1) (fun b hb => by
      have := encMsg_le hS hb
      have := hwt _ hQ1
      omega)
    refine ⟨(canonMsg stdSchema (renMsg ρ m)).fields, ?_, fun so k' => by rw [write_std hmd' hw hany he, ht]⟩
    show Q (canonSlots stdSchema (ρ m.desc) (renSlots ρ m.fields))
    rw [hdd]
    refine hcanon _ (hren ρ _ hQ1) ?_
    rw [← hdd]
    exact hc3

/-! ### The theorems -/

/-- The conversions of integers to doubles give finite ones. -/
structure FiniteInts (env : JEnv) : Prop where
  u64 : ∀ v, finite64 (env.ofU64 v) = true
  i64 : ∀ v, finite64 (env.ofI64 v) = true

theorem Says.fields {j : Json} {v : Value} (h : Says j v) : ∃ d fs, v = .msg d fs := by
  cases h <;> exact ⟨_, _, rfl⟩

theorem value_through {env : JEnv} (hE : FiniteInts env) {S : Schema} (hS : S.wf = true) (hL : StdLike S) {d : Nat} {md : MsgDesc}
    (hmd : S.msg? d = some md) (hname : md.name = "google.protobuf.Value".toList) (o : DOpts) {k : Nat} {j : Json}
    (hf : j.finite = true) (hk : j.depth ≤ k + 1) (hn : j.nest 2 ≤ 100) (hc : j.cost < 2 ^ 64) :
    ∃ m j', fromJson env S o k d j = .ok m ∧ m.desc = d ∧ confMsg S m = true ∧ Settles env j j' ∧ Says j' m.toValue ∧
      (j.nest 3 ≤ 100 → ∀ so k', j.depth ≤ k' + 1 → toJson env S so k' m = .ok j') := by
  have hw : wkt? md.name = some .value := by rw [hname]; decide +kernel
  obtain ⟨v, j', h1, h2, h3, h4⟩ := deValue_says hE.u64 hE.i64 j hf hk
  obtain ⟨d0, gs, rfl⟩ := Says.fields h3
  have hj : deStd env k j .value = .ok gs := by simp only [deStd, h1, fieldsOf]
  have anyDesc : ∀ {d fs} d', Says j' (.msg d fs) → Says j' (.msg d' fs) := by
    intro d fs d' h
    cases h with
    | null => exact .null
    | bool b => exact .bool b
    | num h => exact .num h
    | str s => exact .str s
    | arr h => exact .arr h
    | obj h => exact .obj h
  obtain ⟨m, g1, g2, g3, g4, g5⟩ := through hS hL hmd hw (by decide) (by decide) o hj (Q := fun fs => Says j' (.msg 5 fs))
    (anyDesc 5 h3)
    (fun ρ fs h => by
      have := Says.ren ρ j' h
      simp only [renVal] at this
      exact anyDesc 5 this)
    (fun fs h hcf => by
      have := Says.canon (f := plainField (.message 5)) j' h (confVal_msg (m := ⟨5, fs⟩) nofun rfl hcf) rfl
      exact this)
    (fun fs h => by
      have h5 := Says.depth j' h
      have := h4.nest 2
      simp only [depthVal] at h5
      omega)
    (fun fs h => by
      have h5 := Says.weight j' h
      have := h4.cost
      simp only [weightVal] at h5
      omega)
  refine ⟨m, j', g1, g2, g3, h2, anyDesc _ g4, fun hn3 so k' hk' => ?_⟩
  obtain ⟨fs, hq, ht⟩ := g5 (fun fs h => by
      have h5 := Says.levels j' h
      have := h4.nest 3
      simp only [levelsVal] at h5
      omega)
  rw [ht]
  have := h4.depth
  exact Says.write j' hq (k := k' + 1) (by omega)

/-- **C66** for `google.protobuf.Value`: every JSON value whose numbers are finite and that is nested
no deeper than 34 levels is accepted, and writing the message gives it back as `Settles` says. -/
theorem C66_value {env : JEnv} (hE : FiniteInts env) {S : Schema} (hS : S.wf = true) (hL : StdLike S) {d : Nat} {md : MsgDesc}
    (hmd : S.msg? d = some md) (hname : md.name = "google.protobuf.Value".toList) (o : DOpts) (so : SOpts) {k : Nat} {j : Json}
    (hf : j.finite = true) (hk : j.depth ≤ k + 1) (hd : j.depth ≤ 34) (hc : j.cost < 2 ^ 64) :
    ∃ m j', fromJson env S o k d j = .ok m ∧ m.desc = d ∧ Settles env j j' ∧ toJson env S so k m = .ok j' := by
  have h3 := nest_depth (e := 3) (by omega) j
  have hm := nest_mono j
  obtain ⟨m, j', h1, h2, -, h4, -, h5⟩ := value_through hE hS hL hmd hname o hf hk (by omega) hc
  exact ⟨m, j', h1, h2, h4, h5 (by omega) so k hk⟩

/-- Up to 50 levels are accepted. -/
theorem C66_accepts {env : JEnv} (hE : FiniteInts env) {S : Schema} (hS : S.wf = true) (hL : StdLike S) {d : Nat} {md : MsgDesc}
    (hmd : S.msg? d = some md) (hname : md.name = "google.protobuf.Value".toList) (o : DOpts) {k : Nat} {j : Json}
    (hf : j.finite = true) (hk : j.depth ≤ k + 1) (hd : j.depth ≤ 50) (hc : j.cost < 2 ^ 64) :
    ∃ m, fromJson env S o k d j = .ok m ∧ m.desc = d ∧ confMsg S m = true := by
  have h3 := nest_depth (e := 2) (by omega) j
  obtain ⟨m, j', h1, h2, h4, -⟩ := value_through hE hS hL hmd hname o hf hk (by omega) hc
  exact ⟨m, h1, h2, h4⟩

/-- **C66** for `google.protobuf.Struct`: exactly objects are accepted, and come back. -/
theorem C66_struct {env : JEnv} (hE : FiniteInts env) {S : Schema} (hS : S.wf = true) (hL : StdLike S) {d : Nat} {md : MsgDesc}
    (hmd : S.msg? d = some md) (hname : md.name = "google.protobuf.Struct".toList) (o : DOpts) (so : SOpts) {k : Nat} {j : Json} :
    ((∀ es, j ≠ .obj es) → fromJson env S o k d j = .error .err) ∧
    ∀ es, j = .obj es → j.finite = true → j.depth ≤ k + 1 → j.depth ≤ 34 → j.cost < 2 ^ 64 →
      ∃ m j', fromJson env S o k d j = .ok m ∧ m.desc = d ∧ Settles env j j' ∧ toJson env S so k m = .ok j' := by
  have hw : wkt? md.name = some .struct := by rw [hname]; decide +kernel
  constructor
  · intro h
    rw [read_std hmd hw (by decide)]
    cases j <;> first | rfl | exact absurd rfl (h _)
  · rintro es rfl hf hk hd hc
    have n3 := nest_depth (e := 3) (by omega) (.obj es)
    have hm := nest_mono (.obj es)
    simp only [Json.depth] at hk
    obtain ⟨vs, es', h1, h2⟩ := dePairs_says hE.u64 hE.i64 es hf (K := k) (by omega) [] [] [] (SoFar.empty env)
    rw [List.nil_append] at h2
    obtain ⟨h3, h4, h5⟩ := h2.settles
    have hj : deStd env k (.obj es) .struct = .ok [(1, .val (.map (vs.map (fun p => (.str (utf8Encode p.1), p.2)))))] := by
      simp only [deStd, deStruct, h1]; rfl
    obtain ⟨m, g1, g2, g3, g4, g5⟩ := through hS hL hmd hw (by decide) (by decide) o hj (Q := fun fs => SaysStruct es' fs) h5
      (fun ρ fs h => SaysStruct.ren ρ es' h) (fun fs h hcf => SaysStruct.canon es' h hcf)
      (fun fs h => by
        have h6 := SaysStruct.depth es' h
        have := h4.nest 2
        simp only [Json.nest] at *
        omega)
      (fun fs h => by
        have h6 := SaysStruct.weight es' h
        have := h4.cost
        simp only [Json.cost] at *
        omega)
    obtain ⟨fs, hq, ht⟩ := g5 (fun fs h => by
        have h6 := SaysStruct.levels es' h
        have := h4.nest 3
        simp only [Json.nest] at *
        omega)
    refine ⟨m, .obj es', g1, g2, h3, ?_⟩
    rw [ht]
    have := h4.depth
    simp only [Json.depth] at this
    exact SaysStruct.write es' hq (k := k) (by omega)

/-- **C66** for `google.protobuf.ListValue`: exactly arrays are accepted, and come back. -/
theorem C66_list {env : JEnv} (hE : FiniteInts env) {S : Schema} (hS : S.wf = true) (hL : StdLike S) {d : Nat} {md : MsgDesc}
    (hmd : S.msg? d = some md) (hname : md.name = "google.protobuf.ListValue".toList) (o : DOpts) (so : SOpts) {k : Nat} {j : Json} :
    ((∀ js, j ≠ .arr js) → fromJson env S o k d j = .error .err) ∧
    ∀ js, j = .arr js → j.finite = true → j.depth ≤ k + 1 → j.depth ≤ 34 → j.cost < 2 ^ 64 →
      ∃ m j', fromJson env S o k d j = .ok m ∧ m.desc = d ∧ Settles env j j' ∧ toJson env S so k m = .ok j' := by
  have hw : wkt? md.name = some .list := by rw [hname]; decide +kernel
  constructor
  · intro h
    rw [read_std hmd hw (by decide)]
    cases j <;> first | rfl | exact absurd rfl (h _)
  · rintro js rfl hf hk hd hc
    have n3 := nest_depth (e := 3) (by omega) (.arr js)
    have hm := nest_mono (.arr js)
    simp only [Json.depth] at hk
    obtain ⟨vs, js', h1, h2, h3, h4⟩ := deValues_says hE.u64 hE.i64 js hf (K := k) (by omega)
    have hj : deStd env k (.arr js) .list = .ok [(1, .val (.list vs))] := by
      simp only [deStd, deList, h1]; rfl
    obtain ⟨m, g1, g2, g3, g4, g5⟩ := through hS hL hmd hw (by decide) (by decide) o hj (Q := fun fs => SaysList js' fs) (.some h3)
      (fun ρ fs h => SaysList.ren ρ js' h) (fun fs h hcf => SaysList.canon js' h hcf)
      (fun fs h => by
        have h6 := SaysList.depth js' h
        have := h4.nest 2
        simp only [Json.nest] at *
        omega)
      (fun fs h => by
        have h6 := SaysList.weight js' h
        have := h4.cost
        simp only [Json.cost] at *
        omega)
    obtain ⟨fs, hq, ht⟩ := g5 (fun fs h => by
        have h6 := SaysList.levels js' h
        have := h4.nest 3
        simp only [Json.nest] at *
        omega)
    refine ⟨m, .arr js', g1, g2, .arr h2, ?_⟩
    rw [ht]
    have := h4.depth
    simp only [Json.depth] at this
    exact SaysList.write js' hq (k := k) (by omega)

/-! ### Examples and limits -/

theorem wToy_ints : FiniteInts wToy := by
  have h : finite64 0 = true := by decide +kernel
  exact ⟨fun _ => h, fun _ => h⟩

/-- `{"b": [true, {}], "a": "x", "b": null}` -/
def exValue : Json := .obj [("b".toList, .arr [.bool true, .obj []]), ("a".toList, .str "x".toList), ("b".toList, .null)]

example : ∃ m j', fromJson wToy wktSchema .default 4 5 exValue = .ok m ∧ m.desc = 5 ∧ Settles wToy exValue j' ∧
    toJson wToy wktSchema .default 4 m = .ok j' :=
  C66_value wToy_ints wkt_wf wkt_like (md := stdSchema.msgs[5]) rfl (by decide +kernel) .default .default (by decide +kernel) (by decide +kernel)
    (by decide +kernel) (by decide +kernel)

example : ∃ m j', fromJson wToy wktSchema .default 4 3 exValue = .ok m ∧ m.desc = 3 ∧ Settles wToy exValue j' ∧
    toJson wToy wktSchema .default 4 m = .ok j' :=
  (C66_struct wToy_ints wkt_wf wkt_like (md := stdSchema.msgs[3]) rfl (by decide +kernel) .default .default).2 _ rfl (by decide +kernel)
    (by decide +kernel) (by decide +kernel) (by decide +kernel)

example : ∃ m j', fromJson wToy wktSchema .default 4 6 (.arr [exValue]) = .ok m ∧ m.desc = 6 ∧ Settles wToy (.arr [exValue]) j' ∧
    toJson wToy wktSchema .default 4 m = .ok j' :=
  (C66_list wToy_ints wkt_wf wkt_like (md := stdSchema.msgs[6]) rfl (by decide +kernel) .default .default).2 _ rfl (by decide +kernel)
    (by decide +kernel) (by decide +kernel) (by decide +kernel)

/-- `{"a": "x", "b": null}` -/
example : (fromJson wToy wktSchema .default 4 5 exValue).bind (toJson wToy wktSchema .default 4) =
    .ok (.obj [("a".toList, .str "x".toList), ("b".toList, .null)]) := by decide +kernel

/-- Empty arrays in arrays. -/
def nestArr : Nat → Json
  | 0 => .arr []
  | n + 1 => .arr [nestArr n]

/-- Objects in objects. -/
def nestJson : Nat → Json
  | 0 => .obj []
  | n + 1 => .obj [("a".toList, nestJson n)]

/-- C66 fails beyond the limit: 51 arrays inside each other are not accepted, as the `Value` is encoded
and decoded again and nests twice as deep. -/
theorem C66_deep_false : (nestArr 50).depth = 51 ∧ fromJson wToy wktSchema .default 60 5 (nestArr 50) = .error .err := by
  decide +kernel

/-- And 35 objects inside each other are accepted but the message cannot be written: the decoder of
`prost_types::Value` counts three levels for each. -/
theorem C66_write_false : (nestJson 34).depth = 35 ∧ ∃ m, fromJson wToy wktSchema .default 60 5 (nestJson 34) = .ok m ∧
    toJson wToy wktSchema .default 60 m = .error .err := by
  refine ⟨by decide +kernel, ?_⟩
  have h : (fromJson wToy wktSchema .default 60 5 (nestJson 34)).bind
      (fun m => .ok (decide (toJson wToy wktSchema .default 60 m = .error .err))) = (.ok true : Except JErr Bool) := by decide +kernel
  cases hm : fromJson wToy wktSchema .default 60 5 (nestJson 34) with
  | error e => rw [hm] at h; cases h
  | ok m =>
    rw [hm] at h
    simp only [Except.bind, Except.ok.injEq, decide_eq_true_eq] at h
    exact ⟨m, rfl, h⟩

end Verif.Props
