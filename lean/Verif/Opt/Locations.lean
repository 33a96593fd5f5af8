import Verif.Opt.Set
import Verif.Pool.Visit
/-!
Source locations of options: the paths computed while options are set, and the rewriting of the
file's `source_code_info`.
-/
set_option autoImplicit false
namespace Verif.Opt
open Verif.Wire Verif.Dyn Verif.Text Verif.Pool

/-- What `set_field_value` appends to the path: the index of a new list element
(options.rs:472-473; the cast to `i32` is left out). -/
def indexPath : Value → Path
  | .list vs => [vs.length]
  | _ => []

/-- `set_option` (options.rs:341-437) with the path it computes, relative to the options message:
the number of each part of the name (lines 361, 397) and the index of a list element. -/
def setOptionAt (env : OEnv) (S : Schema) (u : Uninterp) : List Part → DynMsg → Except OErr (DynMsg × Path)
  | [], m => .ok (m, [])
  | p :: ps, m =>
    match S.msg? m.desc with
    | none => .error .panic
    | some md =>
      match lookPart env md m.desc p with
      | .error e => .error e
      | .ok (f, sib) =>
        if ps = [] then
          match (if f.card ≠ .repeated then FieldSet.has S m.fields f else some false) with
          | none => .error .panic
          | some true => .error .duplicate
          | some false =>
            match FieldSet.getMut S sib m.fields f with
            | none => .error .panic
            | some (fs, v) =>
              match setValue env S f.kind u v with
              | .error e => .error e
              | .ok v' => .ok (⟨m.desc, FieldSet.write f v' fs⟩, f.number :: indexPath v)
        else
          match FieldSet.getMut S sib m.fields f with
          | none => .error .panic
          | some (fs, .msg d sub) =>
            match setOptionAt env S u ps ⟨d, sub⟩ with
            | .error e => .error e
            | .ok (m', q) => .ok (⟨m.desc, FieldSet.write f m'.toValue fs⟩, f.number :: q)
          | some _ => .error .invalidType

/-- The loop over the uninterpreted options (options.rs:322-332) with the paths of all of them. -/
def setOptionsAt (env : OEnv) (S : Schema) : List Uninterp → DynMsg → Except OErr (DynMsg × List Path)
  | [], m => .ok (m, [])
  | u :: us, m =>
    match setOptionAt env S u u.parts m with
    | .error e => .error e
    | .ok (m', q) =>
      match setOptionsAt env S us m' with
      | .error e => .error e
      | .ok (m'', qs) => .ok (m'', q :: qs)

/-- The rewriting rules of one options message at `o` (options.rs:326-331, 434): from
`o, 999, i` to `o` followed by the path of option `i`. -/
def rules (o : Path) : Nat → List Path → List (Path × Path)
  | _, [] => []
  | i, q :: qs => (o ++ [uninterpretedNumber, i], o ++ q) :: rules o (i + 1) qs

/-- One rule on the path of one location (options.rs:57-59). -/
def relocate (l : Path) (r : Path × Path) : Path :=
  if r.1.isPrefixOf l then r.2 ++ l.drop r.1.length else l

/-- All rules of a file, one after another, on the path of one location (options.rs:53-63). -/
def relocateAll (rs : List (Path × Path)) (l : Path) : Path := rs.foldl relocate l

/-- Where the options of the visited descriptor are in the file (options.rs:77-298). -/
def eventPaths : Event → List Path
  | .file p _ _ => [p ++ [8]]
  | .message p _ _ _ _ m => (p ++ [7]) :: m.extRanges.mapIdx (fun i _ => p ++ [5, i, 3])
  | .field p _ _ _ _ _ => [p ++ [8]]
  | .oneof p _ _ _ _ _ => [p ++ [2]]
  | .service p _ _ _ _ => [p ++ [3]]
  | .method p _ _ _ _ _ => [p ++ [4]]
  | .enum p _ _ _ _ _ => [p ++ [3]]
  | .enumValue p _ _ _ _ _ => [p ++ [3]]
  | .extension p _ _ _ _ _ => [p ++ [8]]

/-- The places of all options messages of a file, in the order they are resolved. -/
def optionPaths (f : FileP) (o : Offs) : List Path := (visitFile f o).1.flatMap eventPaths

/-- Following a path into a message: field numbers, and indices of list elements. -/
def valueAt : Value → Path → Option Value
  | v, [] => some v
  | .msg _ fs, n :: r =>
    match SMap.get? fs n with
    | some (.val v) => valueAt v r
    | _ => none
  | .list vs, i :: r =>
    match vs[i]? with
    | some v => valueAt v r
    | none => none
  | _, _ :: _ => none

/-! ### Lemmas -/

variable {env : OEnv} {S : Schema}

theorem setOptionAt_fst (u : Uninterp) : ∀ (ps : List Part) (m : DynMsg),
    setOption env S u ps m =
      match setOptionAt env S u ps m with
      | .ok (m', _) => .ok m'
      | .error e => .error e
  | [], m => rfl
  | p :: ps, m => by
    unfold setOption setOptionAt
    cases S.msg? m.desc with
    | none => rfl
    | some md =>
      simp only
      cases lookPart env md m.desc p with
      | error e => rfl
      | ok fs =>
        obtain ⟨f, sib⟩ := fs
        simp only
        by_cases hps : ps = []
        · rw [if_pos hps, if_pos hps]
          cases (if f.card ≠ .repeated then FieldSet.has S m.fields f else some false) with
          | none => rfl
          | some b =>
            cases b with
            | true => rfl
            | false =>
              simp only
              cases FieldSet.getMut S sib m.fields f with
              | none => rfl
              | some x =>
                obtain ⟨fs, v⟩ := x
                simp only
                cases setValue env S f.kind u v <;> rfl
        · rw [if_neg hps, if_neg hps]
          cases FieldSet.getMut S sib m.fields f with
          | none => rfl
          | some x =>
            obtain ⟨fs, v⟩ := x
            cases v with
            | msg d sub =>
              simp only
              rw [setOptionAt_fst u ps ⟨d, sub⟩]
              cases setOptionAt env S u ps ⟨d, sub⟩ <;> rfl
            | _ => rfl

theorem setOptionsAt_fst : ∀ (us : List Uninterp) (m : DynMsg),
    setOptions env S us m =
      match setOptionsAt env S us m with
      | .ok (m', _) => .ok m'
      | .error e => .error e
  | [], m => rfl
  | u :: us, m => by
    unfold setOptions setOptionsAt
    rw [setOptionAt_fst]
    cases setOptionAt env S u u.parts m with
    | error e => rfl
    | ok x =>
      obtain ⟨m', q⟩ := x
      simp only
      rw [setOptionsAt_fst us m']
      cases setOptionsAt env S us m' <;> rfl

/-! Rewriting. -/

theorem relocate_hit (f t r : Path) : relocate (f ++ r) (f, t) = t ++ r := by
  unfold relocate
  rw [if_pos (by simp)]
  simp

theorem relocate_miss {l : Path} {x : Path × Path} (h : ¬ x.1 <+: l) : relocate l x = l := by
  unfold relocate
  rw [if_neg (by simpa using h)]

theorem relocateAll_miss {rs : List (Path × Path)} {l : Path} (h : ∀ x ∈ rs, ¬ x.1 <+: l) :
    relocateAll rs l = l := by
  unfold relocateAll
  induction rs with
  | nil => rfl
  | cons x rs ih =>
    rw [List.foldl_cons, relocate_miss (h x List.mem_cons_self)]
    exact ih (fun y hy => h y (List.mem_cons_of_mem _ hy))

theorem relocateAll_append (rs rs' : List (Path × Path)) (l : Path) :
    relocateAll (rs ++ rs') l = relocateAll rs' (relocateAll rs l) := by
  simp only [relocateAll, List.foldl_append]

theorem mem_rules {o : Path} {x : Path × Path} : ∀ {i : Nat} {qs : List Path}, x ∈ rules o i qs →
    ∃ j q, qs[j]? = some q ∧ x = (o ++ [uninterpretedNumber, i + j], o ++ q)
  | i, [], h => by cases h
  | i, q :: qs, h => by
    simp only [rules, List.mem_cons] at h
    rcases h with rfl | h
    · exact ⟨0, q, rfl, rfl⟩
    · obtain ⟨j, q', h1, h2⟩ := mem_rules h
      exact ⟨j + 1, q', h1, by rw [h2]; simp only [Nat.add_assoc, Nat.add_comm 1 j]⟩

theorem prefix_cons2 {o l : Path} {a b : Nat} : o ++ [a, b] <+: o ++ l ↔ ∃ r, l = a :: b :: r := by
  rw [List.prefix_append_right_inj]
  constructor
  · rintro ⟨r, hr⟩; exact ⟨r, by rw [← hr]; rfl⟩
  · rintro ⟨r, rfl⟩; exact ⟨r, rfl⟩

/-- The rules of one options message. -/
theorem rules_hit {o r : Path} : ∀ {i j : Nat} {qs : List Path} {q : Path}, qs[j]? = some q →
    (∀ q ∈ qs, q ≠ [] ∧ q.head? ≠ some uninterpretedNumber) →
    relocateAll (rules o i qs) (o ++ uninterpretedNumber :: (i + j) :: r) = o ++ (q ++ r)
  | i, j, [], q, h, _ => by cases h
  | i, j, q0 :: qs, q, h, hq => by
    have hmiss : ∀ q1 : Path, q1 ≠ [] ∧ q1.head? ≠ some uninterpretedNumber →
        relocateAll (rules o (i + 1) qs) (o ++ (q1 ++ r)) = o ++ (q1 ++ r) := by
      intro q1 h1
      apply relocateAll_miss
      intro x hx hp
      obtain ⟨k, q2, -, rfl⟩ := mem_rules hx
      obtain ⟨t, ht⟩ := prefix_cons2.1 hp
      cases q1 with
      | nil => exact h1.1 rfl
      | cons a q1 =>
        simp only [List.cons_append, List.cons.injEq] at ht
        exact h1.2 (by simp [ht.1])
    simp only [rules]
    cases j with
    | zero =>
      simp only [List.getElem?_cons_zero, Option.some.injEq] at h
      subst h
      have e : o ++ uninterpretedNumber :: (i + 0) :: r = (o ++ [uninterpretedNumber, i]) ++ r := by simp
      show relocateAll (rules o (i + 1) qs) (relocate _ _) = _
      rw [e, relocate_hit, List.append_assoc]
      exact hmiss q0 (hq q0 List.mem_cons_self)
    | succ j =>
      simp only [List.getElem?_cons_succ] at h
      show relocateAll (rules o (i + 1) qs) (relocate _ _) = _
      rw [relocate_miss (by
        intro hp
        obtain ⟨t, ht⟩ := prefix_cons2.1 hp
        simp only [List.cons.injEq] at ht
        omega)]
      rw [show i + (j + 1) = i + 1 + j by omega]
      exact rules_hit h (fun q hq' => hq q (List.mem_cons_of_mem _ hq'))

/-! Places of options messages: none is a prefix of another. -/

/-- Places inside an enum. -/
inductive InEnum : Path → Prop
  | opts : InEnum [3]
  | value (i : Nat) : InEnum [2, i, 3]

/-- Places inside a service. -/
inductive InService : Path → Prop
  | opts : InService [3]
  | method (i : Nat) : InService [2, i, 4]

/-- Places inside a message. -/
inductive InMsg : Path → Prop
  | opts : InMsg [7]
  | range (i : Nat) : InMsg [5, i, 3]
  | field (i : Nat) : InMsg [2, i, 8]
  | oneof (i : Nat) : InMsg [8, i, 2]
  | ext (i : Nat) : InMsg [6, i, 8]
  | enum (i : Nat) {r : Path} (h : InEnum r) : InMsg (4 :: i :: r)
  | nested (i : Nat) {r : Path} (h : InMsg r) : InMsg (3 :: i :: r)

/-- Places inside a file. -/
inductive InFile : Path → Prop
  | opts : InFile [8]
  | msg (i : Nat) {r : Path} (h : InMsg r) : InFile (4 :: i :: r)
  | enum (i : Nat) {r : Path} (h : InEnum r) : InFile (5 :: i :: r)
  | service (i : Nat) {r : Path} (h : InService r) : InFile (6 :: i :: r)
  | ext (i : Nat) : InFile [7, i, 8]

theorem InEnum.free {p q : Path} (hp : InEnum p) (hq : InEnum q) (h : p <+: q) : p = q := by
  cases hp <;> cases hq <;> simp_all [List.cons_prefix_cons]

theorem InService.free {p q : Path} (hp : InService p) (hq : InService q) (h : p <+: q) : p = q := by
  cases hp <;> cases hq <;> simp_all [List.cons_prefix_cons]

theorem InMsg.free {p q : Path} (hp : InMsg p) (hq : InMsg q) (h : p <+: q) : p = q := by
  induction hp generalizing q with
  | nested i hr ih =>
    cases hq with
    | nested j hs =>
      simp only [List.cons_prefix_cons, true_and] at h
      rw [h.1, ih hs h.2]
    | _ => simp [List.cons_prefix_cons] at h
  | enum i hr =>
    cases hq with
    | enum j hs =>
      simp only [List.cons_prefix_cons, true_and] at h
      rw [h.1, hr.free hs h.2]
    | _ => simp [List.cons_prefix_cons] at h
  | _ => cases hq <;> simp_all [List.cons_prefix_cons]

theorem InFile.free {p q : Path} (hp : InFile p) (hq : InFile q) (h : p <+: q) : p = q := by
  cases hp with
  | msg i hr =>
    cases hq with
    | msg j hs =>
      simp only [List.cons_prefix_cons, true_and] at h
      rw [h.1, hr.free hs h.2]
    | _ => simp [List.cons_prefix_cons] at h
  | enum i hr =>
    cases hq with
    | enum j hs =>
      simp only [List.cons_prefix_cons, true_and] at h
      rw [h.1, hr.free hs h.2]
    | _ => simp [List.cons_prefix_cons] at h
  | service i hr =>
    cases hq with
    | service j hs =>
      simp only [List.cons_prefix_cons, true_and] at h
      rw [h.1, hr.free hs h.2]
    | _ => simp [List.cons_prefix_cons] at h
  | _ => cases hq <;> simp_all [List.cons_prefix_cons]

/-! The places in a file, in closed form. -/

/-- The places inside the members of a list of declarations. -/
def placesIn {α : Type} (g : α → List Path) (tag : Nat) : Nat → List α → List Path
  | _, [] => []
  | i, x :: xs => (g x).map (fun r => tag :: i :: r) ++ placesIn g tag (i + 1) xs

def enumPlaces (e : EnumP) : List Path := [3] :: placesIn (fun _ => [[3]]) 2 0 e.values
def servicePlaces (s : ServiceP) : List Path := [3] :: placesIn (fun _ => [[4]]) 2 0 s.methods

mutual
def msgPlaces : MsgP → List Path
  | ⟨_, fields, exts, nested, enums, extRanges, oneofs, _, _, _⟩ =>
    ([7] :: placesIn (fun _ => [[3]]) 5 0 extRanges) ++ (placesIn (fun _ => [[2]]) 8 0 oneofs ++
      (placesIn (fun _ => [[8]]) 2 0 fields ++ (msgsPlaces 3 0 nested ++
        (placesIn enumPlaces 4 0 enums ++ placesIn (fun _ => [[8]]) 6 0 exts))))
termination_by structural m => m
def msgsPlaces (tag : Nat) : Nat → List MsgP → List Path
  | _, [] => []
  | i, m :: ms => (msgPlaces m).map (fun r => tag :: i :: r) ++ msgsPlaces tag (i + 1) ms
termination_by structural _ ms => ms
end

def filePlaces (f : FileP) : List Path :=
  [8] :: (msgsPlaces 4 0 f.messages ++ (placesIn enumPlaces 5 0 f.enums ++
    (placesIn servicePlaces 6 0 f.services ++ placesIn (fun _ => [[8]]) 7 0 f.exts)))

theorem msgsPlaces_eq (tag : Nat) : ∀ (i : Nat) (ms : List MsgP), msgsPlaces tag i ms = placesIn msgPlaces tag i ms
  | _, [] => by simp only [msgsPlaces, placesIn]
  | i, m :: ms => by simp only [msgsPlaces, placesIn, msgsPlaces_eq tag (i + 1) ms]

theorem mem_placesIn {α : Type} {g : α → List Path} {tag : Nat} {p : Path} : ∀ {i : Nat} {xs : List α},
    p ∈ placesIn g tag i xs → ∃ j x r, i ≤ j ∧ x ∈ xs ∧ r ∈ g x ∧ p = tag :: j :: r
  | i, [], h => by cases h
  | i, x :: xs, h => by
    simp only [placesIn, List.mem_append, List.mem_map] at h
    rcases h with ⟨r, hr, rfl⟩ | h
    · exact ⟨i, x, r, Nat.le_refl _, List.mem_cons_self, hr, rfl⟩
    · obtain ⟨j, y, r, h1, h2, h3, h4⟩ := mem_placesIn h
      exact ⟨j, y, r, by omega, List.mem_cons_of_mem _ h2, h3, h4⟩

theorem nodup_placesIn {α : Type} {g : α → List Path} {tag : Nat} : ∀ {i : Nat} {xs : List α},
    (∀ x ∈ xs, (g x).Nodup) → (placesIn g tag i xs).Nodup
  | i, [], _ => by simp [placesIn]
  | i, x :: xs, h => by
    simp only [placesIn]
    rw [List.nodup_append]
    refine ⟨?_, nodup_placesIn (fun y hy => h y (List.mem_cons_of_mem _ hy)), ?_⟩
    · refine List.Pairwise.map _ ?_ (h x List.mem_cons_self)
      intro a b hab e
      simp only [List.cons.injEq, true_and] at e
      exact hab e
    · intro a ha b hb e
      subst e
      simp only [List.mem_map] at ha
      obtain ⟨r, -, rfl⟩ := ha
      obtain ⟨j, y, r', h1, -, -, h4⟩ := mem_placesIn hb
      simp only [List.cons.injEq, true_and] at h4
      omega

/-- Lists of places that start with different tags are disjoint. -/
theorem placesIn_apart {α : Type} {g : α → List Path} {tag i : Nat} {xs : List α} {l : List Path}
    (hl : ∀ p ∈ l, p.head? ≠ some tag) : ∀ a ∈ placesIn g tag i xs, ∀ b ∈ l, a ≠ b := by
  rintro a ha b hb rfl
  obtain ⟨j, x, r, -, -, -, rfl⟩ := mem_placesIn ha
  exact hl _ hb rfl

theorem placesIn_head {α : Type} {g : α → List Path} {tag i : Nat} {xs : List α} {p : Path}
    (h : p ∈ placesIn g tag i xs) : p.head? = some tag := by
  obtain ⟨j, x, r, -, -, -, rfl⟩ := mem_placesIn h
  rfl

theorem nodup_enum (e : EnumP) : (enumPlaces e).Nodup := by
  unfold enumPlaces
  refine List.nodup_cons.2 ⟨fun h => ?_, nodup_placesIn (by simp)⟩
  have := placesIn_head h
  simp at this

theorem nodup_service (e : ServiceP) : (servicePlaces e).Nodup := by
  unfold servicePlaces
  refine List.nodup_cons.2 ⟨fun h => ?_, nodup_placesIn (by simp)⟩
  have := placesIn_head h
  simp at this

theorem nodup_append' {l l' : List Path} (h : l.Nodup) (h' : l'.Nodup) (hd : ∀ a ∈ l, ∀ b ∈ l', a ≠ b) :
    (l ++ l').Nodup := List.nodup_append.2 ⟨h, h', hd⟩

mutual
theorem nodup_msg : (m : MsgP) → (msgPlaces m).Nodup
  | ⟨_, fields, exts, nested, enums, extRanges, oneofs, _, _, _⟩ => by
    have hn := nodup_msgs 3 0 nested
    simp only [msgPlaces]
    rw [msgsPlaces_eq] at hn ⊢
    refine nodup_append' (List.nodup_cons.2 ⟨fun h => ?_, nodup_placesIn (by simp)⟩)
      (nodup_append' (nodup_placesIn (by simp)) (nodup_append' (nodup_placesIn (by simp))
        (nodup_append' hn (nodup_append' (nodup_placesIn (fun _ _ => nodup_enum _)) (nodup_placesIn (by simp))
          ?_) ?_) ?_) ?_) ?_
    · have := placesIn_head h
      simp at this
    · refine placesIn_apart (fun p hp => ?_)
      rw [placesIn_head hp]; simp
    · refine placesIn_apart (fun p hp => ?_)
      simp only [List.mem_append] at hp
      rcases hp with hp | hp <;> (rw [placesIn_head hp]; simp)
    · refine placesIn_apart (fun p hp => ?_)
      simp only [List.mem_append] at hp
      rcases hp with hp | hp | hp <;> (rw [placesIn_head hp]; simp)
    · refine placesIn_apart (fun p hp => ?_)
      simp only [List.mem_append] at hp
      rcases hp with hp | hp | hp | hp <;> (rw [placesIn_head hp]; simp)
    · intro a ha b hb e
      subst e
      have h1 : a.head? = some 7 ∨ a.head? = some 5 := by
        simp only [List.mem_cons] at ha
        rcases ha with rfl | ha
        · exact .inl rfl
        · exact .inr (placesIn_head ha)
      simp only [List.mem_append] at hb
      rcases hb with hb | hb | hb | hb | hb <;> (rw [placesIn_head hb] at h1; simp at h1)
termination_by structural m => m
theorem nodup_msgs (tag : Nat) : (i : Nat) → (ms : List MsgP) → (msgsPlaces tag i ms).Nodup
  | _, [] => by simp [msgsPlaces]
  | i, m :: ms => by
    have h1 := nodup_msg m
    have h2 := nodup_msgs tag (i + 1) ms
    simp only [msgsPlaces]
    refine nodup_append' ?_ h2 ?_
    · refine List.Pairwise.map _ ?_ h1
      intro a b hab e
      simp only [List.cons.injEq, true_and] at e
      exact hab e
    · rw [msgsPlaces_eq]
      intro a ha b hb e
      subst e
      simp only [List.mem_map] at ha
      obtain ⟨r, -, rfl⟩ := ha
      obtain ⟨j, y, r', h1, -, -, h4⟩ := mem_placesIn hb
      simp only [List.cons.injEq, true_and] at h4
      omega
termination_by structural _ ms => ms
end

theorem nodup_file (f : FileP) : (filePlaces f).Nodup := by
  unfold filePlaces
  rw [msgsPlaces_eq]
  refine List.nodup_cons.2 ⟨fun h => ?_, nodup_append' (nodup_placesIn (fun m _ => nodup_msg m))
    (nodup_append' (nodup_placesIn (fun _ _ => nodup_enum _)) (nodup_append'
      (nodup_placesIn (fun _ _ => nodup_service _)) (nodup_placesIn (by simp)) ?_) ?_) ?_⟩
  · simp only [List.mem_append] at h
    rcases h with h | h | h | h <;> (have := placesIn_head h; simp at this)
  · refine placesIn_apart (fun p hp => ?_)
    rw [placesIn_head hp]; simp
  · refine placesIn_apart (fun p hp => ?_)
    simp only [List.mem_append] at hp
    rcases hp with hp | hp <;> (rw [placesIn_head hp]; simp)
  · refine placesIn_apart (fun p hp => ?_)
    simp only [List.mem_append] at hp
    rcases hp with hp | hp | hp <;> (rw [placesIn_head hp]; simp)

theorem inEnum_places {e : EnumP} {p : Path} (h : p ∈ enumPlaces e) : InEnum p := by
  simp only [enumPlaces, List.mem_cons] at h
  rcases h with rfl | h
  · exact .opts
  · obtain ⟨j, x, r, -, -, hr, rfl⟩ := mem_placesIn h
    simp only [List.mem_singleton] at hr
    subst hr
    exact .value j

theorem inService_places {e : ServiceP} {p : Path} (h : p ∈ servicePlaces e) : InService p := by
  simp only [servicePlaces, List.mem_cons] at h
  rcases h with rfl | h
  · exact .opts
  · obtain ⟨j, x, r, -, -, hr, rfl⟩ := mem_placesIn h
    simp only [List.mem_singleton] at hr
    subst hr
    exact .method j

mutual
theorem inMsg_places : (m : MsgP) → ∀ p ∈ msgPlaces m, InMsg p
  | ⟨_, fields, exts, nested, enums, extRanges, oneofs, _, _, _⟩ => by
    have hn := inMsgs_places 3 0 nested
    intro p h
    simp only [msgPlaces, List.mem_append, List.mem_cons] at h
    rcases h with (rfl | h) | h | h | h | h | h
    · exact .opts
    · obtain ⟨j, x, r, -, -, hr, rfl⟩ := mem_placesIn h
      simp only [List.mem_singleton] at hr
      subst hr
      exact .range j
    · obtain ⟨j, x, r, -, -, hr, rfl⟩ := mem_placesIn h
      simp only [List.mem_singleton] at hr
      subst hr
      exact .oneof j
    · obtain ⟨j, x, r, -, -, hr, rfl⟩ := mem_placesIn h
      simp only [List.mem_singleton] at hr
      subst hr
      exact .field j
    · obtain ⟨j, r, rfl, hr⟩ := hn p h
      exact .nested j hr
    · obtain ⟨j, x, r, -, -, hr, rfl⟩ := mem_placesIn h
      exact .enum j (inEnum_places hr)
    · obtain ⟨j, x, r, -, -, hr, rfl⟩ := mem_placesIn h
      simp only [List.mem_singleton] at hr
      subst hr
      exact .ext j
termination_by structural m => m
theorem inMsgs_places (tag : Nat) : (i : Nat) → (ms : List MsgP) → ∀ p ∈ msgsPlaces tag i ms,
    ∃ j r, p = tag :: j :: r ∧ InMsg r
  | _, [] => by simp [msgsPlaces]
  | i, m :: ms => by
    have h1 := inMsg_places m
    have h2 := inMsgs_places tag (i + 1) ms
    intro p h
    simp only [msgsPlaces, List.mem_append, List.mem_map] at h
    rcases h with ⟨r, hr, rfl⟩ | h
    · exact ⟨i, r, rfl, h1 r hr⟩
    · exact h2 p h
termination_by structural _ ms => ms
end

theorem inFile_places {f : FileP} {p : Path} (h : p ∈ filePlaces f) : InFile p := by
  simp only [filePlaces, List.mem_append, List.mem_cons] at h
  rcases h with rfl | h | h | h | h
  · exact .opts
  · obtain ⟨j, r, rfl, hr⟩ := inMsgs_places 4 0 _ p h
    exact .msg j hr
  · obtain ⟨j, x, r, -, -, hr, rfl⟩ := mem_placesIn h
    exact .enum j (inEnum_places hr)
  · obtain ⟨j, x, r, -, -, hr, rfl⟩ := mem_placesIn h
    exact .service j (inService_places hr)
  · obtain ⟨j, x, r, -, -, hr, rfl⟩ := mem_placesIn h
    simp only [List.mem_singleton] at hr
    subst hr
    exact .ext j

/-! The traversal visits these places. -/

theorem placesIn_mapIdx {α : Type} (tag : Nat) (t : Path) : ∀ (i : Nat) (xs : List α),
    placesIn (fun _ => [t]) tag i xs = xs.mapIdx (fun j _ => tag :: (i + j) :: t)
  | _, [] => rfl
  | i, x :: xs => by
    simp only [placesIn, List.map_cons, List.map_nil, List.cons_append, List.nil_append, List.mapIdx_cons,
      Nat.add_zero, placesIn_mapIdx tag t (i + 1) xs]
    congr 1
    congr 1
    funext j y
    rw [show i + 1 + j = i + (j + 1) by omega]

theorem map_mapIdx' {α β γ : Type} (f : β → γ) (g : Nat → α → β) (xs : List α) :
    (xs.mapIdx g).map f = xs.mapIdx (fun i x => f (g i x)) := by
  induction xs generalizing g with
  | nil => rfl
  | cons x xs ih => simp only [List.mapIdx_cons, List.map_cons, ih]

theorem flatMap_mapIdx {α : Type} {g : Nat → α → Event} {path t : Path} {tag : Nat} {xs : List α}
    (h : ∀ i x, eventPaths (g i x) = [path ++ (tag :: i :: t)]) :
    (xs.mapIdx g).flatMap eventPaths = (placesIn (fun _ => [t]) tag 0 xs).map (path ++ ·) := by
  rw [placesIn_mapIdx, map_mapIdx', List.flatMap_def, map_mapIdx']
  have : (fun i x => eventPaths (g i x)) = (fun i _ => [path ++ (tag :: (0 + i) :: t)]) := by
    funext i x
    rw [h, Nat.zero_add]
  rw [this]
  have : ∀ (k : Nat → Path) (ys : List α), (ys.mapIdx (fun i _ => [k i])).flatten = ys.mapIdx (fun i _ => k i) := by
    intro k ys
    induction ys generalizing k with
    | nil => rfl
    | cons y ys ih => simp only [List.mapIdx_cons, List.flatten_cons, ih (fun i => k (i + 1))]; rfl
  rw [this (fun i => path ++ (tag :: (0 + i) :: t))]

theorem visitEnums_places (path : Path) (tag : Nat) (scope : Name) (file : Nat) (parent : Option Nat) :
    ∀ (i : Nat) (es : List EnumP) (o : Offs), (visitEnums path tag scope file parent i es o).1.flatMap eventPaths =
      (placesIn enumPlaces tag i es).map (path ++ ·)
  | _, [], _ => rfl
  | i, e :: es, o => by
    simp only [visitEnums, placesIn, List.flatMap_cons, List.flatMap_append,
      visitEnums_places path tag scope file parent (i + 1) es, enumPlaces, List.map_append, List.map_cons, eventPaths]
    unfold visitValues
    rw [flatMap_mapIdx (path := path ++ [tag, i]) (t := [3]) (tag := 2) (fun i x => by simp [eventPaths, Tag.enumValue])]
    simp [Function.comp_def, List.append_assoc]

theorem visitExts_places (path : Path) (tag : Nat) (scope : Name) (file : Nat) (parent : Option Nat) :
    ∀ (i : Nat) (es : List FieldP) (o : Offs), (visitExts path tag scope file parent i es o).1.flatMap eventPaths =
      (placesIn (fun _ => [[8]]) tag i es).map (path ++ ·)
  | _, [], _ => rfl
  | i, e :: es, o => by
    simp only [visitExts, placesIn, List.flatMap_cons, visitExts_places path tag scope file parent (i + 1) es,
      List.map_append, List.map_cons, eventPaths]
    simp

theorem visitServices_places (scope : Name) (file : Nat) :
    ∀ (i : Nat) (es : List ServiceP) (o : Offs), (visitServices scope file i es o).1.flatMap eventPaths =
      placesIn servicePlaces 6 i es
  | _, [], _ => rfl
  | i, e :: es, o => by
    simp only [visitServices, placesIn, List.flatMap_cons, List.flatMap_append,
      visitServices_places scope file (i + 1) es, servicePlaces, List.map_cons, eventPaths]
    unfold visitMethods
    rw [flatMap_mapIdx (path := [6, i]) (t := [4]) (tag := 2) (fun i x => by simp [eventPaths, Tag.svcMethod, Tag.fileService])]
    simp [Tag.fileService]

mutual
theorem visitMsg_places (path : Path) (scope : Name) (file : Nat) (parent : Option Nat) :
    (m : MsgP) → (o : Offs) → (visitMsg path scope file parent m o).1.flatMap eventPaths =
      (msgPlaces m).map (path ++ ·)
  | ⟨name, fields, exts, nested, enums, extRanges, oneofs, options, reserved, reservedNames⟩, o => by
    have hn := visitMsgs_places path 3 (pushScope scope name) file (some o.message) 0 nested
      { o with message := o.message + 1 }
    simp only [visitMsg, msgPlaces, List.flatMap_cons, List.flatMap_append, visitEnums_places, visitExts_places,
      List.map_append, eventPaths, List.map_cons]
    unfold visitOneofs visitFields
    rw [flatMap_mapIdx (path := path) (t := [2]) (tag := 8) (fun i x => by simp [eventPaths, Tag.msgOneof]),
      flatMap_mapIdx (path := path) (t := [8]) (tag := 2) (fun i x => by simp [eventPaths, Tag.msgField])]
    simp only [Tag.msgNested, Tag.msgEnum, Tag.msgExtension] at hn ⊢
    rw [hn, placesIn_mapIdx 5, map_mapIdx']
    simp [Function.comp_def]
termination_by structural m => m
theorem visitMsgs_places (path : Path) (tag : Nat) (scope : Name) (file : Nat) (parent : Option Nat) :
    (i : Nat) → (ms : List MsgP) → (o : Offs) → (visitMsgs path tag scope file parent i ms o).1.flatMap eventPaths =
      (msgsPlaces tag i ms).map (path ++ ·)
  | _, [], _ => by simp [visitMsgs, msgsPlaces]
  | i, m :: ms, o => by
    have h1 := visitMsg_places (path ++ [tag, i]) scope file parent m o
    have h2 := visitMsgs_places path tag scope file parent (i + 1) ms
      (visitMsg (path ++ [tag, i]) scope file parent m o).2
    simp only [visitMsgs, msgsPlaces, List.flatMap_append, h1, h2, List.map_append, List.map_map]
    congr 1
    apply List.map_congr_left
    intro r _
    simp
termination_by structural _ ms => ms
end

theorem optionPaths_eq (f : FileP) (o : Offs) : optionPaths f o = filePlaces f := by
  simp only [optionPaths, visitFile, filePlaces, List.flatMap_cons, List.flatMap_append, visitMsgs_places,
    visitEnums_places, visitServices_places, visitExts_places, eventPaths, Tag.fileMessage, Tag.fileEnum,
    Tag.fileExtension]
  simp

end Verif.Opt
