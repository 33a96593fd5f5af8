import Verif.Opt.Locations
import Verif.Props.Options
/-!
C77: the source locations of options follow the options when they are resolved.
-/
set_option autoImplicit false
namespace Verif.Props
open Verif.Wire Verif.Dyn Verif.Pool Verif.Text Verif.Opt

/-! ### Where the locations go -/

/-- The rules of all options messages of a file, in the order they are resolved. -/
def fileRules (jobs : List (Path × List Path)) : List (Path × Path) :=
  jobs.flatMap (fun j => rules j.1 0 j.2)

theorem comparable_of_prefix {p q l r r' : Path} (h : p ++ r <+: l) (h' : l = q ++ r') : p <+: q ∨ q <+: p := by
  subst h'
  exact List.prefix_or_prefix_of_prefix ((List.prefix_append p r).trans h) (List.prefix_append q r')

/-- **C77, what moves.** Take the options messages of a file with the paths their uninterpreted
options were resolved to. Each location of an uninterpreted option, or of a part of it, moves to the
path of the option, with the rest of its path unchanged; every other location stays. -/
theorem C77_moves_partial (f : FileP) (o : Offs) {jobs : List (Path × List Path)}
    (hjobs : jobs.map (·.1) = optionPaths f o)
    (hq : ∀ j ∈ jobs, ∀ q ∈ j.2, q ≠ [] ∧ q.head? ≠ some 999) :
    (∀ p qs i q r, (p, qs) ∈ jobs → qs[i]? = some q →
      relocateAll (fileRules jobs) (p ++ 999 :: i :: r) = p ++ (q ++ r)) ∧
    (∀ l, (∀ p qs i, (p, qs) ∈ jobs → i < qs.length → ¬ p ++ [999, i] <+: l) →
      relocateAll (fileRules jobs) l = l) := by
  have hnd : (jobs.map (·.1)).Nodup := by rw [hjobs, optionPaths_eq]; exact nodup_file f
  have hin : ∀ j ∈ jobs, InFile j.1 := by
    intro j hj
    have : j.1 ∈ jobs.map (·.1) := List.mem_map.2 ⟨j, hj, rfl⟩
    rw [hjobs, optionPaths_eq] at this
    exact inFile_places this
  constructor
  · intro p qs i q r hmem hqi
    obtain ⟨A, B, rfl⟩ := List.append_of_mem hmem
    have hother : ∀ C, (∀ j ∈ C, j ∈ A ++ (p, qs) :: B ∧ j.1 ≠ p) → ∀ t : Path,
        relocateAll (fileRules C) (p ++ t) = p ++ t := by
      intro C hC t
      apply relocateAll_miss
      intro x hx hp
      simp only [fileRules, List.mem_flatMap] at hx
      obtain ⟨j, hj, hx⟩ := hx
      obtain ⟨k, q', -, rfl⟩ := mem_rules hx
      obtain ⟨h1, h2⟩ := hC j hj
      rcases comparable_of_prefix hp rfl with h | h
      · exact h2 ((hin j h1).free (hin _ hmem) h)
      · exact h2 ((hin _ hmem).free (hin j h1) h).symm
    rw [List.map_append, List.map_cons, List.nodup_append] at hnd
    obtain ⟨-, h2, h3⟩ := hnd
    have hA : ∀ j ∈ A, j ∈ A ++ (p, qs) :: B ∧ j.1 ≠ p := fun j hj =>
      ⟨List.mem_append_left _ hj, h3 j.1 (List.mem_map.2 ⟨j, hj, rfl⟩) p List.mem_cons_self⟩
    have hB : ∀ j ∈ B, j ∈ A ++ (p, qs) :: B ∧ j.1 ≠ p := fun j hj =>
      ⟨List.mem_append_right _ (List.mem_cons_of_mem _ hj), fun e =>
        (List.nodup_cons.1 h2).1 (e ▸ List.mem_map.2 ⟨j, hj, rfl⟩)⟩
    have e : fileRules (A ++ (p, qs) :: B) = fileRules A ++ (rules p 0 qs ++ fileRules B) := by
      simp [fileRules]
    rw [e, relocateAll_append, relocateAll_append, hother A hA]
    have := rules_hit (o := p) (r := r) (i := 0) hqi (hq _ hmem)
    rw [Nat.zero_add] at this
    rw [show p ++ 999 :: i :: r = p ++ uninterpretedNumber :: i :: r from rfl, this]
    exact hother B hB _
  · intro l hl
    apply relocateAll_miss
    intro x hx hp
    simp only [fileRules, List.mem_flatMap] at hx
    obtain ⟨j, hj, hx⟩ := hx
    obtain ⟨k, q', hk, rfl⟩ := mem_rules hx
    refine hl j.1 j.2 k hj (List.getElem?_eq_some_iff.1 hk).1 ?_
    rw [Nat.zero_add] at hp
    exact hp

/-! ### Where the paths lead -/

variable {env : OEnv} {S : Schema}

/-- The field an option name leads to, with the numbers of all its parts. -/
inductive PathOf (env : OEnv) (S : Schema) : Nat → List Part → Path → FieldDesc → Prop
  | last {d : Nat} {md : MsgDesc} {p : Part} {f : FieldDesc} {sib : List Nat} (hd : S.msg? d = some md)
      (hl : lookPart env md d p = .ok (f, sib)) : PathOf env S d [p] [f.number] f
  | more {d d' : Nat} {md : MsgDesc} {p : Part} {ps : List Part} {f g : FieldDesc} {sib : List Nat} {ns : Path}
      (hd : S.msg? d = some md) (hl : lookPart env md d p = .ok (f, sib)) (hk : f.kind = .message d')
      (h : PathOf env S d' ps ns g) : PathOf env S d (p :: ps) (f.number :: ns) g

/-- **C77, what the path leads to.** The path of an option consists of the numbers of the fields its
name goes through and, for a repeated field, the index of the new element. In the message with the
option set it leads to the value that was set. -/
theorem C77_points (hS : S.wf = true) (hX : ExtOk env S) (u : Uninterp) : ∀ {ps : List Part} {m m' : DynMsg}
    {q : Path}, confMsg S m = true → ps ≠ [] → setOptionAt env S u ps m = .ok (m', q) →
    ∃ ns f, PathOf env S m.desc ps ns f ∧
      ((q = ns ∧ ∃ v v', setValue env S f.kind u v = .ok v' ∧ indexPath v = [] ∧
          valueAt m'.toValue q = some v') ∨
       (∃ vs w x, q = ns ++ [vs.length] ∧ kindDefault S f.kind = some w ∧ setSingle env S f.kind u w = .ok x ∧
          valueAt m'.toValue ns = some (.list (vs ++ [x])) ∧ valueAt m'.toValue q = some x))
  | [], _, _, _, _, h, _ => absurd rfl h
  | p :: ps, m, m', q, hm, _, h => by
    obtain ⟨md, hC⟩ := confMsg_iff.1 hm
    unfold setOptionAt at h
    rw [hC.desc] at h
    simp only at h
    split at h
    · cases h
    · next f sib hl =>
      obtain ⟨fs, v, t⟩ := lookPart_touch hS hX hC hl
      by_cases hps : ps = []
      · subst hps
        rw [if_pos rfl] at h
        split at h
        · cases h
        · cases h
        · rw [t.gmut] at h
          simp only at h
          split at h
          · cases h
          · next v' hv' =>
            cases h
            refine ⟨_, f, .last hC.desc hl, ?_⟩
            have hg : SMap.get? (FieldSet.write f v' fs) f.number = some (.val v') := by rw [t.get, if_pos rfl]
            cases v with
            | list vs =>
              right
              simp only [setValue] at hv'
              split at hv'
              · cases hv'
              · next w hw =>
                split at hv'
                · next x hx =>
                  cases hv'
                  refine ⟨vs, w, x, rfl, hw, hx, ?_, ?_⟩
                  · simp only [DynMsg.toValue, valueAt, hg]
                  · simp [DynMsg.toValue, valueAt, hg, indexPath]
                · cases hv'
            | _ =>
              left
              refine ⟨rfl, _, v', hv', rfl, ?_⟩
              simp only [DynMsg.toValue, valueAt, hg, indexPath]
      · rw [if_neg hps, t.gmut] at h
        cases v with
        | msg d sub =>
          simp only at h
          split at h
          · cases h
          · next m1 q1 h1 =>
            cases h
            have hc := confMsg_of_confVal t.conf
            obtain ⟨ns, g, hN, hr⟩ := C77_points hS hX u (m := ⟨d, sub⟩) hc.2.2 hps h1
            have hg : SMap.get? (FieldSet.write f m1.toValue fs) f.number = some (.val m1.toValue) := by
              rw [t.get, if_pos rfl]
            have hgo : ∀ r, valueAt (DynMsg.toValue ⟨m.desc, FieldSet.write f m1.toValue fs⟩) (f.number :: r) =
                valueAt m1.toValue r := by
              intro r
              simp only [DynMsg.toValue] at hg ⊢
              simp only [valueAt, hg]
            refine ⟨_, g, .more hC.desc hl hc.2.1 hN, ?_⟩
            rcases hr with ⟨rfl, w, w', h2, h3, h4⟩ | ⟨vs, w, x, rfl, h2, h3, h4, h5⟩
            · exact .inl ⟨rfl, w, w', h2, h3, by rw [hgo]; exact h4⟩
            · exact .inr ⟨vs, w, x, rfl, h2, h3, by rw [hgo]; exact h4, by
                show valueAt _ (f.number :: (ns ++ [vs.length])) = _
                rw [hgo]; exact h5⟩
        | _ => cases h

/-- A path through fields that later options do not replace: present and in no oneof. -/
def Stable (S : Schema) : Value → Path → Prop
  | .msg d fs, n :: r => ∃ f v, SMap.get? fs n = some (.val v) ∧
      (S.field? d n = some f ∨ S.ext? d n = some f) ∧ Fixed S f v ∧ Stable S v r
  | _, _ => True
termination_by _ r => r.length

theorem stable_msg {d n : Nat} {fs : List (Nat × Slot)} {r : Path} (h : Stable S (.msg d fs) (n :: r)) :
    ∃ f v, SMap.get? fs n = some (.val v) ∧
      (S.field? d n = some f ∨ S.ext? d n = some f) ∧ Fixed S f v ∧ Stable S v r := by
  unfold Stable at h
  exact h

theorem keeps_at : ∀ {q : Path} {a b v : Value}, Keeps S a b → valueAt a q = some v → Stable S a q →
    ∃ w, valueAt b q = some w ∧ Keeps S v w
  | [], a, b, v, hk, h, _ => by
    simp only [valueAt, Option.some.injEq] at h
    subst h
    exact ⟨b, by simp only [valueAt], hk⟩
  | n :: r, a, b, v, hk, h, hs => by
    cases hk with
    | same => exact ⟨v, h, .same v⟩
    | list vs ws =>
      simp only [valueAt] at h ⊢
      split at h
      · next x hx =>
        rw [List.getElem?_append_left (List.getElem?_eq_some_iff.1 hx).1, hx]
        exact ⟨v, h, .same v⟩
      · cases h
    | map kvs kvs' hk => simp only [valueAt] at h; cases h
    | msg d fs fs' g hu hv hk =>
      obtain ⟨f, x, hx, hf, hF, hst⟩ := stable_msg hs
      simp only [valueAt, hx] at h
      simp only [valueAt, hv n x f hx hf hF]
      exact keeps_at (hk n x f hx hf hF) h hst

theorem setOptionsAt_split : ∀ (us us' : List Uninterp) {m m' : DynMsg} {qs : List Path},
    setOptionsAt env S (us ++ us') m = .ok (m', qs) →
    ∃ m1 qs1 qs2, setOptionsAt env S us m = .ok (m1, qs1) ∧ setOptionsAt env S us' m1 = .ok (m', qs2) ∧
      qs = qs1 ++ qs2
  | [], us', m, m', qs, h => ⟨m, [], qs, rfl, h, rfl⟩
  | u :: us, us', m, m', qs, h => by
    simp only [List.cons_append, setOptionsAt] at h ⊢
    cases hu : setOptionAt env S u u.parts m with
    | error e => rw [hu] at h; cases h
    | ok x =>
      obtain ⟨m1, q⟩ := x
      rw [hu] at h
      simp only at h ⊢
      cases hr : setOptionsAt env S (us ++ us') m1 with
      | error e => rw [hr] at h; cases h
      | ok y =>
        obtain ⟨m2, qs'⟩ := y
        rw [hr] at h
        cases h
        obtain ⟨m3, qs1, qs2, h1, h2, rfl⟩ := setOptionsAt_split us us' hr
        exact ⟨m3, q :: qs1, qs2, by rw [h1], h2, rfl⟩

theorem valueAt_clear {m : DynMsg} {md : MsgDesc} (h : Conf S m md) {n k : Nat} {r : Path} (hn : n ≠ k) :
    valueAt (DynMsg.clearByNumber md m k).toValue (n :: r) = valueAt m.toValue (n :: r) := by
  unfold DynMsg.clearByNumber
  split
  · next f hf =>
    have : f.number = k := (getField_mem hf).2
    subst this
    simp only [DynMsg.clearField, FieldSet.clear, DynMsg.toValue, valueAt]
    rw [SMap.get?_erase h.sorted, if_neg hn]
  · rfl

/-- **C77, after all options are set.** The path of option `i` still leads, in the message that is
stored in the end, to the value it led to when the option was set, with what later options added to
it; oneof members on the way are left out (`C77_oneof_false`), and fields whose value counts as absent. -/
theorem C77_stays_partial (hS : S.wf = true) (hA : textSafe S = true) (hp : ParsesFloats env.text.parse64)
    (hX : ExtOk env S) (hX' : ExtSafe env) {us : List Uninterp} {m m' : DynMsg} {md : MsgDesc} {qs : List Path}
    (hm : confMsg S m = true) (hmd : S.msg? m.desc = some md) (h : setOptionsAt env S us m = .ok (m', qs)) {i : Nat} {u : Uninterp}
    (hi : us[i]? = some u) :
    ∃ q m0 m1, qs[i]? = some q ∧ confMsg S m0 = true ∧ setOptionAt env S u u.parts m0 = .ok (m1, q) ∧
      ∀ v, valueAt m1.toValue q = some v → Stable S m1.toValue q → q ≠ [] → q.head? ≠ some 999 →
        ∃ w, valueAt (DynMsg.clearByNumber md m' 999).toValue q = some w ∧ Keeps S v w := by
  have hsplit : us = us.take i ++ u :: us.drop (i + 1) := by
    obtain ⟨hlt, he⟩ := List.getElem?_eq_some_iff.1 hi
    rw [← he, ← List.drop_eq_getElem_cons hlt, List.take_append_drop]
  rw [hsplit] at h
  obtain ⟨m0, qs1, qs2, h1, h2, rfl⟩ := setOptionsAt_split _ _ h
  simp only [setOptionsAt] at h2
  split at h2
  · cases h2
  · next m1 q hu =>
    split at h2
    · cases h2
    · next m2 qs3 hr =>
      simp only [Except.ok.injEq, Prod.mk.injEq] at h2
      obtain ⟨rfl, rfl⟩ := h2
      have k1 : setOptions env S (us.take i) m = .ok m0 := by rw [setOptionsAt_fst, h1]
      have k2 : setOption env S u u.parts m0 = .ok m1 := by rw [setOptionAt_fst, hu]
      have k3 : setOptions env S (us.drop (i + 1)) m1 = .ok m2 := by rw [setOptionsAt_fst, hr]
      obtain ⟨c0, d0, -⟩ := C29_keeps_partial hS hA hp hX hX' hm k1
      obtain ⟨c1, d1, -⟩ := C29_keeps_partial hS hA hp hX hX' (us := [u]) c0
        (by simp only [setOptions, k2]; trivial)
      obtain ⟨c2, d2, hK⟩ := C29_keeps_partial hS hA hp hX hX' c1 k3
      have hlen : qs1.length = i := by
        have : ∀ (us : List Uninterp) {m m' : DynMsg} {qs : List Path},
            setOptionsAt env S us m = .ok (m', qs) → qs.length = us.length := by
          intro us
          induction us with
          | nil => intro m m' qs h; cases h; rfl
          | cons u us ih =>
            intro m m' qs h
            simp only [setOptionsAt] at h
            split at h
            · cases h
            · split at h
              · cases h
              · next h' => cases h; simp only [List.length_cons, ih h']
        rw [this _ h1, List.length_take]
        have := (List.getElem?_eq_some_iff.1 hi).1
        omega
      refine ⟨q, m0, m1, ?_, c0, hu, fun v hv hst hne hh => ?_⟩
      · rw [List.getElem?_append_right (by omega), hlen, Nat.sub_self]
        rfl
      · obtain ⟨w, hw, hkw⟩ := keeps_at hK hv hst
        refine ⟨w, ?_, hkw⟩
        cases q with
        | nil => exact absurd rfl hne
        | cons n r =>
          obtain ⟨md2, hC2⟩ := confMsg_iff.1 c2
          have : md2 = md := by
            have := hC2.desc
            rw [d2, d1, d0, hmd] at this
            exact (Option.some.inj this).symm
          subst this
          rw [valueAt_clear hC2 (fun e => hh (by rw [e]; rfl))]
          exact hw

/-! ### Examples and what fails -/

example : PathOf optEnv optSchema 0 (plain ["sub", "c"]) [3, 3] { Ex.fld 3 "c" .uint32 with presence := true } := by
  have h1 : PathOf optEnv optSchema 1 [⟨"c".toList, false⟩] [3] { Ex.fld 3 "c" .uint32 with presence := true } :=
    PathOf.last (f := { Ex.fld 3 "c" .uint32 with presence := true }) (md := optSchema.msgs[1]) (sib := []) rfl rfl
  exact PathOf.more (f := { Ex.fld 3 "sub" (.message 1) with presence := true }) (md := optSchema.msgs[0]) (d' := 1)
    (sib := []) rfl rfl rfl h1

/-- The four options of `fourOptions` on a message with one element in `xs`: the second option is
element 1 of the list. -/
def fourPaths : Option (List Path) :=
  match decode optSchema 0 [0x10, 0x05] with
  | .ok m =>
    match setOptionsAt optEnv optSchema fourOptions m with
    | .ok (_, qs) => some qs
    | .error _ => none
  | .error _ => none

example : fourPaths = some [[1], [2, 1], [3, 3], [1000]] := by decide +kernel

/-- The path of the third option goes through a message and a present integer. -/
example : Stable optSchema (.msg 0 [(3, .val (.msg 1 [(3, .val (.u32 9))]))]) [3, 3] := by
  unfold Stable
  refine ⟨{ Ex.fld 3 "sub" (.message 1) with presence := true }, _, rfl, .inl rfl, ⟨rfl, trivial⟩, ?_⟩
  unfold Stable
  refine ⟨{ Ex.fld 3 "c" .uint32 with presence := true }, _, rfl, .inl rfl, ⟨rfl, by decide +kernel⟩, ?_⟩
  unfold Stable
  trivial

/-- A file with a message with one field; the field's options are at 4, 0, 2, 0, 8. -/
def locFile : FileP where
  name := "l.proto".toList
  messages := [{ name := "M".toList, fields := [{ name := "f".toList, number := 1, ty := .int32 }] }]

example : optionPaths locFile {} = [[8], [4, 0, 7], [4, 0, 2, 0, 8]] := by rfl
example : [([8], []), ([4, 0, 7], []), ([4, 0, 2, 0, 8], [[1], [2, 1], [3, 3], [1000]])].map
      (fun (j : Path × List Path) => j.1) = optionPaths locFile {} := by rfl
-- the name of the second option, its value, and the field itself
example : relocateAll (fileRules [([8], []), ([4, 0, 7], []), ([4, 0, 2, 0, 8], [[1], [2, 1], [3, 3], [1000]])])
    [4, 0, 2, 0, 8, 999, 1] = [4, 0, 2, 0, 8, 2, 1] := by decide
example : relocateAll (fileRules [([8], []), ([4, 0, 7], []), ([4, 0, 2, 0, 8], [[1], [2, 1], [3, 3], [1000]])])
    [4, 0, 2, 0, 8, 999, 2, 4] = [4, 0, 2, 0, 8, 3, 3, 4] := by decide
example : relocateAll (fileRules [([8], []), ([4, 0, 7], []), ([4, 0, 2, 0, 8], [[1], [2, 1], [3, 3], [1000]])])
    [4, 0, 2, 0] = [4, 0, 2, 0] := by decide

/-- Two options that set members of one oneof. -/
def oneofOptions : List Uninterp := [
  { parts := plain ["sub", "a"], pos := some 1 },
  { parts := plain ["sub", "b"], ident := some "true".toList }]

/-- The first is at 3, 1 when it is set; there is nothing in the end. -/
def oneofLost : Bool :=
  match setOptionsAt optEnv optSchema (oneofOptions.take 1) (DynMsg.empty 0),
    setOptionsAt optEnv optSchema oneofOptions (DynMsg.empty 0) with
  | .ok (m1, q :: _), .ok (m2, q' :: _) => q == [3, 1] && q' == [3, 1] && (valueAt m1.toValue q).isSome &&
      (valueAt m2.toValue q).isNone
  | _, _ => false

/-- **C77 fails in this**: the location of an option that is a oneof member leads nowhere when a
later option sets another member. -/
theorem C77_oneof_false : ∃ m1 q r m2 r', setOptionsAt optEnv optSchema (oneofOptions.take 1) (DynMsg.empty 0) = .ok (m1, q :: r) ∧
    setOptionsAt optEnv optSchema oneofOptions (DynMsg.empty 0) = .ok (m2, q :: r') ∧
    (∃ v, valueAt m1.toValue q = some v) ∧ valueAt m2.toValue q = none := by
  have h : oneofLost = true := by decide +kernel
  unfold oneofLost at h
  split at h
  · next m1 q r m2 q' r' h1 h2 =>
    simp only [Bool.and_eq_true, beq_iff_eq, Option.isSome_iff_exists, Option.isNone_iff_eq_none] at h
    obtain ⟨⟨⟨rfl, rfl⟩, h3⟩, h4⟩ := h
    exact ⟨m1, _, r, m2, r', h1, h2, h3, h4⟩
  · cases h

end Verif.Props
