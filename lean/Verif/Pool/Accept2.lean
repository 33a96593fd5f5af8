import Verif.Pool.Accept1
/-!
The callbacks of the second pass: when they report nothing.
-/
set_option autoImplicit false
namespace Verif.Pool
open Verif.Wire Verif.Dyn

theorem depLoop_silent {env : Env} {index : Nat} : ∀ {ds : List Name} {st st' : St}
    {tr tr' : List Nat}, (∀ d ∈ ds, lookupN st.pool.fileNames d ≠ none) →
    depLoop env index ds st tr = .ok (st', tr') → st'.errors = st.errors
  | [], st, st', tr, tr', _, h => by
    simp only [depLoop, Except.ok.injEq, Prod.mk.injEq] at h
    rw [h.1]
  | d :: ds, st, st', tr, tr', hd, h => by
    simp only [depLoop] at h
    split at h
    · simp only [bind_ok, modR_ok] at h
      obtain ⟨fs, _, tr1, _, h⟩ := h
      have hd2 : ∀ x ∈ ds, lookupN st.pool.fileNames x ≠ none :=
        fun x hx => hd x (List.mem_cons_of_mem _ hx)
      have := depLoop_silent (by exact hd2) h
      exact this
    · next hn => exact absurd hn (hd d (List.mem_cons_self ..))

theorem checkImports_silent (n : Nat) : ∀ (l : List Int) (st : St), (∀ i ∈ l, 0 ≤ i ∧ i < n) →
    checkImports n st l = st
  | [], st, _ => rfl
  | i :: l, st, h => by
    simp only [checkImports]
    rw [if_pos (h i (List.mem_cons_self ..))]
    exact checkImports_silent n l st fun j hj => h j (List.mem_cons_of_mem _ hj)

theorem reservedLoop_silent {mfile file : Nat} {n : Int} : ∀ {rs : List (Int × Int)} {st st' : St},
    (∀ r ∈ rs, inRange n r = false) → reservedLoop mfile file n st rs = .ok st' → st' = st
  | [], st, st', _, h => by simp only [reservedLoop, Except.ok.injEq] at h; exact h.symm
  | r :: rs, st, st', hr, h => by
    simp only [reservedLoop, hr r (List.mem_cons_self ..), Bool.false_eq_true, if_false] at h
    exact reservedLoop_silent (fun r hr' => hr r (List.mem_cons_of_mem _ hr')) h

theorem checkNumber_silent {st st' : St} {k : Nat} {f : FieldP} {file : Nat}
    (hn : NumberOkIn st.pool k f) (h : checkNumber st k f file = .ok st') : st' = st := by
  obtain ⟨m, fd, mp, h1, h2, h3, h4⟩ := hn
  simp only [checkNumber, checkValid, h4.valid, if_true, bind_ok, getR_ok, unwrapR_ok] at h
  obtain ⟨st1, hst1, m', hm', fd', hfd', mp', hmp', st2, hst2, h⟩ := h
  simp only [Except.ok.injEq] at hst1
  subst hst1
  rw [h1] at hm'; cases hm'
  rw [h2] at hfd'; cases hfd'
  rw [h3] at hmp'; cases hmp'
  have := reservedLoop_silent (fun r hr => by
    have := h4.reserved r hr
    simpa only [inRange, decide_eq_false_iff_not] using this) hst2
  subst this
  have he := h4.ext
  split at h
  · simpa using h.symm
  · simpa using h.symm
  · next ha hb => rw [ha, hb] at he; simp at he
  · next ha hb => rw [ha, hb] at he; simp at he

theorem resolveIn_silent {st st' : St} {scope name n : Name} {file : Nat} {path : Path} {t : Target}
    {fl : Filter} {d : Def} {fd : FileD} {r : Option Def} (hfd : st.pool.files[file]? = some fd)
    (hr : resolveName fd.trans st.pool.names scope name fl = .found n d)
    (h : resolveIn st scope name file path t fl = .ok (st', r)) :
    st'.errors = st.errors ∧ r = some d := by
  simp only [resolveIn, bind_ok, getR_ok] at h
  obtain ⟨fd', hfd', h⟩ := h
  rw [hfd] at hfd'; cases hfd'
  simp only [hr, bind_ok, Except.ok.injEq, Prod.mk.injEq] at h
  obtain ⟨st1, h1, h2, h3⟩ := h
  subst h2
  exact ⟨(setRaw_raw (fun f f' => setTypeName_strip _ _ _ _ f f') h1).2, h3.symm⟩

theorem findMessage_silent {st st' : St} {scope name : Name} {file : Nat} {path : Path} {t : Target}
    {k : Nat} {fd : FileD} {r : Option Nat} (hfd : st.pool.files[file]? = some fd)
    (hm : MessageOk fd.trans st.pool.names scope name k)
    (h : findMessage st scope name file path t = .ok (st', r)) :
    st'.errors = st.errors ∧ r = some k := by
  obtain ⟨n, d, hr, hd⟩ := hm
  simp only [findMessage, bind_ok] at h
  obtain ⟨⟨st1, d'⟩, h1, h⟩ := h
  obtain ⟨e1, rfl⟩ := resolveIn_silent hfd hr h1
  simp only [hd, Except.ok.injEq, Prod.mk.injEq] at h
  rw [← h.1, ← h.2]
  exact ⟨e1, rfl⟩

theorem resolveType_silent {st st' : St} {f : FieldP} {scope : Name} {file : Nat} {path : Path}
    {fd : FileD} {k : Kind} {g : Bool} {r : Option (Kind × Bool)}
    (hfd : st.pool.files[file]? = some fd) (ht : TypeOk fd.trans st.pool.names scope f k g)
    (h : resolveType st f scope file path = .ok (st', r)) :
    st'.errors = st.errors ∧ r = some (k, g) := by
  cases ht with
  | scalar k h1 h2 =>
    simp only [resolveType, if_pos h1, h2, Except.ok.injEq, Prod.mk.injEq] at h
    rw [← h.1, ← h.2]; exact ⟨rfl, rfl⟩
  | message n d i h1 h2 h3 =>
    simp only [resolveType, if_neg h1, bind_ok] at h
    obtain ⟨⟨st1, d'⟩, h4, h⟩ := h
    obtain ⟨e1, rfl⟩ := resolveIn_silent hfd h2 h4
    simp only [h3, Except.ok.injEq, Prod.mk.injEq] at h
    rw [← h.1, ← h.2]; exact ⟨e1, rfl⟩
  | enum n d i h1 h2 h3 =>
    simp only [resolveType, if_neg h1, bind_ok] at h
    obtain ⟨⟨st1, d'⟩, h4, h⟩ := h
    obtain ⟨e1, rfl⟩ := resolveIn_silent hfd h2 h4
    simp only [h3, Except.ok.injEq, Prod.mk.injEq] at h
    rw [← h.1, ← h.2]; exact ⟨e1, rfl⟩

theorem parseDefault_silent {env : Env} {st st' : St} {k : Kind} {s : Option Name} {file : Nat}
    {v w : Option Value} (hd : DefaultOk env st.pool.enums k s w)
    (h : parseDefault env st k s file = .ok (st', v)) : st' = st := by
  unfold parseDefault at h
  split at h
  · simp only [Except.ok.injEq, Prod.mk.injEq] at h; exact h.1.symm
  · next str =>
    obtain ⟨w', _, hw⟩ := hd
    unfold defaultOf at hw
    split at h
    · simp only [Except.ok.injEq] at hw; cases hw
    · next e =>
      simp only [bind_ok, getR_ok] at h
      obtain ⟨ed, hed, h⟩ := h
      simp only [hed, Except.ok.injEq, Option.map_eq_some_iff] at hw
      obtain ⟨x, hx, _⟩ := hw
      simp only [hx, Except.ok.injEq, Prod.mk.injEq] at h
      exact h.1.symm
    · next hk1 hk2 =>
      split at hw
      · exact absurd rfl (hk1 _)
      · exact absurd rfl (hk2 _)
      · simp only [hw, bind_ok, Except.ok.injEq] at h
        obtain ⟨o, ho, h⟩ := h
        subst ho
        simp only [Except.ok.injEq, Prod.mk.injEq] at h
        exact h.1.symm

theorem enumReservedLoop_silent {efile file : Nat} {n : Int} : ∀ {rs : List (Int × Int)}
    {st st' : St}, (∀ r ∈ rs, ¬ (r.1 ≤ n ∧ n ≤ r.2)) →
    enumReservedLoop efile file n st rs = .ok st' → st' = st
  | [], st, st', _, h => by simp only [enumReservedLoop, Except.ok.injEq] at h; exact h.symm
  | r :: rs, st, st', hr, h => by
    simp only [enumReservedLoop, if_neg (hr r (List.mem_cons_self ..))] at h
    exact enumReservedLoop_silent (fun r hr' => hr r (List.mem_cons_of_mem _ hr')) h

/-- What a callback of the second pass needs to report nothing. -/
def ResolveFine (env : Env) (p : Pool) : Event → Prop
  | .file _ _ f => (∀ n ∈ f.deps, lookupN p.fileNames n ≠ none) ∧
      ∀ j, j ∈ f.publicDeps ∨ j ∈ f.weakDeps → 0 ≤ j ∧ j < f.deps.length
  | .field _ full file k _ f => NumberOkIn p k f ∧ ∃ fd m kd g v, p.files[file]? = some fd ∧
      p.messages[k]? = some m ∧ TypeOk fd.trans p.names full f kd g ∧
      DefaultOk env p.enums kd f.default v ∧
      (∀ j, f.oneofIndex = some j → 0 ≤ j ∧ j < m.oneofs.length) ∧
      SMap.get? m.fieldNumbers (asU32 f.number) = none ∧ lookupN m.fieldNames f.name = none ∧
      lookupN m.fieldJsonNames (jsonOf f) = none
  | .method _ full file _ _ m => ∃ fd a b, p.files[file]? = some fd ∧
      MessageOk fd.trans p.names full m.input a ∧ MessageOk fd.trans p.names full m.output b
  | .enumValue _ _ _ k _ v => ∃ e fd ep, p.enums[k]? = some e ∧ p.files[e.id.file]? = some fd ∧
      findEnum fd.raw e.id.path = some ep ∧
      (∀ r ∈ ep.reserved, ¬ (r.1 ≤ v.number ∧ v.number ≤ r.2)) ∧
      ((env.search e.valueNumbers v.number).1 = true → e.allowAlias = true) ∧
      lookupN e.valueNames v.name = none
  | .extension _ full file _ _ f => ∃ fd x kd g v, p.files[file]? = some fd ∧
      MessageOk fd.trans p.names full f.extendeeName x ∧ NumberOkIn p x f ∧
      TypeOk fd.trans p.names full f kd g ∧ DefaultOk env p.enums kd f.default v
  | _ => True

theorem resolve_silent {env : Env} {st st' : St} {e : Event} (hf : ResolveFine env st.pool e)
    (h : resolveStep env st e = .ok st') : st'.errors = st.errors := by
  cases e with
  | file path i f =>
    obtain ⟨f1, f2⟩ := hf
    simp only [resolveStep, resolveFile, bind_ok, modR_ok, Except.ok.injEq] at h
    obtain ⟨⟨st1, tr⟩, h1, fs, _, h2⟩ := h
    subst h2
    rw [checkImports_silent _ f.publicDeps _ fun j hj => f2 j (.inl hj),
      checkImports_silent _ f.weakDeps _ fun j hj => f2 j (.inr hj)]
    have := depLoop_silent f1 h1
    exact this
  | message => simp only [resolveStep, Except.ok.injEq] at h; subst h; rfl
  | oneof => simp only [resolveStep, Except.ok.injEq] at h; subst h; rfl
  | enum => simp only [resolveStep, Except.ok.injEq] at h; subst h; rfl
  | service => simp only [resolveStep, Except.ok.injEq] at h; subst h; rfl
  | field path full file k i f =>
    obtain ⟨hnum, fd0, m0, kd, g, v, hfd0, hm0, ht, hd, ho, d1, d2, d3⟩ := hf
    simp only [resolveStep, resolveField, bind_ok, getR_ok, Except.ok.injEq] at h
    obtain ⟨fd, hfd, st1, h1, ⟨st2, kind⟩, h2, ⟨st3, json⟩, h3, ⟨st4, dflt⟩, h4, m, hm, st6, h6,
      st7, h7, st8, h8, h9⟩ := h
    subst h9
    have := checkNumber_silent hnum h1
    subst this
    obtain ⟨e2, rfl⟩ := resolveType_silent hfd0 ht h2
    have r2 := resolveType_raw h2
    obtain ⟨r3, e3, rfl⟩ := resolveJsonName_raw h3
    have r := r2.trans r3
    simp only [parseDefaultOpt] at h4
    have := parseDefault_silent (w := v) (by rw [r.enums]; exact hd) h4
    subst this
    have hmm : m = m0 := by
      rw [r.messages, hm0] at hm; cases hm; rfl
    subst hmm
    have ho' : (oneofStep st4 m f.oneofIndex i).1 = st4 ∧
        (oneofStep st4 m f.oneofIndex i).2.1.fieldNumbers = m.fieldNumbers ∧
        (oneofStep st4 m f.oneofIndex i).2.1.fieldNames = m.fieldNames ∧
        (oneofStep st4 m f.oneofIndex i).2.1.fieldJsonNames = m.fieldJsonNames := by
      unfold oneofStep
      cases hoi : f.oneofIndex with
      | none => simp
      | some j =>
        have := ho j hoi
        simp only
        rw [if_neg (by omega)]
        exact ⟨rfl, rfl, rfl, rfl⟩
    obtain ⟨o1, o2, o3, o4⟩ := ho'
    rw [o2, d1] at h6
    rw [o3, d2] at h7
    rw [o4, d3] at h8
    simp only [reportDup, Except.ok.injEq] at h6 h7 h8
    simp only
    rw [← h8, ← h7, ← h6, o1, e3, e2]
  | method path full file k i m =>
    obtain ⟨fd, a, b, hfd, ha, hb⟩ := hf
    simp only [resolveStep, resolveMethod, bind_ok, modR_ok, Except.ok.injEq] at h
    obtain ⟨⟨st1, inp⟩, h1, ⟨st2, out⟩, h2, ss, _, h3⟩ := h
    subst h3
    obtain ⟨e1, rfl⟩ := findMessage_silent hfd ha h1
    have r1 := findMessage_raw h1
    obtain ⟨y, hy, al⟩ := r1.alike fd hfd
    obtain ⟨e2, rfl⟩ := findMessage_silent hy (by rw [al.trans, r1.names]; exact hb) h2
    exact e2.trans e1
  | enumValue path full file k i v =>
    obtain ⟨e0, fd, ep, n1, n2, n3, n4, n5, n6⟩ := hf
    simp only [resolveStep, resolveEnumValue, bind_ok, getR_ok, Except.ok.injEq] at h
    obtain ⟨st1, h1, en, hen, st2, h2, st3, h3, h4⟩ := h
    subst h4
    simp only [checkEnumNumber, bind_ok, getR_ok, unwrapR_ok] at h1
    obtain ⟨e', he', fd', hfd', ep', hep', h1⟩ := h1
    rw [n1] at he'; cases he'
    rw [n2] at hfd'; cases hfd'
    rw [n3] at hep'; cases hep'
    have := enumReservedLoop_silent n4 h1
    subst this
    rw [n1] at hen; cases hen
    rw [n6] at h3
    simp only [reportValueName, Except.ok.injEq] at h3
    subst h3
    unfold reportAlias at h2
    rw [if_neg (fun hh => hh.2 (n5 hh.1))] at h2
    simp only [Except.ok.injEq] at h2
    subst h2
    rfl
  | extension path full file parent i f =>
    obtain ⟨fd0, x, kd, g, v, hfd0, hx, hnum, ht, hd⟩ := hf
    simp only [resolveStep, resolveExtension, bind_ok, getR_ok, Except.ok.injEq] at h
    obtain ⟨⟨st1, ext⟩, h1, st2, h2, fd, hfd, ⟨st3, kind⟩, h3, ⟨st4, json⟩, h4, ⟨st5, dflt⟩, h5,
      h6⟩ := h
    subst h6
    obtain ⟨e1, rfl⟩ := findMessage_silent hfd0 hx h1
    have r1 := findMessage_raw h1
    obtain ⟨y, hy, al⟩ := r1.alike fd0 hfd0
    simp only [extendeeStep, bind_ok, modR_ok] at h2
    obtain ⟨ms, ⟨_, rfl⟩, h2⟩ := h2
    have n1 : NumberOkIn st1.pool x f := hnum.mono (n := 0)
      (by rw [r1.messages]; exact MsgsLe.refl _) (r1.filesEff.le 0)
    have := checkNumber_silent (by
      obtain ⟨m, fdm, mp, c1, c2, c3, c4⟩ := n1
      exact ⟨{ m with extensions := m.extensions ++ [i] }, fdm, mp, by
        simp only [getElem?_modify_eq, c1, Option.map_some], c2, c3, c4⟩) h2
    subst this
    have ht' : TypeOk y.trans st1.pool.names full f kd g := by
      rw [al.trans, r1.names]; exact ht
    obtain ⟨e3, rfl⟩ := resolveType_silent (fd := y) (k := kd) (g := g) (by exact hy)
      (by exact ht') h3
    have r3 := resolveType_raw h3
    obtain ⟨r4, e4, _⟩ := resolveJsonName_raw h4
    have r := r3.trans r4
    simp only [parseDefaultOpt] at h5
    have := parseDefault_silent (w := v) (by rw [r.enums]; simp only; rw [r1.enums]; exact hd) h5
    subst this
    exact e4.trans (e3.trans e1)

end Verif.Pool
