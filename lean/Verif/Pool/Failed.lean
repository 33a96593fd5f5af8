import Verif.Pool.Hist
/-!
What a failed addition does to the extension lists of the messages the pool had before.
-/
set_option autoImplicit false
namespace Verif.Pool
open Verif.Wire Verif.Dyn

/-- The extension lists in `b` are those in `a`, with at most entries satisfying `P` appended. -/
def Grow (P : Nat → Prop) (a b : List MsgD) : Prop :=
  ∀ (k : Nat) (m : MsgD), a[k]? = some m → ∃ m' l, b[k]? = some m' ∧
    m'.extensions = m.extensions ++ l ∧ ∀ e ∈ l, P e

theorem Grow.refl (P : Nat → Prop) (a : List MsgD) : Grow P a a :=
  fun k m h => ⟨m, [], h, by simp, by simp⟩

theorem Grow.trans {P : Nat → Prop} {a b c : List MsgD} (h : Grow P a b) (g : Grow P b c) :
    Grow P a c := by
  intro k m hm
  obtain ⟨m1, l1, h1, h2, h3⟩ := h k m hm
  obtain ⟨m2, l2, g1, g2, g3⟩ := g k m1 h1
  refine ⟨m2, l1 ++ l2, g1, by rw [g2, h2, List.append_assoc], ?_⟩
  intro e he
  rcases List.mem_append.mp he with he | he
  · exact h3 e he
  · exact g3 e he

theorem Grow.push (P : Nat → Prop) (a : List MsgD) (x : MsgD) : Grow P a (a ++ [x]) := by
  intro k m hm
  exact ⟨m, [], getElem?_append_of_some _ hm, by simp, by simp⟩

theorem Grow.modify (P : Nat → Prop) (a : List MsgD) (i : Nat) (f : MsgD → MsgD)
    (hf : ∀ m, (f m).extensions = m.extensions) : Grow P a (a.modify i f) := by
  intro k m hm
  by_cases hk : i = k
  · subst hk
    exact ⟨f m, [], by rw [getElem?_modify_eq, hm]; rfl, by simp [hf], by simp⟩
  · exact ⟨m, [], by rw [getElem?_modify_ne _ _ hk]; exact hm, by simp, by simp⟩

theorem Grow.set {P : Nat → Prop} {a : List MsgD} {i : Nat} {x y : MsgD} (hy : a[i]? = some y)
    (h : x.extensions = y.extensions) : Grow P a (a.set i x) := by
  intro k m hm
  by_cases hk : i = k
  · subst hk
    rw [hy] at hm; cases hm
    have := getElem?_lt hy
    exact ⟨x, [], by rw [List.getElem?_set]; simp [this], by simp [h], by simp⟩
  · exact ⟨m, [], by rw [List.getElem?_set, if_neg hk]; exact hm, by simp, by simp⟩

theorem Grow.register {P : Nat → Prop} (a : List MsgD) (i e : Nat) (he : P e) :
    Grow P a (a.modify i fun m => { m with extensions := m.extensions ++ [e] }) := by
  intro k m hm
  by_cases hk : i = k
  · subst hk
    exact ⟨_, [e], by rw [getElem?_modify_eq, hm]; rfl, rfl, by simpa using he⟩
  · exact ⟨m, [], by rw [getElem?_modify_ne _ _ hk]; exact hm, by simp, by simp⟩

theorem addName_messages {st st' : St} {file : Nat} {name : Name} {path : Path} {kind : DefKind}
    (hs : addName st file name path kind = .ok st') : st'.pool.messages = st.pool.messages := by
  unfold Pool.addName at hs
  split at hs
  · cases hs; rfl
  · split at hs
    · cases hs; rfl
    · simp only [bind_ok] at hs
      obtain ⟨_, _, hs⟩ := hs
      rw [(Quiet.report hs).pool]

theorem addPackages_messages {file : Nat} {path : Path} : ∀ {ns : List Name} {st st' : St},
    addPackages file path st ns = .ok st' → st'.pool.messages = st.pool.messages
  | [], st, st', hs => by simp only [Pool.addPackages, Except.ok.injEq] at hs; rw [← hs]
  | n :: ns, st, st', hs => by
    simp only [Pool.addPackages] at hs
    split at hs
    · next st1 h1 => rw [addPackages_messages hs, addName_messages h1]
    · cases hs

theorem depLoop_messages {env : Env} {index : Nat} :
    ∀ {ds : List Name} {st st' : St} {tr tr' : List Nat},
      depLoop env index ds st tr = .ok (st', tr') → st'.pool.messages = st.pool.messages
  | [], st, st', tr, tr', hs => by
    simp only [depLoop, Except.ok.injEq, Prod.mk.injEq] at hs; rw [← hs.1]
  | d :: ds, st, st', tr, tr', hs => by
    simp only [depLoop] at hs
    split at hs
    · simp only [bind_ok, modR_ok] at hs
      obtain ⟨fs, ⟨_, h1⟩, tr1, _, hs⟩ := hs
      rw [depLoop_messages (st := ⟨{ st.pool with files := fs }, st.errors⟩) hs]
    · simp only [bind_ok] at hs
      obtain ⟨st1, h1, hs⟩ := hs
      rw [depLoop_messages hs, (Quiet.report h1).pool]

theorem names_grow (P : Nat → Prop) {st st' : St} {e : Event} (hs : namesStep st e = .ok st') :
    Grow P st.pool.messages st'.pool.messages := by
  cases e with
  | file path i f =>
    simp only [namesStep] at hs
    split at hs
    · rw [(Quiet.report hs).pool]; exact Grow.refl _ _
    · rw [addPackages_messages hs]
      split <;> exact Grow.refl _ _
  | message path full file parent i m =>
    simp only [namesStep, bind_ok] at hs
    obtain ⟨st1, h1, fd, _, hs⟩ := hs
    have : Grow P st.pool.messages
        (st1.pool.messages ++ [MsgD.fresh (Ident.mk' file path full m.name) parent]) := by
      rw [← addName_messages h1]; exact Grow.push _ _ _
    split at hs
    · simp only [Except.ok.injEq] at hs; rw [← hs]; exact this
    · rw [(checkCamelCase_quiet hs).pool]; exact this
  | oneof path full file msg i o =>
    simp only [namesStep, bind_ok, modR_ok, Except.ok.injEq] at hs
    obtain ⟨st1, h1, ms, ⟨_, h2⟩, h3⟩ := hs
    rw [← h3, h2, ← addName_messages h1]
    exact Grow.modify _ _ _ _ fun _ => rfl
  | enum path full file parent i en =>
    simp only [namesStep, bind_ok, Except.ok.injEq] at hs
    obtain ⟨st1, h1, st2, h2, h3⟩ := hs
    rw [← h3]
    simp only [(checkFirst_quiet h2).pool, addName_messages h1]
    exact Grow.refl _ _
  | enumValue path full file enum i v =>
    simp only [namesStep, bind_ok, modR_ok, Except.ok.injEq] at hs
    obtain ⟨st1, h1, ms, ⟨_, h2⟩, h3⟩ := hs
    rw [← h3]
    simp only [addName_messages h1]
    exact Grow.refl _ _
  | field path full file msg i f => rw [addName_messages hs]; exact Grow.refl _ _
  | service path full file i s => rw [addName_messages hs]; exact Grow.refl _ _
  | method path full file svc i m => rw [addName_messages hs]; exact Grow.refl _ _
  | extension path full file parent i f => rw [addName_messages hs]; exact Grow.refl _ _

theorem resolve_grow {P : Nat → Prop} {env : Env} {st st' : St} {e : Event}
    (he : ∀ path full file parent i f, e = .extension path full file parent i f → P i)
    (hs : resolveStep env st e = .ok st') : Grow P st.pool.messages st'.pool.messages := by
  cases e with
  | file path i f =>
    simp only [resolveStep, resolveFile, bind_ok, modR_ok, Except.ok.injEq] at hs
    obtain ⟨⟨st1, tr⟩, h1, fs, ⟨_, h2⟩, h3⟩ := hs
    rw [← h3, ((checkImports_quiet _ _ _).trans (checkImports_quiet _ _ _)).pool]
    simp only [depLoop_messages h1]
    exact Grow.refl _ _
  | message path full file parent i m =>
    simp only [resolveStep, Except.ok.injEq] at hs; rw [← hs]; exact Grow.refl _ _
  | oneof path full file msg i o =>
    simp only [resolveStep, Except.ok.injEq] at hs; rw [← hs]; exact Grow.refl _ _
  | enum path full file parent i en =>
    simp only [resolveStep, Except.ok.injEq] at hs; rw [← hs]; exact Grow.refl _ _
  | service path full file i s =>
    simp only [resolveStep, Except.ok.injEq] at hs; rw [← hs]; exact Grow.refl _ _
  | field path full file msg i f =>
    simp only [resolveStep, resolveField, bind_ok, getR_ok] at hs
    obtain ⟨fd, hfd, st1, h1, ⟨st2, kind⟩, h2, ⟨st3, json⟩, h3, ⟨st4, dflt⟩, h4, m, hm,
      st5, h5, st6, h6, st7, h7, h8⟩ := hs
    simp only [Except.ok.injEq] at h8
    have a4 : st4.pool.messages = st.pool.messages := by
      rw [(parseDefaultOpt_quiet h4).pool, (resolveJsonName_raw h3).1.messages,
        (resolveType_raw h2).messages, (checkNumber_quiet h1).pool]
    have a7 : st7.pool.messages = st.pool.messages := by
      rw [(reportDup_quiet h7).pool, (reportDup_quiet h6).pool, (reportDup_quiet h5).pool,
        (oneofStep_quiet st4 m f.oneofIndex i).pool, a4]
    rw [a4] at hm
    rw [← h8]
    simp only [a7]
    exact Grow.set hm (by unfold oneofStep; split <;> (try split) <;> rfl)
  | method path full file svc i m =>
    simp only [resolveStep, resolveMethod, bind_ok, modR_ok, Except.ok.injEq] at hs
    obtain ⟨⟨st1, a⟩, h1, ⟨st2, b⟩, h2, ss, ⟨_, h3⟩, h4⟩ := hs
    rw [← h4]
    simp only [(findMessage_raw h2).messages, (findMessage_raw h1).messages]
    exact Grow.refl _ _
  | enumValue path full file enum i v =>
    simp only [resolveStep, resolveEnumValue, bind_ok, getR_ok, Except.ok.injEq] at hs
    obtain ⟨st1, h1, e, he, st2, h2, st3, h3, h4⟩ := hs
    rw [← h4]
    simp only [(reportValueName_quiet h3).pool, (reportAlias_quiet h2).pool,
      (checkEnumNumber_quiet h1).pool]
    exact Grow.refl _ _
  | extension path full file parent i f =>
    have hi := he path full file parent i f rfl
    simp only [resolveStep, resolveExtension, bind_ok, getR_ok, Except.ok.injEq] at hs
    obtain ⟨⟨st1, ext⟩, h1, st2, h2, fd, hfd, ⟨st3, kind⟩, h3, ⟨st4, json⟩, h4, ⟨st5, dflt⟩, h5,
      h6⟩ := hs
    rw [← h6]
    simp only [(parseDefaultOpt_quiet h5).pool, (resolveJsonName_raw h4).1.messages,
      (resolveType_raw h3).messages]
    rw [← (findMessage_raw h1).messages]
    unfold extendeeStep at h2
    split at h2
    · simp only [Except.ok.injEq] at h2; rw [← h2]; exact Grow.refl _ _
    · next k hk =>
      simp only [bind_ok, modR_ok] at h2
      obtain ⟨ms, ⟨_, h7⟩, h8⟩ := h2
      rw [(checkNumber_quiet h8).pool, h7]
      exact Grow.register _ _ _ hi

theorem runPass_grow {P : Nat → Prop} {step : St → Event → Res St} :
    ∀ {es : List Event} {st st' : St},
      (∀ e ∈ es, ∀ a b, step a e = .ok b → Grow P a.pool.messages b.pool.messages) →
      runPass step st es = .ok st' → Grow P st.pool.messages st'.pool.messages
  | [], st, st', _, h => by
    simp only [runPass, Except.ok.injEq] at h; rw [← h]; exact Grow.refl _ _
  | e :: es, st, st', hp, h => by
    simp only [runPass] at h
    split at h
    · next st1 h1 =>
      exact (hp e (by simp) _ _ h1).trans (runPass_grow (fun e he => hp e (by simp [he])) h)
    · cases h

/-- The extension indices a batch declares. -/
def declaresExt (o : Offs) (fs : List FileP) (i : Nat) : Prop :=
  ∃ path full file parent f, .extension path full file parent i f ∈ visit o fs

theorem buildDeduped_grow {env : Env} {o : Offs} {p : Pool} {fs : List FileP} {b : Built}
    (h : buildDeduped env o p fs = .ok b) (hb : b.errors ≠ []) :
    Grow (declaresExt o fs) p.messages b.pool.messages := by
  have hr : ∀ e ∈ visit o fs, ∀ a b, resolveStep env a e = .ok b →
      Grow (declaresExt o fs) a.pool.messages b.pool.messages := by
    intro e he a b hs
    refine resolve_grow ?_ hs
    intro path full file parent i f hE
    exact ⟨path, full, file, parent, f, hE ▸ he⟩
  cases buildDeduped_outcome h with
  | names st h1 _ => exact runPass_grow (st := ⟨p, []⟩) (fun e _ a b hs => names_grow _ hs) h1
  | resolve st st' h1 _ h2 _ =>
    exact (runPass_grow (st := ⟨p, []⟩) (fun e _ a b hs => names_grow _ hs) h1).trans
      (runPass_grow (st := ⟨st.pool, []⟩) hr h2)
  | options st st' errs h1 _ h2 _ _ =>
    exact (runPass_grow (st := ⟨p, []⟩) (fun e _ a b hs => names_grow _ hs) h1).trans
      (runPass_grow (st := ⟨st.pool, []⟩) hr h2)
  | done => exact absurd rfl hb

/-- A message with another extension list. -/
def MsgD.withExts (m : MsgD) (l : List Nat) : MsgD := { m with extensions := l }

/-- After a failed addition the extension list of an old message is its former list, with
entries of the failed batch appended, cut at the number of *messages*. -/
theorem failed_exts {env : Env} {p : Pool} (ok : PoolOk p) {fs : List FileP} {q : Pool}
    {e : ErrKind} {es : List ErrKind} (h : buildFiles env p fs = .ok ⟨q, e :: es⟩)
    (k : Nat) (m : MsgD) (hm : p.messages[k]? = some m) :
    ∃ l, q.messages[k]? = some (m.withExts
        ((m.extensions ++ l).filter fun x => decide (x < p.messages.length))) ∧
      ∀ x ∈ l, p.extensions.length ≤ x ∧
        declaresExt p.offs (fs.filter fun f => (lookupN p.fileNames f.name).isNone) x := by
  unfold buildFiles at h
  simp only at h
  split at h
  · simp only [Except.ok.injEq, Built.mk.injEq] at h
    cases h.2
  · split at h
    · cases h
    · next b hb =>
      split at h
      · simp only [Except.ok.injEq, Built.mk.injEq] at h
        have fr := buildDeduped_frame mem_fresh hb
        have hg := buildDeduped_grow hb (by rw [h.2]; simp)
        obtain ⟨m', l, h1, h2, h3⟩ := hg k m hm
        obtain ⟨l', g1, g2⟩ := fr.exts k m m' hm h1
        rw [h2] at g1
        have hl : l = l' := List.append_cancel_left g1
        subst hl
        refine ⟨l, ?_, fun x hx => ⟨g2 x hx, h3 x hx⟩⟩
        have hk := getElem?_lt hm
        have hmm : m'.forget = m.forget := by
          have := prefix_getElem? fr.messages (i := k) (by simpa using hk)
          simp only [List.getElem?_map, h1, hm, Option.map_some, Option.some.injEq] at this
          exact this
        rw [← h.1]
        show (((b.pool.messages.take p.messages.length).map _)[k]?) = _
        rw [List.getElem?_map, List.getElem?_take, if_pos hk, h1]
        simp only [Option.map_some, Option.some.injEq]
        rw [h2]
        obtain ⟨i, pa, f, fn, fj, o, x⟩ := m
        obtain ⟨i', pa', f', fn', fj', o', x'⟩ := m'
        simp only [MsgD.forget, MsgD.mk.injEq] at hmm ⊢
        simp [hmm]
        rfl
      · next hne =>
        simp only [Except.ok.injEq] at h
        subst h
        simp at hne

end Verif.Pool
