import Verif.Pool.Frame
import Verif.Pool.Family
/-!
A whole addition: what any addition that returns leaves unchanged, and what the roll-back
of a rejected one restores.
-/
set_option autoImplicit false
namespace Verif.Pool
open Verif.Wire Verif.Dyn

/-- Nothing visited yet. -/
def Cnt.start (o : Offs) : Cnt :=
  { file := o.file, message := o.message, enum := o.enum, service := o.service,
    extension := o.extension, fields := fun _ => 0, oneofs := fun _ => 0,
    values := fun _ => 0, methods := fun _ => 0 }

theorem Cnt.start_at (o : Offs) : (Cnt.start o).At o :=
  ⟨rfl, rfl, rfl, rfl, rfl, fun _ _ => rfl, fun _ _ => rfl, fun _ _ => rfl, fun _ _ => rfl⟩

theorem run_start (o : Offs) (fs : List FileP) :
    ∃ c, Cnt.run o (Cnt.start o) (visit o fs) = some c ∧ c.At (offsAfter o fs) :=
  run_visit o fs o (Cnt.start o) (Offs.Le.refl o) (Cnt.start_at o)

/-- The counters lie at or beyond the base. -/
structure Cnt.Above (c : Cnt) (o : Offs) : Prop where
  file : o.file ≤ c.file
  message : o.message ≤ c.message
  enum : o.enum ≤ c.enum
  service : o.service ≤ c.service
  extension : o.extension ≤ c.extension

theorem Cnt.start_above (o : Offs) : (Cnt.start o).Above o :=
  ⟨Nat.le_refl _, Nat.le_refl _, Nat.le_refl _, Nat.le_refl _, Nat.le_refl _⟩

theorem Cnt.Above.step {o o' : Offs} {c c' : Cnt} {e : Event} (h : c.Above o)
    (hs : c.step o' e = some c') : c'.Above o := by
  have g := Cnt.step_grows hs
  exact ⟨Nat.le_trans h.1 g.1, Nat.le_trans h.2 g.2, Nat.le_trans h.3 g.3, Nat.le_trans h.4 g.4,
    Nat.le_trans h.5 g.5⟩

theorem Cnt.Above.all {c : Cnt} {o : Offs} (h : c.Above o) :
    o.file ≤ c.file ∧ o.message ≤ c.message ∧ o.enum ≤ c.enum ∧
      o.service ≤ c.service ∧ o.extension ≤ c.extension :=
  ⟨h.1, h.2, h.3, h.4, h.5⟩

/-- The files visited are the given ones. -/
theorem file_mem_visit {o : Offs} {fs : List FileP} {path : Path} {i : Nat} {f : FileP}
    (h : Event.file path i f ∈ visit o fs) : path = [] ∧ ∃ j, i = o.file + j ∧ fs[j]? = some f := by
  rcases visit_inner fs o _ h with ⟨j, g, hg, h1, h2, h3⟩ | h
  · subst h3; exact ⟨h1, j, h2, hg⟩
  · exact h.elim

/-- How an addition can end. -/
inductive Outcome (env : Env) (o : Offs) (p : Pool) (fs : List FileP) : Built → Prop where
  | names (st : St) : runPass namesStep ⟨p, []⟩ (visit o fs) = .ok st → st.errors ≠ [] →
      Outcome env o p fs ⟨st.pool, st.errors⟩
  | resolve (st st' : St) : runPass namesStep ⟨p, []⟩ (visit o fs) = .ok st → st.errors = [] →
      runPass (resolveStep env) ⟨st.pool, []⟩ (visit o fs) = .ok st' → st'.errors ≠ [] →
      Outcome env o p fs ⟨st'.pool, st'.errors⟩
  | options (st st' : St) (errs : List ErrKind) :
      runPass namesStep ⟨p, []⟩ (visit o fs) = .ok st → st.errors = [] →
      runPass (resolveStep env) ⟨st.pool, []⟩ (visit o fs) = .ok st' → st'.errors = [] →
      errs ≠ [] → Outcome env o p fs ⟨st'.pool, errs⟩
  | done (st st' st'' : St) :
      runPass namesStep ⟨p, []⟩ (visit o fs) = .ok st → st.errors = [] →
      runPass (resolveStep env) ⟨st.pool, []⟩ (visit o fs) = .ok st' → st'.errors = [] →
      runPass (applyOpt env st'.pool) ⟨st'.pool, []⟩ (visit o fs) = .ok st'' →
      Outcome env o p fs ⟨{ st''.pool with files := sealFiles o.file st''.pool.files }, []⟩

theorem buildDeduped_outcome {env : Env} {o : Offs} {p : Pool} {fs : List FileP} {b : Built}
    (h : buildDeduped env o p fs = .ok b) : Outcome env o p fs b := by
  simp only [buildDeduped, bind_ok] at h
  obtain ⟨st, h1, h⟩ := h
  split at h
  · next he => cases h; exact .names st h1 he
  · next he =>
    have he : st.errors = [] := by simpa using he
    simp only [bind_ok] at h
    obtain ⟨st', h2, h⟩ := h
    split at h
    · next he' => cases h; exact .resolve st st' h1 he h2 he'
    · next he' =>
      have he' : st'.errors = [] := by simpa using he'
      simp only [bind_ok] at h
      obtain ⟨errs, _, h⟩ := h
      split at h
      · next hne => cases h; exact .options st st' errs h1 he h2 he' hne
      · simp only [bind_ok] at h
        obtain ⟨st'', h3, h⟩ := h
        cases h
        exact .done st st' st'' h1 he h2 he' h3

section
variable {env : Env} {p : Pool} {fs : List FileP}

theorem names_pass_frame (hfresh : ∀ f ∈ fs, lookupN p.fileNames f.name = none) {st : St}
    (h : runPass namesStep ⟨p, []⟩ (visit p.offs fs) = .ok st) : Frame p st.pool := by
  obtain ⟨c, hc, _⟩ := run_start p.offs fs
  refine (pass_inv' (o := p.offs) (fun e => ∀ path i f, e = .file path i f →
    lookupN p.fileNames f.name = none)
    (fun _ c st => c.Above p.offs ∧ Frame p st.pool) ?_ _ [] _ _ _ _ ?_ hc
    ⟨Cnt.start_above _, Frame.refl p⟩ h).2
  · intro pre c st e c' st' hP hcs ⟨ha, hf⟩ hs
    exact ⟨ha.step hcs, names_frame ha.all hP hcs hf hs⟩
  · intro e he path i f hef
    subst hef
    obtain ⟨_, j, _, hj⟩ := file_mem_visit he
    exact hfresh f (List.mem_of_getElem? hj)

theorem resolve_pass_frame {q : Pool} (hq : Frame p q) {st : St}
    (h : runPass (resolveStep env) ⟨q, []⟩ (visit p.offs fs) = .ok st) : Frame p st.pool := by
  obtain ⟨c, hc, _⟩ := run_start p.offs fs
  refine (pass_inv (o := p.offs)
    (fun _ c st => c.Above p.offs ∧ Frame p st.pool) ?_ _ [] _ _ _ _ hc
    ⟨Cnt.start_above _, hq⟩ h).2
  intro pre c st e c' st' hcs ⟨ha, hf⟩ hs
  exact ⟨ha.step hcs, resolve_frame ha.all hcs hf hs⟩

theorem apply_pass_frame {q r : Pool} (hq : Frame p q) {st : St}
    (h : runPass (applyOpt env r) ⟨q, []⟩ (visit p.offs fs) = .ok st) : Frame p st.pool := by
  obtain ⟨c, hc, _⟩ := run_start p.offs fs
  refine (pass_inv (o := p.offs)
    (fun _ _ st => Frame p st.pool) ?_ _ [] _ _ _ _ hc hq h)
  intro pre c st e c' st' hcs hf hs
  exact apply_frame hcs hf hs

theorem seal_frame {q : Pool} (hq : Frame p q) :
    Frame p { q with files := sealFiles p.offs.file q.files } := by
  refine hq.set_files _ ?_
  obtain ⟨l, hl⟩ := hq.files
  have : p.offs.file = p.files.length := rfl
  rw [← hl, this, sealFiles, List.take_left' rfl]
  exact List.prefix_append _ _

/-- Whatever an addition does, before the roll-back the pool extends the old one. -/
theorem buildDeduped_frame (hfresh : ∀ f ∈ fs, lookupN p.fileNames f.name = none) {b : Built}
    (h : buildDeduped env p.offs p fs = .ok b) : Frame p b.pool := by
  cases buildDeduped_outcome h with
  | names st h1 _ => exact names_pass_frame hfresh h1
  | resolve st st' h1 _ h2 _ => exact resolve_pass_frame (names_pass_frame hfresh h1) h2
  | options st st' errs h1 _ h2 _ _ => exact resolve_pass_frame (names_pass_frame hfresh h1) h2
  | done st st' st'' h1 _ h2 _ h3 =>
    exact seal_frame (apply_pass_frame (resolve_pass_frame (names_pass_frame hfresh h1) h2) h3)

end

/-! Package names. -/

theorem mem_dotPrefixes {n s : Name} : n ∈ dotPrefixes s ↔ ∃ r, s = n ++ '.' :: r := by
  induction s generalizing n with
  | nil => simp [dotPrefixes]
  | cons c s ih =>
    simp only [dotPrefixes]
    have key : n ∈ (dotPrefixes s).map (c :: ·) ↔ ∃ n', n = c :: n' ∧ ∃ r, s = n' ++ '.' :: r := by
      simp only [List.mem_map]
      constructor
      · rintro ⟨a, ha, rfl⟩; exact ⟨a, rfl, ih.mp ha⟩
      · rintro ⟨a, rfl, ha⟩; exact ⟨a, ih.mpr ha, rfl⟩
    have key2 : (∃ r, c :: s = n ++ '.' :: r) ↔
        (n = [] ∧ c = '.') ∨ ∃ n', n = c :: n' ∧ ∃ r, s = n' ++ '.' :: r := by
      constructor
      · rintro ⟨r, hr⟩
        cases n with
        | nil => simp only [List.nil_append, List.cons.injEq] at hr; exact .inl ⟨rfl, hr.1⟩
        | cons d n' =>
          simp only [List.cons_append, List.cons.injEq] at hr
          exact .inr ⟨n', by rw [hr.1], r, hr.2⟩
      · rintro (⟨rfl, rfl⟩ | ⟨n', rfl, r, rfl⟩)
        · exact ⟨s, rfl⟩
        · exact ⟨r, rfl⟩
    split
    · next hc => rw [List.mem_cons, key, key2]; simp [hc]
    · next hc => rw [key, key2]; simp [hc]

/-- The names a package introduces are the non-empty package itself and everything before
one of its dots. -/
theorem mem_packageNames {n pkg : Name} :
    n ∈ packageNames pkg ↔ pkg ≠ [] ∧ (n = pkg ∨ ∃ r, pkg = n ++ '.' :: r) := by
  unfold packageNames
  split
  · next h => simp [h]
  · next h => rw [List.mem_append, mem_dotPrefixes]; simp [h, or_comm]

theorem pkgCovers_iff {n pkg : Name} :
    pkgCovers pkg n = true ↔ n = pkg ∨ ∃ r, pkg = n ++ '.' :: r := by
  unfold pkgCovers
  rw [Bool.and_eq_true, List.isPrefixOf_iff_prefix]
  constructor
  · rintro ⟨⟨r, rfl⟩, h⟩
    cases r with
    | nil => exact .inl (by simp)
    | cons c r =>
      simp only [List.getElem?_append_right (Nat.le_refl _), Nat.sub_self, List.getElem?_cons_zero,
        beq_iff_eq] at h
      exact .inr ⟨r, by rw [h]⟩
  · rintro (rfl | ⟨r, rfl⟩)
    · exact ⟨List.prefix_refl _, by simp⟩
    · exact ⟨List.prefix_append _ _, by simp⟩

/-- What every reachable pool satisfies and the roll-back relies on. -/
structure PoolOk (p : Pool) : Prop where
  names : ∀ x ∈ p.names, keepName p.offs p.files x.1 x.2 = true
  packages : ∀ f ∈ p.files, ∀ n ∈ packageNames f.prost.package, lookupN p.names n ≠ none
  fileNames : ∀ x ∈ p.fileNames, x.2 < p.files.length

/-- The pools agree in everything but the extension lists of messages and possibly an
entry for the empty name. -/
structure Like (p q : Pool) : Prop where
  files : q.files = p.files
  messages : q.messages.map MsgD.forget = p.messages.map MsgD.forget
  enums : q.enums = p.enums
  extensions : q.extensions = p.extensions
  services : q.services = p.services
  fileNames : q.fileNames = p.fileNames
  names : ∃ l, q.names = p.names ++ l ∧
    ∀ x ∈ l, x.1 = [] ∧ x.2.kind = .package ∧ lookupN p.names [] = none ∧
      (∃ f ∈ p.files, f.prost.package = [] ∨ ∃ r, f.prost.package = '.' :: r)

theorem Like.offs {p q : Pool} (h : Like p q) : q.offs = p.offs := by
  have : q.messages.length = p.messages.length := by
    have := congrArg List.length h.messages
    simpa using this
  simp only [Pool.offs, h.files, h.enums, h.extensions, h.services, this]

/-- The roll-back restores the old pool up to `Like`. -/
theorem rollback_like {p q : Pool} (ok : PoolOk p) (h : Frame p q) :
    Like p (rollback p.offs q) := by
  obtain ⟨f2, hf⟩ := h.files
  have hfiles : q.files.take p.offs.file = p.files := by
    rw [← hf]; exact List.take_left' rfl
  have hfn : q.fileNames.filter (fun e => decide (e.2 < p.offs.file)) = p.fileNames := by
    obtain ⟨l, hl, hl2⟩ := h.fileNames
    rw [hl, List.filter_append, List.filter_eq_self.mpr, List.filter_eq_nil_iff.mpr]
    · simp
    · intro x hx
      have := (hl2 x hx).2
      simp only [decide_eq_true_eq]
      show ¬ x.2 < p.files.length
      omega
    · intro x hx; exact decide_eq_true (ok.fileNames x hx)
  refine ⟨hfiles, ?_, ?_, ?_, ?_, hfn, ?_⟩
  · simp only [rollback, List.map_map]
    obtain ⟨m2, hm⟩ := h.messages
    rw [List.map_take]
    show List.take _ (q.messages.map MsgD.forget) = _
    rw [← hm]
    exact List.take_left' (by simp [Pool.offs])
  · obtain ⟨m2, hm⟩ := h.enums
    simp only [rollback]; rw [← hm]; exact List.take_left' rfl
  · obtain ⟨m2, hm⟩ := h.extensions
    simp only [rollback]; rw [← hm]; exact List.take_left' rfl
  · obtain ⟨m2, hm⟩ := h.services
    simp only [rollback]; rw [← hm]; exact List.take_left' rfl
  · obtain ⟨l, hl, hl2⟩ := h.names
    refine ⟨l.filter fun e => keepName p.offs p.files e.1 e.2, ?_, ?_⟩
    · simp only [rollback, hfiles]
      rw [hl, List.filter_append, List.filter_eq_self.mpr]
      intro x hx; exact ok.names x hx
    · intro x hx
      rw [List.mem_filter] at hx
      obtain ⟨hx, hk⟩ := hx
      obtain ⟨hn, hfr⟩ := hl2 x hx
      obtain ⟨n, ⟨df, dp, dk⟩⟩ := x
      simp only [Def.Fresh, keepName] at hfr hk
      cases dk with
      | package =>
        simp only [List.any_eq_true] at hk
        obtain ⟨g, hg, hc⟩ := hk
        rw [pkgCovers_iff] at hc
        by_cases h0 : n = []
        · subst h0
          refine ⟨rfl, rfl, hn, g, hg, ?_⟩
          rcases hc with hc | ⟨r, hr⟩
          · exact .inl hc.symm
          · exact .inr ⟨r, hr⟩
        · exfalso
          have : n ∈ packageNames g.prost.package := by
            rw [mem_packageNames]
            refine ⟨?_, hc⟩
            rcases hc with rfl | ⟨r, hr⟩
            · exact h0
            · rw [hr]; simp
          exact ok.packages g hg n this hn
      | _ => simp only [decide_eq_true_eq] at hk; omega

theorem PoolOk.like {p q : Pool} (ok : PoolOk p) (h : Like p q) : PoolOk q := by
  obtain ⟨l, hl, hl2⟩ := h.names
  refine ⟨?_, ?_, ?_⟩
  · intro x hx
    rw [h.offs, h.files]
    rw [hl, List.mem_append] at hx
    rcases hx with hx | hx
    · exact ok.names x hx
    · obtain ⟨h1, h2, _, g, hg, hp⟩ := hl2 x hx
      simp only [keepName, h2, List.any_eq_true]
      refine ⟨g, hg, ?_⟩
      rw [pkgCovers_iff, h1]
      rcases hp with hp | ⟨r, hr⟩
      · exact .inl hp.symm
      · exact .inr ⟨r, hr⟩
  · intro f hf n hn
    rw [h.files] at hf
    rw [hl, lookupN_append]
    have := ok.packages f hf n hn
    cases hh : lookupN p.names n with
    | none => exact absurd hh this
    | some d => simp
  · intro x hx; rw [h.fileNames] at hx; rw [h.files]; exact ok.fileNames x hx

end Verif.Pool
