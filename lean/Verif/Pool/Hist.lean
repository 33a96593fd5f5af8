import Verif.Pool.Added
/-!
Every history of additions: what the pool says about all files accepted so far.
-/
set_option autoImplicit false
namespace Verif.Pool
open Verif.Wire Verif.Dyn

/-- Histories of additions: `acc` are the files accepted so far, in order. -/
inductive Hist (env : Env) : List FileP → Pool → Prop where
  | empty : Hist env [] Pool.empty
  | accept (acc : List FileP) (p : Pool) (fs : List FileP) (q : Pool) :
      Hist env acc p → buildFiles env p fs = .ok ⟨q, []⟩ →
      Hist env (acc ++ fs.filter fun f => (lookupN p.fileNames f.name).isNone) q
  | reject (acc : List FileP) (p : Pool) (fs : List FileP) (q : Pool) (e : ErrKind)
      (es : List ErrKind) : Hist env acc p → buildFiles env p fs = .ok ⟨q, e :: es⟩ →
      Hist env acc q

theorem Reach.hist {env : Env} {p : Pool} (h : Reach env p) : ∃ acc, Hist env acc p := by
  induction h with
  | empty => exact ⟨[], .empty⟩
  | add p fs b _ hb ih =>
    obtain ⟨acc, ih⟩ := ih
    obtain ⟨q, es⟩ := b
    cases es with
    | nil => exact ⟨_, .accept acc p fs q ih hb⟩
    | cons e es => exact ⟨_, .reject acc p fs q e es ih hb⟩

theorem Hist.reach {env : Env} {acc : List FileP} {p : Pool} (h : Hist env acc p) :
    Reach env p := by
  induction h with
  | empty => exact .empty
  | accept acc p fs q _ hb ih => exact .add p fs _ ih hb
  | reject acc p fs q e es _ hb ih => exact .add p fs _ ih hb

/-! Files of a traversal. -/

theorem offsAfter_file : ∀ (fs : List FileP) (o : Offs), (offsAfter o fs).file = o.file + fs.length
  | [], o => rfl
  | f :: fs, o => by
    simp only [offsAfter, offsAfter_file fs, file_file, List.length_cons]
    omega

theorem file_at {o : Offs} {fs : List FileP} {path : Path} {i : Nat} {f : FileP}
    (h : .file path i f ∈ visit o fs) : ∃ j, i = o.file + j ∧ fs[j]? = some f := by
  rcases visit_inner fs o _ h with ⟨j, g, hg, _, h1, h2⟩ | hi
  · subst h2; exact ⟨j, h1, hg⟩
  · exact hi.elim

/-! The names table stays as the roll-back needs it. -/

theorem keepName_of_defIn {p : Pool} {n : Name} {d : Def} (h : DefIn p d)
    (hp : d.kind ≠ .package) : keepName p.offs p.files n d = true := by
  unfold DefIn at h
  unfold keepName
  cases hk : d.kind <;> rw [hk] at h hp <;> simp only [decide_eq_true_eq] at h ⊢
  case package => exact absurd rfl hp
  all_goals exact h

theorem Added.file_proto {env : Env} {p q : Pool} {fs : List FileP} (h : Added env p fs q)
    {i : Nat} {f : FileP} (hf : .file [] i f ∈ visit p.offs fs) :
    ∃ fd, q.files[i]? = some fd ∧ stripFile fd.prost = stripFile f ∧ fd.prost.package = f.package := by
  obtain ⟨_, ⟨fd, h1, _, h3, h4, _⟩, _⟩ := h.decl _ hf
  refine ⟨fd, h1, by rw [h4]; exact h3, ?_⟩
  have := congrArg FileP.package (by rw [h4]; exact h3 : stripFile fd.prost = stripFile f)
  simpa only [stripFile] using this

theorem Added.ok {env : Env} {p q : Pool} {fs : List FileP} (h : Added env p fs q) (ok : PoolOk p) :
    PoolOk q := by
  have keeps := h.frame.keeps
  refine ⟨?_, ?_, ?_⟩
  · intro x hx
    obtain ⟨l, g1, g2⟩ := h.names
    rw [g1, List.mem_append] at hx
    by_cases hk : x.2.kind = .package
    · simp only [keepName, hk, List.any_eq_true]
      rcases hx with hx | hx
      · have := ok.names x hx
        simp only [keepName, hk, List.any_eq_true] at this
        obtain ⟨f, hf, hc⟩ := this
        exact ⟨f, h.frame.files.subset hf, hc⟩
      · rcases (g2 x hx).2 with ⟨e, he, hed⟩ | ⟨i, f, hf, hn, _⟩
        · exfalso
          cases e <;> simp only [Event.defn, Option.some.injEq, reduceCtorEq] at hed <;>
            (subst hed; cases hk)
        · obtain ⟨fd, a1, _, a2⟩ := h.file_proto hf
          refine ⟨fd, List.mem_of_getElem? a1, ?_⟩
          rw [a2, pkgCovers_iff]
          exact ((mem_packageNames).mp hn).2
    · refine keepName_of_defIn ?_ hk
      rcases hx with hx | hx
      · exact keeps.defIn (ok.defIn hx)
      · rcases (g2 x hx).2 with ⟨e, he, hed⟩ | ⟨i, f, _, _, hd⟩
        · exact visit_defIn h.offs he (n := x.1) (d := x.2) hed
        · rw [hd] at hk; exact absurd rfl hk
  · intro fd hfd n hn
    obtain ⟨i, hi⟩ := List.getElem?_of_mem hfd
    by_cases hlt : i < p.files.length
    · have h1 := List.getElem?_eq_getElem hlt
      have h2 := keeps.files _ _ h1
      rw [hi] at h2
      cases h2
      have := ok.packages _ (List.getElem_mem hlt) n hn
      cases hh : lookupN p.names n with
      | none => exact absurd hh this
      | some d => rw [keeps.names _ _ hh]; simp
    · have hlen : q.files.length = p.files.length + fs.length := by
        have := congrArg Offs.file h.offs
        rw [offsAfter_file] at this
        exact this
      have := getElem?_lt hi
      have hj : i - p.files.length < fs.length := by omega
      have hv := visit_files fs p.offs _ _ (List.getElem?_eq_getElem hj)
      rw [show p.offs.file + (i - p.files.length) = i by
        show p.files.length + _ = i
        omega] at hv
      obtain ⟨fd', a1, _, a2⟩ := h.file_proto hv
      rw [hi] at a1; cases a1
      rw [a2] at hn
      obtain ⟨_, _, _, hp⟩ := h.decl _ hv
      obtain ⟨d, hd, _⟩ := hp n hn
      rw [hd]; simp
  · intro x hx
    obtain ⟨l, g1, g2⟩ := h.fileNames
    rw [g1, List.mem_append] at hx
    rcases hx with hx | hx
    · have := ok.fileNames x hx
      exact Nat.lt_of_lt_of_le this h.frame.files.length_le
    · obtain ⟨_, f, hf, _⟩ := g2 x hx
      obtain ⟨fd, a1, _⟩ := h.file_proto hf
      exact getElem?_lt a1

/-! All accepted files. -/

/-- What a pool says about the files `acc` it was built from. -/
structure Desc (env : Env) (acc : List FileP) (p : Pool) : Prop where
  ok : PoolOk p
  offs : p.offs = offsAfter {} acc
  evs : ∀ e ∈ visit {} acc, Declared env p e
  names : ∀ x ∈ p.names, (∃ e ∈ visit {} acc, e.defn = some x) ∨
    (x.2.kind = .package ∧ (x.1 = [] ∨ ∃ f ∈ acc, x.1 ∈ packageNames f.package))
  fileNames : ∀ x ∈ p.fileNames, ∃ f, acc[x.2]? = some f ∧ f.name = x.1

theorem Desc.empty (env : Env) : Desc env [] Pool.empty where
  ok := ⟨(by intro x hx; cases hx), (by intro x hx; cases hx), (by intro x hx; cases hx)⟩
  offs := rfl
  evs := by intro e he; cases he
  names := by intro x hx; cases hx
  fileNames := by intro x hx; cases hx

theorem Desc.like {env : Env} {acc : List FileP} {p q : Pool} (h : Desc env acc p)
    (hl : Like p q) : Desc env acc q where
  ok := h.ok.like hl
  offs := by rw [hl.offs]; exact h.offs
  evs e he := (h.evs e he).keeps hl.keeps
  names x hx := by
    obtain ⟨l, g1, g2⟩ := hl.names
    rw [g1, List.mem_append] at hx
    rcases hx with hx | hx
    · exact h.names x hx
    · exact .inr ⟨(g2 x hx).2.1, .inl (g2 x hx).1⟩
  fileNames x hx := by rw [hl.fileNames] at hx; exact h.fileNames x hx

theorem Desc.added {env : Env} {acc fs : List FileP} {p q : Pool} (h : Desc env acc p)
    (ha : Added env p fs q) : Desc env (acc ++ fs) q where
  ok := ha.ok h.ok
  offs := by rw [ha.offs, offsAfter_append, h.offs]
  evs e he := by
    rw [visit_append, List.mem_append] at he
    rcases he with he | he
    · exact (h.evs e he).keeps ha.frame.keeps
    · rw [← h.offs] at he; exact ha.decl e he
  names x hx := by
    obtain ⟨l, g1, g2⟩ := ha.names
    rw [g1, List.mem_append] at hx
    rcases hx with hx | hx
    · rcases h.names x hx with ⟨e, he, hed⟩ | ⟨h1, h2⟩
      · exact .inl ⟨e, by rw [visit_append]; exact List.mem_append_left _ he, hed⟩
      · refine .inr ⟨h1, ?_⟩
        rcases h2 with h2 | ⟨f, hf, hn⟩
        · exact .inl h2
        · exact .inr ⟨f, List.mem_append_left _ hf, hn⟩
    · rcases (g2 x hx).2 with ⟨e, he, hed⟩ | ⟨i, f, hf, hn, hd⟩
      · refine .inl ⟨e, ?_, hed⟩
        rw [visit_append, ← h.offs]
        exact List.mem_append_right _ he
      · obtain ⟨j, _, hj⟩ := file_at hf
        exact .inr ⟨by rw [hd], .inr ⟨f, List.mem_append_right _ (List.mem_of_getElem? hj), hn⟩⟩
  fileNames x hx := by
    obtain ⟨l, g1, g2⟩ := ha.fileNames
    rw [g1, List.mem_append] at hx
    rcases hx with hx | hx
    · obtain ⟨f, hf, hn⟩ := h.fileNames x hx
      exact ⟨f, getElem?_append_of_some _ hf, hn⟩
    · obtain ⟨_, f, hf, hn⟩ := g2 x hx
      obtain ⟨j, h1, hj⟩ := file_at hf
      refine ⟨f, ?_, hn⟩
      have hlen : p.offs.file = acc.length := by
        rw [h.offs, offsAfter_file]
        show 0 + _ = _
        omega
      rw [h1, hlen, List.getElem?_append_right (by omega)]
      rw [show acc.length + j - acc.length = j by omega]
      exact hj

/-! One addition. -/

theorem mem_fresh {p : Pool} {fs : List FileP} :
    ∀ f ∈ (fs.filter fun f => (lookupN p.fileNames f.name).isNone), lookupN p.fileNames f.name = none := by
  intro f hf
  rw [List.mem_filter] at hf
  simpa using hf.2

/-- A successful addition is one of the new files, and none if there are none. -/
theorem buildFiles_accept {env : Env} (hsr : SearchOk env.search) {p : Pool} (ok : PoolOk p)
    {fs : List FileP} {q : Pool} (h : buildFiles env p fs = .ok ⟨q, []⟩) :
    ((fs.filter fun f => (lookupN p.fileNames f.name).isNone) = [] ∧ q = p) ∨
    Added env p (fs.filter fun f => (lookupN p.fileNames f.name).isNone) q := by
  unfold buildFiles at h
  simp only at h
  split at h
  · next he =>
    simp only [Except.ok.injEq, Built.mk.injEq, and_true] at h
    exact .inl ⟨he, h.symm⟩
  · split at h
    · cases h
    · next b hb =>
      split at h
      · next hne =>
        simp only [Except.ok.injEq, Built.mk.injEq] at h
        exact absurd h.2 hne
      · simp only [Except.ok.injEq] at h
        subst h
        exact .inr (added_of_outcome hsr ok mem_fresh hb)

theorem buildFiles_reject {env : Env} {p : Pool} (ok : PoolOk p) {fs : List FileP} {q : Pool}
    {e : ErrKind} {es : List ErrKind} (h : buildFiles env p fs = .ok ⟨q, e :: es⟩) :
    ∃ r, Frame p r ∧ q = rollback p.offs r ∧ Like p q := by
  unfold buildFiles at h
  simp only at h
  split at h
  · simp only [Except.ok.injEq, Built.mk.injEq] at h
    cases h.2
  · split at h
    · cases h
    · next b hb =>
      split at h
      · simp only [Except.ok.injEq, Built.mk.injEq] at h
        have fr := buildDeduped_frame mem_fresh hb
        exact ⟨b.pool, fr, h.1.symm, by rw [← h.1]; exact rollback_like ok fr⟩
      · next hne =>
        simp only [Except.ok.injEq] at h
        subst h
        simp at hne

theorem Hist.desc {env : Env} (hsr : SearchOk env.search) {acc : List FileP} {p : Pool}
    (h : Hist env acc p) : Desc env acc p := by
  induction h with
  | empty => exact Desc.empty env
  | accept acc p fs q _ hb ih =>
    rcases buildFiles_accept hsr ih.ok hb with ⟨h1, rfl⟩ | ha
    · rw [h1, List.append_nil]; exact ih
    · exact ih.added ha
  | reject acc p fs q e es _ hb ih =>
    obtain ⟨r, _, _, hl⟩ := buildFiles_reject ih.ok hb
    exact ih.like hl

end Verif.Pool
