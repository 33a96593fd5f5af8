import Verif.Pool.Stored2
/-!
The fields, extensions and methods in the descriptors a pool keeps, after any history of additions.
-/
set_option autoImplicit false
namespace Verif.Pool
open Verif.Wire Verif.Dyn

/-- The options of a field: as given, or as the third pass read them. -/
def OptOf (env : Env) (e : Event) (a o : Option (Option Bool)) : Prop :=
  o = a ∨ ∃ r, o = a.map fun _ => env.fieldOpt r e

/-- What the pool keeps of the declaration a callback is about. -/
def Stored (env : Env) (q : Pool) (e : Event) : Prop :=
  match e with
  | .field path _ fi k i f => ∃ md d x o, q.messages[k]? = some md ∧ md.fields[i]? = some d ∧
      FieldFilled q.names f d.kind x ∧ OptOf env e f.options o ∧
      q.fieldIn fi path = some { x with options := o }
  | .extension path _ fi _ i f => ∃ d x o n, q.extensions[i]? = some d ∧ FieldFilled q.names f d.kind x ∧
      OptOf env e f.options o ∧ TypeNamed q.names n (.message d.extendee) ∧
      q.fieldIn fi path = some { x with options := o, extendee := some ('.' :: n) }
  | .method path _ fi k i m => ∃ sd d n n', q.services[k]? = some sd ∧ sd.methods[i]? = some d ∧
      TypeNamed q.names n (.message d.input) ∧ TypeNamed q.names n' (.message d.output) ∧
      q.methodIn fi path = some { m with input := '.' :: n, output := '.' :: n' }
  | _ => True

/-- The declaration is as it was given. -/
def Unfilled (q : Pool) (e : Event) : Prop :=
  match e with
  | .field path _ fi _ _ f => q.fieldIn fi path = some f
  | .extension path _ fi _ _ f => q.fieldIn fi path = some f
  | .method path _ fi _ _ m => q.methodIn fi path = some m
  | _ => True

/-- The second pool has the names, fields, methods and extensions of the first. -/
structure Carries (p q : Pool) : Prop where
  names : ∀ n d, lookupN p.names n = some d → lookupN q.names n = some d
  fields : ∀ (k i : Nat) md d, p.messages[k]? = some md → md.fields[i]? = some d →
    ∃ md', q.messages[k]? = some md' ∧ md'.fields[i]? = some d
  methods : ∀ (k i : Nat) sd d, p.services[k]? = some sd → sd.methods[i]? = some d →
    ∃ sd', q.services[k]? = some sd' ∧ sd'.methods[i]? = some d
  extensions : ∀ (i : Nat) d, p.extensions[i]? = some d → q.extensions[i]? = some d

theorem Carries.of_same {p q : Pool} (h : q = { p with files := q.files }) : Carries p q := by
  rw [h]
  exact ⟨fun _ _ h => h, fun _ _ md _ h g => ⟨md, h, g⟩, fun _ _ sd _ h g => ⟨sd, h, g⟩, fun _ _ h => h⟩

theorem Mono2.carries {n : Nat} {p q : Pool} (h : Mono2 n p q) : Carries p q where
  names n d hd := by rw [h.names]; exact hd
  fields k i md d hm hd := by
    obtain ⟨md', h1, _, _, h2, _⟩ := h.messages k md hm
    exact ⟨md', h1, prefix_get h2 hd⟩
  methods k i sd d hm hd := by
    obtain ⟨md', h1, _, h2⟩ := h.services k sd hm
    exact ⟨md', h1, prefix_get h2 hd⟩
  extensions i d hd := prefix_get h.extensions hd

theorem Keeps.carries {p q : Pool} (h : Keeps p q) : Carries p q where
  names := h.names
  fields k i md d hm hd := by
    obtain ⟨md', h1, h2⟩ := h.messages k md hm
    exact ⟨md', h1, by rw [forget_eq h2]; exact hd⟩
  methods k i sd d hm hd := ⟨sd, h.services k sd hm, hd⟩
  extensions := h.extensions

theorem TypeNamed.carry {a b : List (Name × Def)} (h : ∀ n d, lookupN a n = some d → lookupN b n = some d)
    {n : Name} {k : Kind} (hn : TypeNamed a n k) : TypeNamed b n k := by
  cases k <;> try exact hn.elim
  · obtain ⟨d, h1, h2⟩ := hn; exact ⟨d, h _ _ h1, h2⟩
  · obtain ⟨d, h1, h2⟩ := hn; exact ⟨d, h _ _ h1, h2⟩

theorem FieldFilled.carry {a b : List (Name × Def)} (h : ∀ n d, lookupN a n = some d → lookupN b n = some d)
    {f y : FieldP} {k : Kind} (hf : FieldFilled a f k y) : FieldFilled b f k y := by
  obtain ⟨x, h1, h2⟩ := hf
  refine ⟨x, ?_, h2⟩
  rcases h1 with h1 | ⟨h1, n, h3, h4⟩
  · exact .inl h1
  · exact .inr ⟨h1, n, h3.carry h, h4⟩

/-- The two pools have the same at the place the callback is about. -/
def SameSlot (e : Event) (p q : Pool) : Prop := ∀ fi path, e.slot = some (fi, path) →
  q.fieldIn fi path = p.fieldIn fi path ∧ q.methodIn fi path = p.methodIn fi path

theorem Stored.carry {env : Env} {p q : Pool} {e : Event} (h : Stored env p e) (c : Carries p q)
    (hs : SameSlot e p q) : Stored env q e := by
  cases e with
  | field path full fi k i f =>
    obtain ⟨md, d, x, o, h1, h2, h3, h4, h5⟩ := h
    obtain ⟨md', g1, g2⟩ := c.fields _ _ _ _ h1 h2
    exact ⟨md', d, x, o, g1, g2, h3.carry c.names, h4, (hs _ _ rfl).1.trans h5⟩
  | extension path full fi parent i f =>
    obtain ⟨d, x, o, n, h1, h2, h3, h4, h5⟩ := h
    exact ⟨d, x, o, n, c.extensions _ _ h1, h2.carry c.names, h3, h4.carry c.names, (hs _ _ rfl).1.trans h5⟩
  | method path full fi k i m =>
    obtain ⟨sd, d, n, n', h1, h2, h3, h4, h5⟩ := h
    obtain ⟨sd', g1, g2⟩ := c.methods _ _ _ _ h1 h2
    exact ⟨sd', d, n, n', g1, g2, h3.carry c.names, h4.carry c.names, (hs _ _ rfl).2.trans h5⟩
  | _ => trivial

theorem Unfilled.carry {p q : Pool} {e : Event} (h : Unfilled p e) (hs : SameSlot e p q) : Unfilled q e := by
  cases e with
  | field path full fi k i f => exact (hs _ _ rfl).1.trans h
  | extension path full fi parent i f => exact (hs _ _ rfl).1.trans h
  | method path full fi k i m => exact (hs _ _ rfl).2.trans h
  | _ => trivial

/-! ### Places belong to one callback -/

theorem Event.slot_item {e : Event} {fi : Nat} {path : Path} (h : e.slot = some (fi, path)) :
    ∃ n x, e.item = some (fi, path, n, x) ∧ e.full = some n := by
  cases e <;> simp only [Event.slot, Option.some.injEq, Prod.mk.injEq, reduceCtorEq] at h <;>
    (obtain ⟨rfl, rfl⟩ := h; exact ⟨_, _, rfl, rfl⟩)

theorem slot_full {o : Offs} {fs : List FileP} {e e' : Event} (he : e ∈ visit o fs) (he' : e' ∈ visit o fs)
    {fi : Nat} {path : Path} (h : e.slot = some (fi, path)) (h' : e'.slot = some (fi, path)) :
    ∃ n, e.full = some n ∧ e'.full = some n := by
  obtain ⟨n, x, h1, h2⟩ := Event.slot_item h
  obtain ⟨n', x', h1', h2'⟩ := Event.slot_item h'
  obtain ⟨j, f, s, e1, e2, e3, e4⟩ := visited_has he h1
  obtain ⟨j', f', s', e1', e2', e3', e4'⟩ := visited_has he' h1'
  have : j = j' := by omega
  subst this
  cases e2.symm.trans e2'
  obtain ⟨rfl, rfl⟩ := e4.unique e4'
  exact ⟨n, h2, by rw [h2', e3', e3]⟩

theorem filterMap_inj {α β : Type} {g : α → Option β} : ∀ {l : List α}, (l.filterMap g).Nodup → ∀ {a b : α},
    a ∈ l → b ∈ l → ∀ {n : β}, g a = some n → g b = some n → a = b
  | [], _, a, b, ha, _, n, _, _ => by cases ha
  | c :: l, h, a, b, ha, hb, n, hga, hgb => by
    have hl : (l.filterMap g).Nodup := by
      rw [List.filterMap_cons] at h
      split at h
      · exact h
      · exact (List.nodup_cons.1 h).2
    have no : ∀ {d : α}, g c = some n → d ∈ l → g d = some n → False := by
      intro d hc hd hgd
      rw [List.filterMap_cons, hc] at h
      exact (List.nodup_cons.1 h).1 (List.mem_filterMap.2 ⟨d, hd, hgd⟩)
    rcases List.mem_cons.1 ha with rfl | ha' <;> rcases List.mem_cons.1 hb with rfl | hb'
    · rfl
    · exact (no hga hb' hgb).elim
    · exact (no hgb ha' hga).elim
    · exact filterMap_inj hl ha' hb' hga hgb

/-! ### The second pass -/

section
variable {env : Env} (hsr : SearchOk env.search) {p : Pool} {fs : List FileP}
include hsr

/-- One callback of the second pass on a declaration that is as it was given. -/
theorem stored_new {o : Offs} {q0 : Pool} {evs pre : List Event} {c cE c' : Cnt} {st st' : St} {e : Event}
    (I : Pass2 env o q0 evs cE pre c st.pool) (hmem : e ∈ evs) (hsc : e.Scoped)
    (hcs : c.step o e = some c') (hs : resolveStep env st e = .ok st') (he : st'.errors = [])
    (hu : Unfilled st.pool e) : Stored env st'.pool e ∧
      ∀ i q, e.slot ≠ some (i, q) → st'.pool.fieldIn i q = st.pool.fieldIn i q ∧
        st'.pool.methodIn i q = st.pool.methodIn i q := by
  obtain ⟨_, eff⟩ := resolve_eff hs he
  have I' := I.step hsr hmem hsc hcs eff
  have mono := resolve_mono eff hcs
  have ev := I'.evs2 e (by simp)
  cases e with
  | field path full fi k i f =>
    obtain ⟨fd', md, d, g1, g2, g3, g4, _, g5⟩ := ev
    have hc : c'.file = c.file := by
      simp only [Cnt.step] at hcs
      split at hcs <;> cases hcs
      rfl
    obtain ⟨fd, hfd, ht⟩ : ∃ fd, st.pool.files[fi]? = some fd ∧ fd'.trans = fd.trans := by
      obtain ⟨fd, hfd⟩ : ∃ fd, st.pool.files[fi]? = some fd := by
        have := getElem?_lt g1
        rw [mono.filesLen] at this
        exact ⟨_, List.getElem?_eq_getElem this⟩
      obtain ⟨fd'', k1, _, _, k2⟩ := mono.files _ _ hfd
      rw [g1] at k1; cases k1
      exact ⟨fd, hfd, (k2 (by omega)).2⟩
    have hk := g5.kind
    rw [ht, mono.names] at hk
    obtain ⟨⟨y, a1, a2⟩, a3⟩ := field_at hs hfd hk hu
    rw [← mono.names] at a2
    refine ⟨⟨md, d, y, f.options, g3, g4, a2, .inl rfl, ?_⟩, fun i q hq => ?_⟩
    · rw [a1]
      obtain ⟨x, b1, rfl⟩ := a2
      rcases b1 with ⟨_, rfl⟩ | ⟨_, n, _, rfl⟩ <;> rfl
    · have hq : ¬ (i = fi ∧ q = path) := fun h => hq (by rw [h.1, h.2]; rfl)
      exact ⟨a3.fields i q hq, a3.methods i q hq⟩
  | extension path full fi parent i f =>
    obtain ⟨fd', d, g1, g2, g3, _, g5⟩ := ev
    have hc : c'.file = c.file := by
      simp only [Cnt.step] at hcs
      split at hcs <;> cases hcs
      rfl
    obtain ⟨fd, hfd, ht⟩ : ∃ fd, st.pool.files[fi]? = some fd ∧ fd'.trans = fd.trans := by
      obtain ⟨fd, hfd⟩ : ∃ fd, st.pool.files[fi]? = some fd := by
        have := getElem?_lt g1
        rw [mono.filesLen] at this
        exact ⟨_, List.getElem?_eq_getElem this⟩
      obtain ⟨fd'', k1, _, _, k2⟩ := mono.files _ _ hfd
      rw [g1] at k1; cases k1
      exact ⟨fd, hfd, (k2 (by omega)).2⟩
    have hk := g5.kind
    have hm := g5.extendee
    rw [ht, mono.names] at hk hm
    obtain ⟨⟨y, n, a0, a1, a2⟩, a3⟩ := extension_at' hs hfd hk hm hu
    rw [← mono.names] at a2 a0
    refine ⟨⟨d, y, f.options, n, g3, a2, .inl rfl, a0, ?_⟩, fun i q hq => ?_⟩
    · rw [a1]
      obtain ⟨x, b1, rfl⟩ := a2
      rcases b1 with ⟨_, rfl⟩ | ⟨_, n, _, rfl⟩ <;> rfl
    · have hq : ¬ (i = fi ∧ q = path) := fun h => hq (by rw [h.1, h.2]; rfl)
      exact ⟨a3.fields i q hq, a3.methods i q hq⟩
  | method path full fi k i m =>
    obtain ⟨fd', sd, d, g1, g2, g3, g4, _, g5, g6⟩ := ev
    have hc : c'.file = c.file := by
      simp only [Cnt.step] at hcs
      split at hcs <;> cases hcs
      rfl
    obtain ⟨fd, hfd, ht⟩ : ∃ fd, st.pool.files[fi]? = some fd ∧ fd'.trans = fd.trans := by
      obtain ⟨fd, hfd⟩ : ∃ fd, st.pool.files[fi]? = some fd := by
        have := getElem?_lt g1
        rw [mono.filesLen] at this
        exact ⟨_, List.getElem?_eq_getElem this⟩
      obtain ⟨fd'', k1, _, _, k2⟩ := mono.files _ _ hfd
      rw [g1] at k1; cases k1
      exact ⟨fd, hfd, (k2 (by omega)).2⟩
    rw [ht, mono.names] at g5 g6
    obtain ⟨⟨n, n', a0, a1, a2⟩, a3⟩ := method_at' hs hfd g5 g6 hu
    rw [← mono.names] at a0 a1
    refine ⟨⟨sd, d, n, n', g3, g4, a0, a1, a2⟩, fun i q hq => ?_⟩
    have hq : ¬ (i = fi ∧ q = path) := fun h => hq (by rw [h.1, h.2]; rfl)
    exact ⟨a3.fields i q hq, a3.methods i q hq⟩
  | _ => exact ⟨trivial, fun i q _ => other_at hs rfl i q⟩

theorem stored_resolve {q0 : Pool} {c : Cnt}
    (hc : Cnt.run p.offs (Cnt.start p.offs) (visit p.offs fs) = some c)
    (hN : Names1 p (visit p.offs fs) c q0) (hnd : ((visit p.offs fs).filterMap Event.full).Nodup) {st : St}
    (hs : runPass (resolveStep env) ⟨q0, []⟩ (visit p.offs fs) = .ok st) (he : st.errors = []) :
    ∀ e ∈ visit p.offs fs, Stored env st.pool e := by
  refine (pass_inv_at (o := p.offs) (evs := visit p.offs fs)
    (fun pre c' st => st.errors = [] → Pass2 env p.offs q0 (visit p.offs fs) c pre c' st.pool ∧
      (∀ e ∈ pre, Stored env st.pool e) ∧
      ∀ e ∈ visit p.offs fs, (∀ e' ∈ pre, ∀ s, e'.slot = some s → e.slot ≠ some s) → Unfilled st.pool e)
    ?_ (visit p.offs fs) [] _ c _ st rfl rfl hc ?_ hs he).2.1
  · intro pre e post c1 st1 c2 st2 hev hcs hrun hI hs1 he2
    obtain ⟨he1, eff⟩ := resolve_eff hs1 he2
    obtain ⟨I, J, K⟩ := hI he1
    have hmem : e ∈ visit p.offs fs := by rw [← hev]; simp
    have hpre : ∀ e' ∈ pre, e' ∈ visit p.offs fs := fun e' h => by rw [← hev]; simp [h]
    have ne : ∀ e' ∈ pre, ∀ s, e'.slot = some s → e.slot ≠ some s := by
      intro e' he' s hs' hse
      obtain ⟨n, f1, f2⟩ := slot_full hmem (hpre e' he') hse hs'
      rw [← hev, List.filterMap_append, List.filterMap_cons, f1] at hnd
      have := (List.nodup_append.1 hnd).2.2 n (List.mem_filterMap.2 ⟨e', he', f2⟩) n (by simp)
      exact this rfl
    obtain ⟨s1, s2⟩ := stored_new hsr I hmem (visit_scoped hmem) hcs hs1 he2 (K e hmem ne)
    have mono := (resolve_mono eff hcs).carries
    refine ⟨I.step hsr hmem (visit_scoped hmem) hcs eff, ?_, ?_⟩
    · intro e' he'
      rcases List.mem_append.1 he' with he' | he'
      · exact (J e' he').carry mono fun i q hq => s2 i q (ne e' he' _ hq)
      · simp only [List.mem_singleton] at he'; subst he'; exact s1
    · intro e' he' hno
      refine (K e' he' fun x hx => hno x (by simp [hx])).carry fun i q hq => s2 i q fun h => ?_
      exact hno e (by simp) _ h hq
  · intro _
    refine ⟨Pass2.start hc hN, (fun e he => by cases he), fun e he _ => ?_⟩
    cases e with
    | field path full fi k i f =>
      obtain ⟨fd, s, h1, h2⟩ := hN.has he rfl
      simp only [Unfilled, Pool.fieldIn, h1]; exact h2.fieldAt
    | extension path full fi parent i f =>
      obtain ⟨fd, s, h1, h2⟩ := hN.has he rfl
      simp only [Unfilled, Pool.fieldIn, h1]; exact h2.extensionAt
    | method path full fi k i m =>
      obtain ⟨fd, s, h1, h2⟩ := hN.has he rfl
      simp only [Unfilled, Pool.methodIn, h1]; exact h2.methodAt
    | _ => trivial

omit hsr

/-! ### The third pass -/

theorem applyOpt_same {q : Pool} {st st' : St} {e : Event} (h : applyOpt env q st e = .ok st') :
    st'.pool = { st.pool with files := st'.pool.files } := by
  rcases applyOpt_raw h with rfl | ⟨file, _, g2, _⟩
  · rfl
  · exact g2.pool

theorem stored_apply_step {r : Pool} {evs : List Event} {st st' : St} {e : Event}
    (hinj : ∀ a ∈ evs, ∀ b ∈ evs, ∀ s, a.slot = some s → b.slot = some s → a = b) (hmem : e ∈ evs)
    (h : applyOpt env r st e = .ok st') (hI : ∀ e ∈ evs, Stored env st.pool e) :
    ∀ e ∈ evs, Stored env st'.pool e := by
  have carr := Carries.of_same (applyOpt_same h)
  intro x hx
  have hst := hI x hx
  have other : (∀ i q, e.slot ≠ some (i, q) → st'.pool.fieldIn i q = st.pool.fieldIn i q ∧
        st'.pool.methodIn i q = st.pool.methodIn i q) → x ≠ e → Stored env st'.pool x := by
    intro h1 h2
    exact hst.carry carr fun i q hq => h1 i q fun h3 => h2 (hinj x hx e hmem _ hq h3)
  cases e with
  | message path full file parent k m =>
    simp only [applyOpt] at h
    split at h
    · simp only [Except.ok.injEq] at h; rw [← h]; exact hst
    · exact hst.carry carr fun i q _ => setRaw_msgOpt h i q
  | field path full fi k i f =>
    simp only [applyOpt] at h
    split at h
    · simp only [Except.ok.injEq] at h; rw [← h]; exact hst
    · next o ho =>
      obtain ⟨md, d, y, o', h1, h2, h3, h4, h5⟩ := hI _ hmem
      obtain ⟨g1, g2⟩ := setRaw_field h h5
      by_cases hxe : x = .field path full fi k i f
      · subst hxe
        obtain ⟨md', k1, k2⟩ := carr.fields _ _ _ _ h1 h2
        exact ⟨md', d, y, some (env.fieldOpt r (.field path full fi k i f)), k1, k2, h3.carry carr.names,
          .inr ⟨r, by rw [ho]; rfl⟩, g1⟩
      · refine other (fun i q hq => ?_) hxe
        have hq : ¬ (i = fi ∧ q = path) := fun h => hq (by rw [h.1, h.2]; rfl)
        exact ⟨g2.fields i q hq, g2.methods i q hq⟩
  | extension path full fi parent i f =>
    simp only [applyOpt] at h
    split at h
    · simp only [Except.ok.injEq] at h; rw [← h]; exact hst
    · next o ho =>
      obtain ⟨d, y, o', n, h1, h2, h3, h4, h5⟩ := hI _ hmem
      obtain ⟨g1, g2⟩ := setRaw_field h h5
      by_cases hxe : x = .extension path full fi parent i f
      · subst hxe
        exact ⟨d, y, some (env.fieldOpt r (.extension path full fi parent i f)), n, carr.extensions _ _ h1,
          h2.carry carr.names, .inr ⟨r, by rw [ho]; rfl⟩, h4.carry carr.names, g1⟩
      · refine other (fun i q hq => ?_) hxe
        have hq : ¬ (i = fi ∧ q = path) := fun h => hq (by rw [h.1, h.2]; rfl)
        exact ⟨g2.fields i q hq, g2.methods i q hq⟩
  | _ => simp only [applyOpt, Except.ok.injEq] at h; rw [← h]; exact hst

theorem stored_apply {r : Pool} {evs : List Event}
    (hinj : ∀ a ∈ evs, ∀ b ∈ evs, ∀ s, a.slot = some s → b.slot = some s → a = b) :
    ∀ {es : List Event} {st st' : St}, (∀ e ∈ es, e ∈ evs) → runPass (applyOpt env r) st es = .ok st' →
      (∀ e ∈ evs, Stored env st.pool e) → ∀ e ∈ evs, Stored env st'.pool e
  | [], st, st', _, h, hI => by simp only [runPass, Except.ok.injEq] at h; rw [← h]; exact hI
  | e :: es, st, st', hm, h, hI => by
    simp only [runPass] at h
    split at h
    · next st1 h1 =>
      exact stored_apply hinj (fun x hx => hm x (by simp [hx])) h
        (stored_apply_step hinj (hm e (by simp)) h1 hI)
    · cases h

theorem sealFiles_raw (n : Nat) (l : List FileD) : (sealFiles n l).map FileD.raw = l.map FileD.raw := by
  simp only [sealFiles, List.map_append, List.map_map]
  have : (FileD.raw ∘ fun f : FileD => { f with prost := f.raw }) = FileD.raw := rfl
  rw [this, ← List.map_append, List.take_append_drop]

theorem sealFiles_at (p : Pool) (n i : Nat) (q : Path) :
    ({ p with files := sealFiles n p.files } : Pool).fieldIn i q = p.fieldIn i q ∧
      ({ p with files := sealFiles n p.files } : Pool).methodIn i q = p.methodIn i q := by
  have : (sealFiles n p.files)[i]?.map FileD.raw = p.files[i]?.map FileD.raw := by
    rw [← List.getElem?_map, ← List.getElem?_map, sealFiles_raw]
  simp only [Pool.fieldIn, Pool.methodIn]
  cases h1 : (sealFiles n p.files)[i]? <;> cases h2 : p.files[i]? <;> rw [h1, h2] at this <;>
    simp only [Option.map_none, Option.map_some, reduceCtorEq, Option.some.injEq] at this
  · trivial
  · simp only [this]; trivial

/-! ### Histories -/

include hsr

theorem Hist.stored {acc : List FileP} (h : Hist env acc p) : ∀ e ∈ visit {} acc, Stored env p e := by
  induction h with
  | empty => intro e he; cases he
  | reject acc p fs q e es hp hb ih =>
    obtain ⟨_, _, _, hl⟩ := buildFiles_reject (hp.desc hsr).ok hb
    intro x hx
    exact (ih x hx).carry hl.keeps.carries fun i q _ =>
      ⟨fieldIn_congr hl.files i q, methodIn_congr hl.files i q⟩
  | accept acc p fs q hp hb ih =>
    have D := hp.desc hsr
    have nd := (Hist.accept acc p fs q hp hb).nodup hsr
    rcases buildFiles_accept hsr D.ok hb with ⟨h1, rfl⟩ | ha
    · rw [h1, List.append_nil]; exact ih
    have keeps := ha.frame.keeps
    intro e he
    rw [visit_append, List.mem_append] at he
    rcases he with he | he
    · refine (ih e he).carry keeps.carries fun i q hq => ?_
      obtain ⟨n, x, h1, _⟩ := Event.slot_item hq
      obtain ⟨f, fd, s, y, _, h2, _⟩ := D.copy he h1
      have h3 := keeps.files _ _ h2
      simp only [Pool.fieldIn, Pool.methodIn, h2, h3]
      trivial
    · rw [← D.offs] at he
      revert e
      unfold buildFiles at hb
      simp only at hb
      split at hb
      · next h0 => rw [h0]; intro e he; cases he
      · split at hb
        · cases hb
        · next b hbd =>
          split at hb
          · next hne =>
            simp only [Except.ok.injEq, Built.mk.injEq] at hb
            exact absurd hb.2 hne
          · simp only [Except.ok.injEq] at hb
            subst hb
            generalize hB : Built.mk q [] = B at hbd
            cases buildDeduped_outcome hbd with
            | names st _ hne => injection hB with _ h0; exact absurd h0.symm hne
            | resolve st st' _ _ _ hne => injection hB with _ h0; exact absurd h0.symm hne
            | options st st' errs _ _ _ _ hne => injection hB with _ h0; exact absurd h0.symm hne
            | done st st' st'' h1 h2 h3 h4 h5 =>
              cases hB
              obtain ⟨c, hc, _, hN⟩ := names_pass h1 h2
              have hnd := (names_pass_nodup h1 h2).1
              rw [← visit_full_names _ p.offs] at hnd
              have i1 := stored_resolve hsr hc hN hnd h3 h4
              have i2 := stored_apply (fun a ha b hb s h1 h2 => by
                obtain ⟨n, f1, f2⟩ := slot_full ha hb h1 h2
                exact filterMap_inj hnd ha hb f1 f2) (fun e he => he) h5 i1
              intro e he
              exact (i2 e he).carry (.of_same rfl) fun i q _ => sealFiles_at _ _ i q

end
end Verif.Pool
