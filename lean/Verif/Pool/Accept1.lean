import Verif.Pool.Valid
/-!
The first pass reports nothing about valid files.
-/
set_option autoImplicit false
namespace Verif.Pool
open Verif.Wire Verif.Dyn

/-- Induction over a pass, knowing what has been visited and what comes. -/
theorem pass_inv_at {step : St → Event → Res St} {o : Offs} {evs : List Event}
    (I : List Event → Cnt → St → Prop)
    (hstep : ∀ pre e post c st c' st', pre ++ e :: post = evs → c.step o e = some c' →
      Cnt.run o (Cnt.start o) pre = some c → I pre c st → step st e = .ok st' → I (pre ++ [e]) c' st') :
    ∀ (es pre : List Event) (c c' : Cnt) (st st' : St), pre ++ es = evs →
      Cnt.run o (Cnt.start o) pre = some c → Cnt.run o c es = some c' →
      I pre c st → runPass step st es = .ok st' → I evs c' st'
  | [], pre, c, c', st, st', hp, _, hc, h, hs => by
    simp only [Cnt.run, Option.some.injEq] at hc
    simp only [runPass, Except.ok.injEq] at hs
    rw [List.append_nil] at hp
    subst hc; subst hs; subst hp; exact h
  | e :: es, pre, c, c', st, st', hp, hpre, hc, h, hs => by
    simp only [Cnt.run] at hc
    simp only [runPass] at hs
    cases hcs : c.step o e with
    | none => simp [hcs] at hc
    | some c1 =>
      simp only [hcs, Option.bind_some] at hc
      split at hs
      · next st1 h1 =>
        refine pass_inv_at I hstep es (pre ++ [e]) c1 c' st1 st' (by simpa using hp) ?_ hc
          (hstep _ _ _ _ _ _ _ hp hcs hpre h h1) hs
        rw [Cnt.run_append, hpre]
        simp only [Option.bind_some, Cnt.run, hcs]
      · cases hs

/-- Entries of a list whose keys differ. -/
theorem nodup_at {α β : Type} {g : α → β} {l : List α} (h : (l.map g).Nodup) {i j : Nat} {a b : α}
    (ha : l[i]? = some a) (hb : l[j]? = some b) (hg : g a = g b) : i = j := by
  have hi := getElem?_lt ha
  have hj := getElem?_lt hb
  have hia : l[i] = a := by rw [List.getElem?_eq_getElem hi] at ha; exact Option.some.inj ha
  have hjb : l[j] = b := by rw [List.getElem?_eq_getElem hj] at hb; exact Option.some.inj hb
  have hp := List.pairwise_iff_getElem.1 h
  rcases Nat.lt_trichotomy i j with hlt | heq | hgt
  · have := hp i j (by simpa using hi) (by simpa using hj) hlt
    simp only [List.getElem_map, hia, hjb] at this
    exact absurd hg this
  · exact heq
  · have := hp j i (by simpa using hj) (by simpa using hi) hgt
    simp only [List.getElem_map, hia, hjb] at this
    exact absurd hg.symm this

/-! Steps that report nothing. -/

theorem addName_silent {st st' : St} {file : Nat} {n : Name} {path : Path} {k : DefKind}
    (h : addName st file n path k = .ok st') (hn : lookupN st.pool.names n = none) :
    st'.errors = st.errors := by
  unfold addName at h
  rw [hn] at h
  simp only [Except.ok.injEq] at h
  rw [← h]

theorem addPackages_silent {file : Nat} {path : Path} : ∀ {ns : List Name} {st st' : St},
    addPackages file path st ns = .ok st' →
    (∀ n ∈ ns, ∀ d, lookupN st.pool.names n = some d → d.kind = .package) → st'.errors = st.errors
  | [], st, st', h, _ => by simp only [addPackages, Except.ok.injEq] at h; rw [h]
  | n :: ns, st, st', h, hn => by
    simp only [addPackages] at h
    split at h
    · next st1 h1 =>
      unfold addName at h1
      split at h1
      · next hl =>
        simp only [Except.ok.injEq] at h1
        subst h1
        refine (addPackages_silent h fun m hm d hd => ?_ : _)
        simp only [lookupN_append] at hd
        cases hh : lookupN st.pool.names m with
        | some d' =>
          rw [hh] at hd
          exact hn m (List.mem_cons_of_mem _ hm) d (by rw [hh]; simpa using hd)
        | none =>
          rw [hh] at hd
          simp only [Option.none_or, lookupN] at hd
          split at hd
          · cases hd; rfl
          · cases hd
      · next d hd =>
        have := hn n (List.mem_cons_self ..) d hd
        rw [if_pos ⟨rfl, this⟩] at h1
        cases h1
        exact addPackages_silent h fun m hm => hn m (List.mem_cons_of_mem _ hm)
    · cases h

theorem checkCamelCase_silent {file : Nat} : ∀ {fs : List FieldP} {seen : List Name} {st st' : St},
    checkCamelCase file st seen fs = .ok st' →
    (fs.map fun f => toLowerWithoutUnderscores f.name).Nodup →
    (∀ f ∈ fs, toLowerWithoutUnderscores f.name ∉ seen) → st'.errors = st.errors
  | [], seen, st, st', h, _, _ => by
    simp only [checkCamelCase, Except.ok.injEq] at h; rw [h]
  | f :: fs, seen, st, st', h, hd, hs => by
    simp only [checkCamelCase] at h
    rw [List.map_cons, List.nodup_cons] at hd
    split at h
    · next hc => exact absurd (by simpa using hc) (hs f (List.mem_cons_self ..))
    · refine checkCamelCase_silent h hd.2 fun g hg hm => ?_
      rcases List.mem_cons.1 hm with hm | hm
      · exact hd.1 (hm ▸ List.mem_map_of_mem (f := fun f : FieldP => toLowerWithoutUnderscores f.name) hg)
      · exact hs g (List.mem_cons_of_mem _ hg) hm

theorem checkFirst_silent {st st' : St} {file : Nat} {vs : List EnumValueP}
    (h : checkFirst st file vs = .ok st') {fd : FileD} (hfd : st.pool.files[file]? = some fd)
    (hv : FirstOk fd.syn vs) : st'.errors = st.errors := by
  obtain ⟨v, r, rfl, hv⟩ := hv
  simp only [checkFirst, bind_ok, getR_ok] at h
  obtain ⟨fd', hfd', h⟩ := h
  rw [hfd] at hfd'; cases hfd'
  split at h
  · next hc =>
    cases hs : fd.syn with
    | proto2 => exact absurd hs hc.1
    | proto3 => exact absurd (hv hs) hc.2
  · simp only [Except.ok.injEq] at h; rw [h]

/-- What a callback of the first pass needs in order to report nothing. -/
def NamesFine (q : Pool) (e : Event) : Prop :=
  (∀ n d, e.defn = some (n, d) → lookupN q.names n = none) ∧
  match e with
  | .file _ _ f => lookupN q.fileNames f.name = none ∧
      ∀ n ∈ packageNames f.package, ∀ d, lookupN q.names n = some d → d.kind = .package
  | .message _ _ file _ _ m => ∃ fd, q.files[file]? = some fd ∧
      (fd.syn = .proto3 → (m.fields.map fun f => toLowerWithoutUnderscores f.name).Nodup)
  | .enum _ _ file _ _ en => ∃ fd, q.files[file]? = some fd ∧ FirstOk fd.syn en.values
  | _ => True

theorem addName_files {st st' : St} {file : Nat} {n : Name} {path : Path} {k : DefKind}
    (h : addName st file n path k = .ok st') : st'.pool.files = st.pool.files := by
  unfold addName at h
  split at h
  · simp only [Except.ok.injEq] at h; rw [← h]
  · split at h
    · simp only [Except.ok.injEq] at h; rw [← h]
    · simp only [bind_ok, report_ok] at h
      obtain ⟨_, _, _, h⟩ := h
      rw [h]; rfl

theorem names_silent {st st' : St} {e : Event} (h : namesStep st e = .ok st')
    (hsyn : ∀ path i f, e = .file path i f → parseSyn f.syn ≠ none)
    (hf : NamesFine st.pool e) (he : st.errors = []) : st'.errors = [] := by
  obtain ⟨hn, hf⟩ := hf
  cases e with
  | file path i f =>
    simp only [namesStep] at h
    split at h
    · next hs => exact absurd hs (hsyn _ _ _ rfl)
    · rw [hf.1] at h
      simp only [Option.isSome_none, Bool.false_eq_true, if_false] at h
      have := addPackages_silent h hf.2
      rw [this]; exact he
  | message path full file parent k m =>
    simp only [namesStep, bind_ok, getR_ok] at h
    obtain ⟨st1, h1, fd, hfd, h2⟩ := h
    have e1 := addName_silent h1 (hn _ _ rfl)
    obtain ⟨fd', hfd', hc⟩ := hf
    simp only [addName_files h1] at hfd
    rw [hfd'] at hfd; cases hfd
    split at h2
    · simp only [Except.ok.injEq] at h2
      rw [← h2]; simp only; rw [e1]; exact he
    · next hs =>
      have hs : fd.syn = .proto3 := by
        cases h : fd.syn with
        | proto2 => exact absurd h hs
        | proto3 => rfl
      have := checkCamelCase_silent h2 (hc hs) (by simp)
      rw [this]; simp only; rw [e1]; exact he
  | enum path full file parent k en =>
    simp only [namesStep, bind_ok, Except.ok.injEq] at h
    obtain ⟨st1, h1, st2, h2, h3⟩ := h
    obtain ⟨fd, hfd, hc⟩ := hf
    have e2 := checkFirst_silent h2 (by rw [addName_files h1]; exact hfd) hc
    have e1 := addName_silent h1 (hn _ _ rfl)
    rw [← h3]; simp only; rw [e2, e1]; exact he
  | oneof path full file msg i o =>
    simp only [namesStep, bind_ok, Except.ok.injEq] at h
    obtain ⟨st1, h1, ms, _, h2⟩ := h
    rw [← h2]; simp only; rw [addName_silent h1 (hn _ _ rfl)]; exact he
  | enumValue path full file enum i v =>
    simp only [namesStep, bind_ok, Except.ok.injEq] at h
    obtain ⟨st1, h1, ms, _, h2⟩ := h
    rw [← h2]; simp only; rw [addName_silent h1 (hn _ _ rfl)]; exact he
  | field path full file msg i f => rw [addName_silent h (hn _ _ rfl)]; exact he
  | service path full file i s => rw [addName_silent h (hn _ _ rfl)]; exact he
  | method path full file svc i m => rw [addName_silent h (hn _ _ rfl)]; exact he
  | extension path full file parent i f => rw [addName_silent h (hn _ _ rfl)]; exact he

section
variable {env : Env} {acc fs : List FileP} {p : Pool} {vis : Nat → Nat → Prop}

theorem parseSyn_known {s : Option Name}
    (h : s = none ∨ s = some "proto2".toList ∨ s = some "proto3".toList) : parseSyn s ≠ none := by
  unfold parseSyn
  split
  · simp
  · split
    · simp
    · next h1 h2 =>
      rcases h with h | h | h
      · exact absurd (.inl h) h1
      · exact absurd (.inr h) h1
      · exact absurd h h2

theorem parseSyn_proto3 {s : Option Name} (h : parseSyn s = some .proto3) :
    s = some "proto3".toList := by
  unfold parseSyn at h
  split at h
  · cases h
  · split at h
    · assumption
    · cases h

/-- A name of `fs` is not taken by `acc`. -/
theorem Valid.not_acc (v : Valid env acc fs vis) (h : Desc env acc p)
    (hne : [] ∉ fs.flatMap fileDecls) {n : Name} (hn : n ∈ fs.flatMap fileDecls) :
    lookupN p.names n = none := by
  cases hl : lookupN p.names n with
  | none => rfl
  | some d =>
    have hall : n ∈ (acc ++ fs).flatMap fileDecls := by
      rw [List.flatMap_append]; exact List.mem_append_right _ hn
    have hn0 : n ≠ [] := fun h0 => hne (h0 ▸ hn)
    rcases h.names _ (lookupN_mem hl) with ⟨e, he, hd⟩ | ⟨_, h0 | ⟨f, hf, hp⟩⟩
    · have hacc : n ∈ acc.flatMap fileDecls := (mem_decls (o := {})).2 ⟨e, he, _, hd⟩
      have := v.names
      rw [List.flatMap_append, List.nodup_append] at this
      exact absurd rfl (this.2.2 n hacc n hn)
    · exact absurd h0 hn0
    · rw [mem_packageNames] at hp
      obtain ⟨p1, p2⟩ := v.packages n hall f (List.mem_append_left _ hf)
      rcases hp.2 with hp | ⟨r, hp⟩
      · exact absurd hp.symm (p1 hn0)
      · exact absurd hp (p2 r)

theorem Valid.no_package (v : Valid env acc fs vis) {n : Name}
    (hn : n ∈ (acc ++ fs).flatMap fileDecls) {f : FileP} (hf : f ∈ acc ++ fs) :
    n ∉ packageNames f.package := by
  intro hp
  rw [mem_packageNames] at hp
  obtain ⟨p1, p2⟩ := v.packages n hn f hf
  rcases hp.2 with h | ⟨r, h⟩
  · exact p1 (fun h0 => hp.1 (by rw [← h, h0])) h.symm
  · exact p2 r h

theorem Valid.namesFine (v : Valid env acc fs vis) (h : Desc env acc p)
    (hne : [] ∉ fs.flatMap fileDecls) (hfresh : ∀ f ∈ fs, lookupN p.fileNames f.name = none)
    {pre post : List Event} {e : Event} (hev : pre ++ e :: post = visit p.offs fs) {c c' : Cnt}
    (hc : Cnt.run p.offs (Cnt.start p.offs) pre = some c) (hcs : c.step p.offs e = some c')
    {q : Pool} (hN : Names1 p pre c q) : NamesFine q e := by
  have he : e ∈ visit p.offs fs := by rw [← hev]; simp
  have hpre : ∀ x ∈ pre, x ∈ visit p.offs fs := fun x hx => by rw [← hev]; simp [hx]
  have hall : ∀ {x : Event} {n d}, x ∈ visit p.offs fs → x.defn = some (n, d) →
      n ∈ fs.flatMap fileDecls := fun hx hd => (mem_decls (o := p.offs)).2 ⟨_, hx, _, hd⟩
  obtain ⟨l, g1, g2⟩ := hN.src.names
  -- the file a declaration belongs to has been visited
  have file : ∀ {i : Nat}, p.offs.file ≤ i → i < c.file →
      ∃ f fd, fs[i - p.offs.file]? = some f ∧ q.files[i]? = some fd ∧ parseSyn f.syn = some fd.syn := by
    intro i h1 h2
    obtain ⟨x, hx, hsel⟩ := (tally_file p.offs).ex hc h1 h2
    cases x <;> simp only [selFile, Option.some.injEq, reduceCtorEq] at hsel
    subst hsel
    obtain ⟨_, ⟨syn, a1, a2⟩, _⟩ := hN.evs _ hx
    obtain ⟨j, b1, b2⟩ := file_at (hpre _ hx)
    refine ⟨_, _, ?_, a2, a1⟩
    rw [b1, Nat.add_sub_cancel_left]; exact b2
  refine ⟨fun n d hd => ?_, ?_⟩
  · have hn := hall he hd
    cases hl : lookupN q.names n with
    | none => rfl
    | some d' =>
      have hm := lookupN_mem hl
      rw [g1, lookupN_append, v.not_acc h hne hn, Option.none_or] at hl
      have hm := lookupN_mem hl
      rcases (g2 _ hm).2 with ⟨x, hx, hxd⟩ | ⟨path, i, f, hf, hp, _⟩
      · have hnd := v.names
        rw [List.flatMap_append, List.nodup_append] at hnd
        have := hnd.2.1
        rw [← visit_full_names fs p.offs, ← hev, List.filterMap_append, List.nodup_append] at this
        refine absurd rfl (this.2.2 n ?_ n ?_)
        · exact List.mem_filterMap.2 ⟨x, hx, by rw [Event.full_defn, hxd]; rfl⟩
        · exact List.mem_filterMap.2 ⟨e, List.mem_cons_self .., by rw [Event.full_defn, hd]; rfl⟩
      · obtain ⟨j, _, hj⟩ := file_at (hpre _ hf)
        exact absurd hp (v.no_package (by rw [List.flatMap_append]; exact List.mem_append_right _ hn)
          (List.mem_append_right _ (List.mem_of_getElem? hj)))
  · cases e with
    | file path i f =>
      obtain ⟨j, hj, hjf⟩ := file_at he
      have hf := List.mem_of_getElem? hjf
      refine ⟨?_, fun n hn d hd => ?_⟩
      · obtain ⟨l', k1, k2⟩ := hN.src.fileNames
        rw [k1, lookupN_append, hfresh f hf, Option.none_or]
        cases hl : lookupN l' f.name with
        | none => rfl
        | some i' =>
          obtain ⟨_, path', g, hg, hgn⟩ := k2 _ (lookupN_mem hl)
          have hlt := ((tally_file p.offs).mem hc hg rfl).2
          obtain ⟨j', hj', hjg⟩ := file_at (hpre _ hg)
          simp only [Cnt.step] at hcs
          split at hcs
          · next hi =>
            have hjj : j = j' :=
              nodup_at v.files hjf hjg hgn.symm
            simp only at hlt hj'
            omega
          · cases hcs
      · have hm := lookupN_mem hd
        have hno : ∀ x ∈ visit {} (acc ++ fs), x.defn ≠ some (n, d) := by
          intro x hx hxd
          exact v.no_package ((mem_decls (o := {})).2 ⟨x, hx, _, hxd⟩) (List.mem_append_right _ hf) hn
        rw [g1, List.mem_append] at hm
        rcases hm with hm | hm
        · rcases h.names _ hm with ⟨x, hx, hxd⟩ | ⟨hk, _⟩
          · exact absurd hxd (hno x (by rw [visit_append]; exact List.mem_append_left _ hx))
          · exact hk
        · rcases (g2 _ hm).2 with ⟨x, hx, hxd⟩ | ⟨path, i, f, hf, hp, hk⟩
          · exact absurd hxd (hno x (by
              rw [visit_append, ← h.offs]; exact List.mem_append_right _ (hpre x hx)))
          · simp only at hk; rw [hk]
    | message path full fi parent k m =>
      simp only [Cnt.step] at hcs
      split at hcs
      · next hi =>
        obtain ⟨f, fd, f1, f2, f3⟩ := file hi.2.1.1 hi.2.1.2
        obtain ⟨j, g, s, b1, b2, _, b4⟩ := visited_has he rfl
        rw [b1, Nat.add_sub_cancel_left, b2] at f1
        cases f1
        refine ⟨fd, f2, fun hs => ?_⟩
        rw [hs] at f3
        exact v.camel f (List.mem_of_getElem? b2) (parseSyn_proto3 f3) _ _ _ b4
      · cases hcs
    | enum path full fi parent k m =>
      simp only [Cnt.step] at hcs
      split at hcs
      · next hi =>
        obtain ⟨f, fd, f1, f2, f3⟩ := file hi.2.1.1 hi.2.1.2
        obtain ⟨j, g, s, b1, b2, _, b4⟩ := visited_has he rfl
        rw [b1, Nat.add_sub_cancel_left, b2] at f1
        cases f1
        refine ⟨fd, f2, ?_⟩
        obtain ⟨w, r, w1, w2⟩ := v.first f (List.mem_of_getElem? b2) _ _ _ b4
        refine ⟨w, r, w1, fun hs => w2 ?_⟩
        rw [hs] at f3
        exact parseSyn_proto3 f3
      · cases hcs
    | _ => trivial

/-- The first pass over valid files reports nothing. -/
theorem Valid.names_pass (v : Valid env acc fs vis) (h : Desc env acc p) (hn : NamesIn p)
    (hne : [] ∉ fs.flatMap fileDecls) (hfresh : ∀ f ∈ fs, lookupN p.fileNames f.name = none) :
    ∃ q c, runPass namesStep ⟨p, []⟩ (visit p.offs fs) = .ok ⟨q, []⟩ ∧
      Cnt.run p.offs (Cnt.start p.offs) (visit p.offs fs) = some c ∧
      c.At (offsAfter p.offs fs) ∧ Names1 p (visit p.offs fs) c q := by
  have hsyn : ∀ f ∈ fs, parseSyn f.syn ≠ none := fun f hf => parseSyn_known (v.syn f hf)
  obtain ⟨st, hst⟩ := names_runs (fs := fs) hn hsyn
  obtain ⟨c, hc, _⟩ := run_start p.offs fs
  have he : st.errors = [] := by
    refine pass_inv_at (o := p.offs) (evs := visit p.offs fs)
      (fun pre c st => st.errors = [] ∧ Names1 p pre c st.pool) ?_ (visit p.offs fs) [] _ c _ st rfl rfl hc
      ⟨rfl, names1_start p⟩ hst |>.1
    rintro pre e post c st c' st' hev hcs hrun ⟨he, hN⟩ hs
    have hfine := v.namesFine h hne hfresh hev hrun hcs hN
    have hmem : e ∈ visit p.offs fs := by rw [← hev]; simp
    have he' := names_silent hs (fun path i f hf => by
      subst hf
      obtain ⟨j, _, hj⟩ := file_at hmem
      exact hsyn f (List.mem_of_getElem? hj)) hfine he
    exact ⟨he', hN.step (names_eff hs he').2 hcs⟩
  obtain ⟨c', hc', ha, hN⟩ := Pool.names_pass hst he
  refine ⟨st.pool, c', ?_, hc', ha, hN⟩
  rw [hst, ← he]

end
end Verif.Pool
