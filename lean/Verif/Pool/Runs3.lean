import Verif.Pool.Runs2
/-!
Additions that return: the whole addition.
-/
set_option autoImplicit false
namespace Verif.Pool
open Verif.Wire Verif.Dyn

/-- Every name of the pool is attributed to one of its files. -/
def NamesIn (p : Pool) : Prop := ∀ x ∈ p.names, x.2.file < p.files.length

section
variable {env : Env} {acc fs : List FileP} {p : Pool}

/-- The first pass returns. -/
theorem names_runs (hn : NamesIn p) (hsyn : ∀ f ∈ fs, parseSyn f.syn ≠ none) :
    ∃ st, runPass namesStep ⟨p, []⟩ (visit p.offs fs) = .ok st := by
  obtain ⟨c, hc, _⟩ := run_start p.offs fs
  obtain ⟨st, h, _⟩ := pass_runs (o := p.offs)
    (fun e => ∀ path i f, e = .file path i f → parseSyn f.syn ≠ none) Safe1
    (fun c st e c' hP hcs hI => namesStep_runs hP hcs hI) (visit p.offs fs) (Cnt.start p.offs) c
    ⟨p, []⟩ (fun e he path i f hf => by
      subst hf
      obtain ⟨j, _, hj⟩ := file_at he
      exact hsyn f (List.mem_of_getElem? hj)) hc ⟨⟨rfl, rfl, rfl⟩, hn⟩
  exact ⟨st, h⟩

/-- What the first pass leaves about a visited declaration. -/
theorem Names1.has {c : Cnt} {q0 : Pool} (hN : Names1 p (visit p.offs fs) c q0) {e : Event}
    (he : e ∈ visit p.offs fs) {file : Nat} {path : Path} {full : Name} {x : Item}
    (hx : e.item = some (file, path, full, x)) :
    ∃ fd s, q0.files[file]? = some fd ∧ Has fd.raw path s x := by
  obtain ⟨j, f, s, rfl, hj, _, hh⟩ := visited_has he hx
  obtain ⟨_, ⟨syn, _, h2⟩, _⟩ := hN.evs _ (visit_files fs p.offs j f hj)
  exact ⟨_, s, h2, hh⟩

theorem Names1.evIn {c : Cnt} {q0 : Pool} (hN : Names1 p (visit p.offs fs) c q0)
    (hc : Cnt.run p.offs (Cnt.start p.offs) (visit p.offs fs) = some c) {e : Event}
    (he : e ∈ visit p.offs fs) : EvIn q0 e := by
  cases e with
  | file path i f =>
    obtain ⟨_, ⟨syn, _, h2⟩, _⟩ := hN.evs _ he
    exact getElem?_lt h2
  | message path full file parent k m =>
    obtain ⟨fd, s, h1, h2⟩ := hN.has he rfl
    exact ⟨fd, h1, s, m, h2⟩
  | field path full file msg i f =>
    obtain ⟨fd, s, h1, h2⟩ := hN.has he rfl
    refine ⟨⟨fd, h1, .inl ⟨s, f, h2⟩⟩, ?_⟩
    rcases visit_inner fs p.offs _ he with ⟨_, _, _, ht⟩ | ⟨qpath, qfull, qpar, qm, h1, _⟩
    · exact ht.elim
    · rw [hN.len.messages]; exact ((tally_message p.offs).mem hc h1 rfl).2
  | method path full file k i m =>
    obtain ⟨fd, s, h1, h2⟩ := hN.has he rfl
    exact ⟨fd, h1, s, m, h2⟩
  | enumValue path full file k i v =>
    obtain ⟨fd, s, h1, h2⟩ := hN.has he rfl
    obtain ⟨_, ed, h3, h4⟩ := hN.evs _ he
    exact ⟨getElem?_lt h1, ed, h3, getElem?_lt h4⟩
  | extension path full file k i f =>
    obtain ⟨fd, s, h1, h2⟩ := hN.has he rfl
    exact ⟨fd, h1, .inr ⟨s, f, h2⟩⟩
  | oneof path full file k i o => trivial
  | service path full file i s => trivial
  | enum path full file parent i en => trivial

theorem Desc.msgAt (h : Desc env acc p) {k : Nat} {md : MsgD} (hk : p.messages[k]? = some md) :
    ∃ fd, p.files[md.id.file]? = some fd ∧ MsgAt fd.raw md.id.path := by
  obtain ⟨path, full, fi, parent, m, he, hid, _⟩ := h.message_at hk
  obtain ⟨f, fd, s, y, h1, h2, _, h4, h5, _⟩ := h.copy he rfl
  obtain ⟨_, _, _, _, h6, _⟩ := h.file_inv h2
  rw [h6] at h4
  cases y <;> simp only [Item.strip, reduceCtorEq] at h5
  rw [hid]
  exact ⟨fd, h2, s, _, h4⟩

theorem Desc.enumAt (h : Desc env acc p) {k : Nat} {ed : EnumD} (hk : p.enums[k]? = some ed) :
    ∃ fd, p.files[ed.id.file]? = some fd ∧ EnumAt fd.raw ed.id.path := by
  obtain ⟨path, full, fi, parent, m, he, hid, _⟩ := h.enum_at hk
  obtain ⟨f, fd, s, y, h1, h2, _, h4, h5, _⟩ := h.copy he rfl
  obtain ⟨_, _, _, _, h6, _⟩ := h.file_inv h2
  rw [h6] at h4
  cases y <;> simp only [Item.strip, reduceCtorEq] at h5
  rw [hid]
  exact ⟨fd, h2, s, _, h4⟩

/-- Public imports among the accepted files and the new ones lead down a rank that stays below
the size of the stack. -/
def RankedP (stack : Nat) (all : List FileP) : Prop :=
  ∃ rank : Nat → Nat, (∀ i, i < all.length → rank i < stack) ∧
    ∀ i j, PublicImports all i j → rank j < rank i

theorem Names1.files_of (h : Desc env acc p) {c : Cnt} {q0 : Pool}
    (hN : Names1 p (visit p.offs fs) c q0) (hfr : Frame p q0) {i : Nat} {fd : FileD}
    (hi : q0.files[i]? = some fd) (ha : c.file = p.files.length + fs.length) :
    ∃ f, (acc ++ fs)[i]? = some f ∧ stripFile fd.raw = stripFile f := by
  have hlen := h.files_len
  by_cases hlt : i < p.files.length
  · obtain ⟨l, hl⟩ := hfr.files
    rw [← hl, List.getElem?_append_left hlt] at hi
    obtain ⟨f, h1, _, h3, _⟩ := h.file_inv hi
    exact ⟨f, getElem?_append_of_some _ h1, h3⟩
  · have h2 := getElem?_lt hi
    rw [hN.len.files, ha] at h2
    have hj : i - p.files.length < fs.length := by omega
    have hv := visit_files fs p.offs _ _ (List.getElem?_eq_getElem hj)
    rw [show p.offs.file + (i - p.files.length) = i by show p.files.length + _ = i; omega] at hv
    obtain ⟨_, ⟨syn, _, h3⟩, _⟩ := hN.evs _ hv
    rw [hi] at h3; cases h3
    refine ⟨_, ?_, rfl⟩
    rw [List.getElem?_append_right (by omega), ← hlen]
    exact List.getElem?_eq_getElem hj

/-- After the first pass the pool is as the second needs it. -/
theorem Names1.ready (h : Desc env acc p) (hn : NamesIn p) {c : Cnt} {q0 : Pool}
    (hc : Cnt.run p.offs (Cnt.start p.offs) (visit p.offs fs) = some c)
    (hcf : c.file = p.files.length + fs.length) (hN : Names1 p (visit p.offs fs) c q0)
    (hfr : Frame p q0) {stack : Nat} (hr : RankedP stack (acc ++ fs)) : Ready stack q0 := by
  have hlen := h.files_len
  have hqf : q0.files.length = p.files.length + fs.length := by rw [hN.len.files, hcf]
  have hle : p.messages.length ≤ q0.messages.length := by
    have := hfr.messages.length_le
    simpa using this
  have hle2 : p.enums.length ≤ q0.enums.length := hfr.enums.length_le
  have evFile : ∀ e ∈ visit p.offs fs, ∀ n d, e.defn = some (n, d) → d.file < q0.files.length := by
    intro e he n d hd
    obtain ⟨x, hx⟩ := Event.defn_item hd
    obtain ⟨fd, s, h1, _⟩ := hN.has he hx
    exact getElem?_lt h1
  refine ⟨?_, ?_, ?_, ?_, ?_⟩
  · intro x hx
    obtain ⟨l, g1, g2⟩ := hN.src.names
    rw [g1, List.mem_append] at hx
    rcases hx with hx | hx
    · have hd := h.ok.defIn hx
      refine ⟨by have := hn x hx; omega, fun i hi => ?_, fun i hi => ?_⟩
      · unfold DefIn at hd; rw [hi] at hd; simp only at hd; omega
      · unfold DefIn at hd; rw [hi] at hd; simp only at hd; omega
    · rcases (g2 x hx).2 with ⟨e, he, hd⟩ | ⟨path, i, f, hf, _, hd⟩
      · refine ⟨evFile e he _ _ hd, fun i hi => ?_, fun i hi => ?_⟩
        · cases e <;> simp only [Event.defn, Option.some.injEq, reduceCtorEq] at hd <;> subst hd <;>
            simp only [DefKind.message.injEq, reduceCtorEq] at hi
          subst hi
          obtain ⟨_, ⟨md, h1, _⟩, _⟩ := hN.evs _ he
          exact getElem?_lt h1
        · cases e <;> simp only [Event.defn, Option.some.injEq, reduceCtorEq] at hd <;> subst hd <;>
            simp only [DefKind.enum.injEq, reduceCtorEq] at hi
          subst hi
          obtain ⟨_, ⟨md, h1, _⟩, _⟩ := hN.evs _ he
          exact getElem?_lt h1
      · rw [hd]
        obtain ⟨_, ⟨syn, _, h2⟩, _⟩ := hN.evs _ hf
        exact ⟨getElem?_lt h2, fun i hi => (by cases hi), fun i hi => (by cases hi)⟩
  · intro k md hk
    by_cases hlt : k < p.messages.length
    · have hp := List.getElem?_eq_getElem hlt
      obtain ⟨l, hl⟩ := hfr.messages
      have h1 : (q0.messages.map MsgD.forget)[k]? = some (MsgD.forget p.messages[k]) := by
        rw [← hl]
        exact getElem?_append_of_some _ (by rw [List.getElem?_map, hp]; rfl)
      rw [List.getElem?_map, hk] at h1
      have hid : md.id = (p.messages[k]).id := by
        have := congrArg MsgD.id (Option.some.inj h1)
        simpa [MsgD.forget] using this
      obtain ⟨fd, h2, h3⟩ := h.msgAt hp
      obtain ⟨l', hl'⟩ := hfr.files
      rw [hid]
      exact ⟨fd, by rw [← hl']; exact getElem?_append_of_some _ h2, h3⟩
    · have h2 := getElem?_lt hk
      rw [hN.len.messages] at h2
      obtain ⟨e, he, hsel⟩ := (tally_message p.offs).ex hc (i := k) (by
        show p.messages.length ≤ k; omega) h2
      cases e <;> simp only [selMessage, Option.some.injEq, reduceCtorEq] at hsel
      subst hsel
      obtain ⟨_, ⟨md', h3, _, h4⟩, _⟩ := hN.evs _ he
      rw [hk] at h3; cases h3
      obtain ⟨fd, s, h5, h6⟩ := hN.has he rfl
      rw [h4]
      exact ⟨fd, h5, s, _, h6⟩
  · intro k md hk
    by_cases hlt : k < p.enums.length
    · have hp := List.getElem?_eq_getElem hlt
      obtain ⟨l, hl⟩ := hfr.enums
      rw [← hl, List.getElem?_append_left hlt] at hk
      obtain ⟨fd, h2, h3⟩ := h.enumAt hk
      obtain ⟨l', hl'⟩ := hfr.files
      exact ⟨fd, by rw [← hl']; exact getElem?_append_of_some _ h2, h3⟩
    · have h2 := getElem?_lt hk
      rw [hN.len.enums] at h2
      obtain ⟨e, he, hsel⟩ := (tally_enum p.offs).ex hc (i := k) (by
        show p.enums.length ≤ k; omega) h2
      cases e <;> simp only [selEnum, Option.some.injEq, reduceCtorEq] at hsel
      subst hsel
      obtain ⟨_, ⟨md', h3, _, h4⟩, _⟩ := hN.evs _ he
      rw [hk] at h3; cases h3
      obtain ⟨fd, s, h5, h6⟩ := hN.has he rfl
      rw [h4]
      exact ⟨fd, h5, s, _, h6⟩
  · intro x hx
    obtain ⟨l, g1, g2⟩ := hN.src.fileNames
    rw [g1, List.mem_append] at hx
    rcases hx with hx | hx
    · have := h.ok.fileNames x hx; omega
    · obtain ⟨_, path, f, hf, _⟩ := g2 x hx
      obtain ⟨_, ⟨syn, _, h2⟩, _⟩ := hN.evs _ hf
      exact getElem?_lt h2
  · obtain ⟨rank, r1, r2⟩ := hr
    refine ⟨rank, fun i hi => r1 i (by rw [List.length_append]; omega), ?_⟩
    rintro i j ⟨fd, n, k, h1, h2, h3, h4⟩
    obtain ⟨f, f1, f2⟩ := hN.files_of h hfr h1 hcf
    obtain ⟨e1, e2⟩ := strip_imports f2
    refine r2 i j ?_
    have hj : ∃ g, (acc ++ fs)[j]? = some g ∧ g.name = n := by
      obtain ⟨l, g1, g2⟩ := hN.src.fileNames
      have hm := lookupN_mem h4
      rw [g1, List.mem_append] at hm
      rcases hm with hm | hm
      · obtain ⟨g, h5, h6⟩ := h.fileNames _ hm
        exact ⟨g, getElem?_append_of_some _ h5, h6⟩
      · obtain ⟨_, path, g, hg, h6⟩ := g2 _ hm
        obtain ⟨m, h7, h8⟩ := file_at hg
        refine ⟨g, ?_, h6⟩
        have : p.offs.file = p.files.length := rfl
        simp only at h7
        rw [h7, List.getElem?_append_right (by omega), this, hlen, Nat.add_sub_cancel_left]
        exact h8
    obtain ⟨g, g1, g2⟩ := hj
    exact ⟨f, g, k, f1, g1, by rw [← e1, g2]; exact h2, by rw [← e2]; exact h3⟩

theorem Names1.tab {c : Cnt} {q0 : Pool}
    (hc : Cnt.run p.offs (Cnt.start p.offs) (visit p.offs fs) = some c)
    (hN : Names1 p (visit p.offs fs) c q0) : Tab p.offs (Cnt.start p.offs) q0 := by
  refine ⟨by rw [hN.src.services]; rfl, ?_, ?_⟩
  · intro k md hk hmd
    have hlt := getElem?_lt hmd
    rw [hN.len.messages] at hlt
    obtain ⟨e, he, hsel⟩ := (tally_message p.offs).ex hc hk hlt
    cases e <;> simp only [selMessage, Option.some.injEq, reduceCtorEq] at hsel
    subst hsel
    obtain ⟨_, ⟨md', h2, _, h4⟩, _⟩ := hN.evs _ he
    rw [hmd] at h2; cases h2
    rw [h4]
    exact ⟨rfl, fun x hx => (by cases hx), fun x hx => (by cases hx), fun x hx => (by cases hx)⟩
  · intro k ed hk hed
    have hlt := getElem?_lt hed
    rw [hN.len.enums] at hlt
    obtain ⟨e, he, hsel⟩ := (tally_enum p.offs).ex hc hk hlt
    cases e <;> simp only [selEnum, Option.some.injEq, reduceCtorEq] at hsel
    subst hsel
    obtain ⟨_, ⟨ed', h2, _, h4⟩, _⟩ := hN.evs _ he
    rw [hed] at h2; cases h2
    rw [h4]
    exact ⟨List.Pairwise.nil, fun x hx => (by cases hx), fun x hx => (by cases hx)⟩

/-- The default values a file declares, wherever they are. -/
def FileSafe (checks : Bool) (f : FileP) : Prop :=
  ∀ path s x, (Has f path s (.field x) ∨ Has f path s (.extension x)) → DefaultSafe checks x

theorem evSafe {checks : Bool} {o : Offs} (h : ∀ f ∈ fs, FileSafe checks f) {e : Event}
    (he : e ∈ visit o fs) : EvSafe checks e := by
  cases e with
  | field path full file msg i f =>
    obtain ⟨j, g, s, _, hj, _, hh⟩ := visited_has he rfl
    exact h g (List.mem_of_getElem? hj) path s f (.inl hh)
  | extension path full file msg i f =>
    obtain ⟨j, g, s, _, hj, _, hh⟩ := visited_has he rfl
    exact h g (List.mem_of_getElem? hj) path s f (.inr hh)
  | _ => trivial

/-- An addition returns. -/
theorem buildDeduped_runs (hsr : SearchOk env.search) (h : Desc env acc p) (hn : NamesIn p)
    (hopt : ∀ q e, ∃ b, env.optErr q e = .ok b) (hfresh : ∀ f ∈ fs, lookupN p.fileNames f.name = none)
    (hsyn : ∀ f ∈ fs, parseSyn f.syn ≠ none) (hdef : ∀ f ∈ fs, FileSafe env.checks f)
    (hr : RankedP env.stack (acc ++ fs)) : ∃ b, buildDeduped env p.offs p fs = .ok b := by
  obtain ⟨st, h1⟩ := names_runs (fs := fs) hn hsyn
  unfold buildDeduped
  simp only [h1, bind, Except.bind]
  by_cases he : st.errors = []
  · simp only [he, ne_eq, not_true, if_false]
    obtain ⟨c, hc, ha, hN⟩ := names_pass h1 he
    have hcf : c.file = p.files.length + fs.length := by rw [ha.file, offsAfter_file]; rfl
    have hfr := names_pass_frame hfresh h1
    have hin : ∀ e ∈ visit p.offs fs, EvIn st.pool e := fun e he => hN.evIn hc he
    obtain ⟨st2, h2, s2⟩ := resolve_runs hsr hc (hN.ready h hn hc hcf hfr hr) (hN.tab hc) hin
      (fun e he => evSafe hdef he)
    simp only [h2]
    by_cases he2 : st2.errors = []
    · simp only [he2, not_true, if_false]
      obtain ⟨errs, h3⟩ := optErrs_runs (hopt st2.pool) (visit p.offs fs)
      simp only [h3]
      by_cases he3 : errs = []
      · simp only [he3, not_true, if_false]
        obtain ⟨st3, h4⟩ := apply_runs (env := env) (p := st2.pool) (visit p.offs fs) ⟨st2.pool, []⟩ s2 hin
        simp only [h4]
        exact ⟨_, rfl⟩
      · simp only [he3, not_false_eq_true, if_true]
        exact ⟨_, rfl⟩
    · simp only [he2, not_false_eq_true, if_true]
      exact ⟨_, rfl⟩
  · simp only [he, ne_eq, not_false_eq_true, if_true]
    exact ⟨_, rfl⟩

theorem buildFiles_runs (hsr : SearchOk env.search) (h : Desc env acc p) (hn : NamesIn p)
    (hopt : ∀ q e, ∃ b, env.optErr q e = .ok b)
    (hsyn : ∀ f ∈ fs, lookupN p.fileNames f.name = none → parseSyn f.syn ≠ none)
    (hdef : ∀ f ∈ fs, lookupN p.fileNames f.name = none → FileSafe env.checks f)
    (hr : RankedP env.stack (acc ++ fs.filter fun f => (lookupN p.fileNames f.name).isNone)) :
    ∃ b, buildFiles env p fs = .ok b := by
  have hmem : ∀ f ∈ (fs.filter fun f => (lookupN p.fileNames f.name).isNone),
      f ∈ fs ∧ lookupN p.fileNames f.name = none := fun f hf =>
    ⟨(List.mem_filter.1 hf).1, mem_fresh f hf⟩
  obtain ⟨b, hb⟩ := buildDeduped_runs hsr h hn hopt mem_fresh
    (fun f hf => hsyn f (hmem f hf).1 (hmem f hf).2) (fun f hf => hdef f (hmem f hf).1 (hmem f hf).2) hr
  unfold buildFiles
  simp only [hb]
  split
  · exact ⟨_, rfl⟩
  · split
    · exact ⟨_, rfl⟩
    · exact ⟨_, rfl⟩

/-! When names stay attributed to files of the pool. -/

theorem Added.namesIn {q : Pool} (h : Added env p fs q) (hn : NamesIn p) : NamesIn q := by
  have hlen : q.files.length = p.files.length + fs.length := by
    have := congrArg Offs.file h.offs
    rw [offsAfter_file] at this
    exact this
  intro x hx
  obtain ⟨l, g1, g2⟩ := h.names
  rw [g1, List.mem_append] at hx
  rcases hx with hx | hx
  · have := hn x hx; omega
  · rcases (g2 x hx).2 with ⟨e, he, hd⟩ | ⟨i, f, hf, _, hd⟩
    · obtain ⟨y, hy⟩ := Event.defn_item (n := x.1) (d := x.2) hd
      obtain ⟨j, f, s, h1, h2, _⟩ := visited_has he hy
      have := getElem?_lt h2
      rw [h1, hlen]
      show p.files.length + j < _
      omega
    · obtain ⟨fd, a1, _⟩ := h.file_proto hf
      rw [hd]
      exact getElem?_lt a1

end

/-- No new package with an empty name. -/
def Nd (p q : Pool) : Prop := ∀ x ∈ q.names, x.1 = [] → x.2.kind = .package → x ∈ p.names

theorem Nd.of_eq {a b : Pool} (h : b.names = a.names) : Nd a b := fun x hx _ _ => by rw [← h]; exact hx

theorem Nd.trans {a b c : Pool} (h : Nd a b) (h' : Nd b c) : Nd a c :=
  fun x hx h1 h2 => h x (h' x hx h1 h2) h1 h2

theorem addName_nd {st st' : St} {file : Nat} {name : Name} {path : Path} {kind : DefKind}
    (hs : addName st file name path kind = .ok st') (h : kind = .package → name ≠ []) :
    Nd st.pool st'.pool := by
  unfold Pool.addName at hs
  split at hs
  · cases hs
    intro x hx h1 h2
    rw [List.mem_append, List.mem_singleton] at hx
    rcases hx with hx | rfl
    · exact hx
    · exact absurd h1 (h h2)
  · split at hs
    · cases hs; exact .of_eq rfl
    · simp only [bind_ok] at hs
      obtain ⟨_, _, hs⟩ := hs
      exact .of_eq (by rw [(Quiet.report hs).pool])

theorem addPackages_nd {file : Nat} {path : Path} : ∀ {ns : List Name} {st st' : St},
    addPackages file path st ns = .ok st' → (∀ n ∈ ns, n ≠ []) → Nd st.pool st'.pool
  | [], st, st', hs, _ => by simp only [Pool.addPackages, Except.ok.injEq] at hs; rw [← hs]; exact .of_eq rfl
  | n :: ns, st, st', hs, h => by
    simp only [Pool.addPackages] at hs
    split at hs
    · next st1 h1 =>
      exact (addName_nd h1 fun _ => h n (by simp)).trans
        (addPackages_nd hs fun n hn => h n (List.mem_cons_of_mem _ hn))
    · cases hs

/-- The package of a file does not begin with a dot. -/
def NoDot (f : FileP) : Prop := ∀ r, f.package ≠ '.' :: r

theorem names_nd {st st' : St} {e : Event} (hd : ∀ path i f, e = .file path i f → NoDot f)
    (hs : namesStep st e = .ok st') : Nd st.pool st'.pool := by
  cases e with
  | file path i f =>
    simp only [namesStep] at hs
    split at hs
    · exact .of_eq (by rw [(Quiet.report hs).pool])
    · refine Nd.trans ?_ (addPackages_nd hs ?_)
      · exact .of_eq (by split <;> rfl)
      · intro n hn h0
        subst h0
        rw [mem_packageNames] at hn
        have := hd path i f rfl
        obtain ⟨h1, h2⟩ := hn
        rcases h2 with h2 | ⟨r, h2⟩
        · exact h1 h2.symm
        · exact this r h2
  | message path full file parent i m =>
    simp only [namesStep, bind_ok] at hs
    obtain ⟨st1, h1, fd, _, hs⟩ := hs
    refine (addName_nd h1 (fun h => by cases h)).trans (.of_eq ?_)
    split at hs
    · simp only [Except.ok.injEq] at hs; rw [← hs]
    · rw [(checkCamelCase_quiet hs).pool]
  | oneof path full file msg i o =>
    simp only [namesStep, bind_ok, modR_ok, Except.ok.injEq] at hs
    obtain ⟨st1, h1, ms, ⟨_, h2⟩, h3⟩ := hs
    refine (addName_nd h1 (fun h => by cases h)).trans (.of_eq ?_)
    rw [← h3]
  | enum path full file parent i en =>
    simp only [namesStep, bind_ok, Except.ok.injEq] at hs
    obtain ⟨st1, h1, st2, h2, h3⟩ := hs
    refine (addName_nd h1 (fun h => by cases h)).trans (.of_eq ?_)
    rw [← h3]
    simp only [(checkFirst_quiet h2).pool]
  | enumValue path full file enum i v =>
    simp only [namesStep, bind_ok, modR_ok, Except.ok.injEq] at hs
    obtain ⟨st1, h1, ms, ⟨_, h2⟩, h3⟩ := hs
    refine (addName_nd h1 (fun h => by cases h)).trans (.of_eq ?_)
    rw [← h3]
  | field path full file msg i f => exact addName_nd hs (fun h => by cases h)
  | service path full file i s => exact addName_nd hs (fun h => by cases h)
  | method path full file svc i m => exact addName_nd hs (fun h => by cases h)
  | extension path full file parent i f => exact addName_nd hs (fun h => by cases h)

theorem depLoop_names {env : Env} {index : Nat} :
    ∀ {ds : List Name} {st st' : St} {tr tr' : List Nat},
      depLoop env index ds st tr = .ok (st', tr') → st'.pool.names = st.pool.names
  | [], st, st', tr, tr', hs => by
    simp only [depLoop, Except.ok.injEq, Prod.mk.injEq] at hs; rw [← hs.1]
  | d :: ds, st, st', tr, tr', hs => by
    simp only [depLoop] at hs
    split at hs
    · simp only [bind_ok, modR_ok] at hs
      obtain ⟨fs, ⟨_, h1⟩, tr1, _, hs⟩ := hs
      rw [depLoop_names (st := ⟨{ st.pool with files := fs }, st.errors⟩) hs]
    · simp only [bind_ok] at hs
      obtain ⟨st1, h1, hs⟩ := hs
      rw [depLoop_names hs, (Quiet.report h1).pool]

theorem resolve_names {env : Env} {st st' : St} {e : Event}
    (hs : resolveStep env st e = .ok st') : st'.pool.names = st.pool.names := by
  cases e with
  | file path i f =>
    simp only [resolveStep, resolveFile, bind_ok, modR_ok, Except.ok.injEq] at hs
    obtain ⟨⟨st1, tr⟩, h1, fs, ⟨_, h2⟩, h3⟩ := hs
    rw [← h3, ((checkImports_quiet _ _ _).trans (checkImports_quiet _ _ _)).pool]
    simp only [depLoop_names h1]
  | message path full file parent i m => simp only [resolveStep, Except.ok.injEq] at hs; rw [← hs]
  | oneof path full file msg i o => simp only [resolveStep, Except.ok.injEq] at hs; rw [← hs]
  | enum path full file parent i en => simp only [resolveStep, Except.ok.injEq] at hs; rw [← hs]
  | service path full file i s => simp only [resolveStep, Except.ok.injEq] at hs; rw [← hs]; rfl
  | field path full file msg i f =>
    simp only [resolveStep, resolveField, bind_ok, getR_ok] at hs
    obtain ⟨fd, hfd, st1, h1, ⟨st2, kind⟩, h2, ⟨st3, json⟩, h3, ⟨st4, dflt⟩, h4, m, hm,
      st5, h5, st6, h6, st7, h7, h8⟩ := hs
    simp only [Except.ok.injEq] at h8
    rw [← h8]
    simp only
    rw [(reportDup_quiet h7).pool, (reportDup_quiet h6).pool, (reportDup_quiet h5).pool,
        (oneofStep_quiet st4 m f.oneofIndex i).pool, (parseDefaultOpt_quiet h4).pool,
        (resolveJsonName_raw h3).1.names, (resolveType_raw h2).names, (checkNumber_quiet h1).pool]
  | method path full file svc i m =>
    simp only [resolveStep, resolveMethod, bind_ok, modR_ok, Except.ok.injEq] at hs
    obtain ⟨⟨st1, a⟩, h1, ⟨st2, b⟩, h2, ss, ⟨_, h3⟩, h4⟩ := hs
    rw [← h4]
    simp only [(findMessage_raw h2).names, (findMessage_raw h1).names]
  | enumValue path full file enum i v =>
    simp only [resolveStep, resolveEnumValue, bind_ok, getR_ok, Except.ok.injEq] at hs
    obtain ⟨st1, h1, e, he, st2, h2, st3, h3, h4⟩ := hs
    rw [← h4]
    simp only [(reportValueName_quiet h3).pool, (reportAlias_quiet h2).pool,
      (checkEnumNumber_quiet h1).pool]
  | extension path full file parent i f =>
    simp only [resolveStep, resolveExtension, bind_ok, getR_ok, Except.ok.injEq] at hs
    obtain ⟨⟨st1, ext⟩, h1, st2, h2, fd, hfd, ⟨st3, kind⟩, h3, ⟨st4, json⟩, h4, ⟨st5, dflt⟩, h5,
      h6⟩ := hs
    rw [← h6]
    simp only [(parseDefaultOpt_quiet h5).pool, (resolveJsonName_raw h4).1.names,
      (resolveType_raw h3).names]
    rw [← (findMessage_raw h1).names]
    unfold extendeeStep at h2
    split at h2
    · simp only [Except.ok.injEq] at h2; rw [← h2]
    · next k hk =>
      simp only [bind_ok, modR_ok] at h2
      obtain ⟨ms, ⟨_, h7⟩, h8⟩ := h2
      rw [(checkNumber_quiet h8).pool]

theorem runPass_nd {step : St → Event → Res St} :
    ∀ {es : List Event} {st st' : St},
      (∀ e ∈ es, ∀ a b, step a e = .ok b → Nd a.pool b.pool) →
      runPass step st es = .ok st' → Nd st.pool st'.pool
  | [], st, st', _, h => by
    simp only [runPass, Except.ok.injEq] at h; rw [← h]; exact .of_eq rfl
  | e :: es, st, st', hp, h => by
    simp only [runPass] at h
    split at h
    · next st1 h1 =>
      exact (hp e (by simp) _ _ h1).trans (runPass_nd (fun e he => hp e (by simp [he])) h)
    · cases h

theorem buildDeduped_nd {env : Env} {o : Offs} {p : Pool} {fs : List FileP} {b : Built}
    (h : buildDeduped env o p fs = .ok b) (hb : b.errors ≠ []) (hd : ∀ f ∈ fs, NoDot f) :
    Nd p b.pool := by
  have hn : ∀ e ∈ visit o fs, ∀ a b, namesStep a e = .ok b → Nd a.pool b.pool := by
    intro e he a b hs
    refine names_nd (fun path i f hf => ?_) hs
    subst hf
    obtain ⟨_, j, _, hj⟩ := file_mem_visit he
    exact hd f (List.mem_of_getElem? hj)
  have hr : ∀ e ∈ visit o fs, ∀ a b, resolveStep env a e = .ok b → Nd a.pool b.pool :=
    fun e _ a b hs => .of_eq (resolve_names hs)
  cases buildDeduped_outcome h with
  | names st h1 _ => exact runPass_nd (st := ⟨p, []⟩) hn h1
  | resolve st st' h1 _ h2 _ =>
    exact (runPass_nd (st := ⟨p, []⟩) hn h1).trans (runPass_nd (st := ⟨st.pool, []⟩) hr h2)
  | options st st' errs h1 _ h2 _ _ =>
    exact (runPass_nd (st := ⟨p, []⟩) hn h1).trans (runPass_nd (st := ⟨st.pool, []⟩) hr h2)
  | done => exact absurd rfl hb

/-- A failed addition leaves no name behind, unless a package began with a dot. -/
theorem rejected_names {env : Env} {p : Pool} (ok : PoolOk p) {fs : List FileP} {q : Pool}
    {e : ErrKind} {es : List ErrKind} (h : buildFiles env p fs = .ok ⟨q, e :: es⟩)
    (hd : ∀ f ∈ fs, lookupN p.fileNames f.name = none → NoDot f) : q.names = p.names := by
  unfold buildFiles at h
  simp only at h
  split at h
  · simp only [Except.ok.injEq, Built.mk.injEq] at h
    cases h.2
  · split at h
    · cases h
    · next b hb =>
      split at h
      · simp only [Except.ok.injEq, Built.mk.injEq] at h
        have hnd := buildDeduped_nd hb (by rw [h.2]; simp) fun f hf =>
          hd f (List.mem_filter.1 hf).1 (mem_fresh f hf)
        obtain ⟨l, h1, h2⟩ := (rollback_like ok (buildDeduped_frame mem_fresh hb)).names
        rw [h.1] at h1
        have : l = [] := by
          cases l with
          | nil => rfl
          | cons x l =>
            exfalso
            obtain ⟨g1, g2, g3, _⟩ := h2 x (by simp)
            have hx : x ∈ q.names := by rw [h1]; simp
            rw [← h.1] at hx
            have := hnd x (List.mem_filter.1 hx).1 g1 g2
            exact lookupN_none.1 g3 x this g1
        rw [h1, this, List.append_nil]
      · next hne =>
        simp only [Except.ok.injEq] at h
        subst h
        simp at hne

/-- A history that also records the files given, whether accepted, rejected or known. -/
inductive Given (env : Env) : List FileP → List FileP → Pool → Prop where
  | empty : Given env [] [] Pool.empty
  | accept (given acc : List FileP) (p : Pool) (fs : List FileP) (q : Pool) :
      Given env given acc p → buildFiles env p fs = .ok ⟨q, []⟩ →
      Given env (given ++ fs) (acc ++ fs.filter fun f => (lookupN p.fileNames f.name).isNone) q
  | reject (given acc : List FileP) (p : Pool) (fs : List FileP) (q : Pool) (e : ErrKind)
      (es : List ErrKind) : Given env given acc p → buildFiles env p fs = .ok ⟨q, e :: es⟩ →
      Given env (given ++ fs) acc q

theorem Given.hist {env : Env} {given acc : List FileP} {p : Pool} (h : Given env given acc p) :
    Hist env acc p := by
  induction h with
  | empty => exact .empty
  | accept given acc p fs q _ hb ih => exact .accept acc p fs q ih hb
  | reject given acc p fs q e es _ hb ih => exact .reject acc p fs q e es ih hb

theorem Given.namesIn {env : Env} (hsr : SearchOk env.search) {given acc : List FileP} {p : Pool}
    (h : Given env given acc p) (hd : ∀ f ∈ given, NoDot f) : NamesIn p := by
  induction h with
  | empty => intro x hx; cases hx
  | accept given acc p fs q hh hb ih =>
    have ih := ih fun f hf => hd f (List.mem_append_left _ hf)
    rcases buildFiles_accept hsr (hh.hist.desc hsr).ok hb with ⟨h1, rfl⟩ | ha
    · exact ih
    · exact ha.namesIn ih
  | reject given acc p fs q e es hh hb ih =>
    have ih := ih fun f hf => hd f (List.mem_append_left _ hf)
    have ok := (hh.hist.desc hsr).ok
    obtain ⟨r, _, _, hl⟩ := buildFiles_reject ok hb
    intro x hx
    rw [hl.files]
    rw [rejected_names ok hb fun f hf _ => hd f (List.mem_append_right _ hf)] at hx
    exact ih x hx

end Verif.Pool
