import Verif.Pool.Desc
/-!
A successful addition.
-/
set_option autoImplicit false
namespace Verif.Pool
open Verif.Wire Verif.Dyn

/-! What a successful resolution found. -/

theorem RR.new_found {deps : List Nat} {names : List (Name × Def)} {name n : Name} {fl : Filter}
    {d : Def} (h : RR.new deps names name fl = .found n d) :
    n = name ∧ lookupN names n = some d ∧ d.file ∈ deps ∧ fl.isMatch d.kind = true := by
  unfold RR.new at h
  split at h
  · next d' hd =>
    split at h
    · cases h
    · next h1 =>
      split at h
      · cases h
      · next h2 =>
        simp only [RR.found.injEq] at h
        obtain ⟨rfl, rfl⟩ := h
        exact ⟨rfl, hd, by simpa using h1, by simpa using h2⟩
  · cases h

theorem relLoop_found {deps : List Nat} {names : List (Name × Def)} {rel : Name} {fl : Filter} :
    ∀ {ps : List Name} {err : RR} {n : Name} {d : Def},
    relLoop deps names rel fl err ps = .found n d → (∀ n d, err ≠ .found n d) →
      lookupN names n = some d ∧ d.file ∈ deps ∧ fl.isMatch d.kind = true
  | [], err, n, d, h, he => absurd h (he n d)
  | p :: ps, err, n, d, h, he => by
    simp only [relLoop] at h
    split at h
    · split at h
      · next n' d' hr =>
        simp only [RR.found.injEq] at h
        obtain ⟨rfl, rfl⟩ := h
        exact (RR.new_found hr).2
      · next res hres =>
        refine relLoop_found h ?_
        intro a b
        split
        · exact hres a b
        · exact he a b
    · split at h
      · split at h
        · split at h
          · cases h
          · exact (RR.new_found h).2
        · exact relLoop_found h he
      · exact relLoop_found h he

theorem resolveName_found {deps : List Nat} {names : List (Name × Def)} {scope name n : Name}
    {fl : Filter} {d : Def} (h : resolveName deps names scope name fl = .found n d) :
    lookupN names n = some d ∧ d.file ∈ deps ∧ fl.isMatch d.kind = true := by
  unfold resolveName at h
  split at h
  · exact (RR.new_found h).2
  · split at h
    · exact (RR.new_found h).2
    · exact relLoop_found h (by intro a b; simp)

/-! The first pass leaves extension lists alone. -/

/-- Extension lists as before, empty for new messages. -/
def SameExts (p q : Pool) : Prop :=
  ∀ (k : Nat) md, q.messages[k]? = some md →
    (∀ m, p.messages[k]? = some m → md.extensions = m.extensions) ∧
    (p.messages.length ≤ k → md.extensions = [])

theorem names_sameExts {p q r : Pool} {e : Event} (h : SameExts p q)
    (hlen : p.messages.length ≤ q.messages.length) (eff : NamesEff q e r) :
    SameExts p r ∧ p.messages.length ≤ r.messages.length := by
  cases e with
  | file path i f => obtain ⟨syn, l, _, _, rfl, _⟩ := eff; exact ⟨h, hlen⟩
  | message path full file parent k m =>
    obtain ⟨_, rfl, _⟩ := eff
    refine ⟨?_, by simp only [List.length_append]; omega⟩
    intro j md hj
    rcases mem_append_get hj with ⟨_, h1⟩ | ⟨h1, h2⟩
    · exact h j md h1
    · subst h2
      refine ⟨?_, fun _ => rfl⟩
      intro m hm
      have := getElem?_lt hm
      omega
  | field path full file k i f => obtain ⟨_, rfl⟩ := eff; exact ⟨h, hlen⟩
  | oneof path full file k i o =>
    obtain ⟨_, _, rfl⟩ := eff
    refine ⟨?_, by simpa using hlen⟩
    intro j md hj
    simp only at hj
    by_cases hkj : k = j
    · subst hkj
      rw [getElem?_modify_eq, Option.map_eq_some_iff] at hj
      obtain ⟨m0, h0, rfl⟩ := hj
      exact h k m0 h0
    · rw [getElem?_modify_ne _ _ hkj] at hj
      exact h j md hj
  | service path full file k s => obtain ⟨_, rfl⟩ := eff; exact ⟨h, hlen⟩
  | method path full file k i m => obtain ⟨_, rfl⟩ := eff; exact ⟨h, hlen⟩
  | enum path full file parent k en => obtain ⟨_, rfl, _⟩ := eff; exact ⟨h, hlen⟩
  | enumValue path full file k i v => obtain ⟨_, _, rfl⟩ := eff; exact ⟨h, hlen⟩
  | extension path full file parent k f => obtain ⟨_, rfl⟩ := eff; exact ⟨h, hlen⟩

theorem names_pass_exts {p : Pool} {fs : List FileP} {st : St}
    (h : runPass namesStep ⟨p, []⟩ (visit p.offs fs) = .ok st) (he : st.errors = []) :
    SameExts p st.pool := by
  obtain ⟨c, hc, _⟩ := run_start p.offs fs
  have := pass_inv (o := p.offs)
    (fun _ _ st => st.errors = [] → SameExts p st.pool ∧ p.messages.length ≤ st.pool.messages.length)
    ?_ _ [] _ _ _ _ hc ?_ h
  · exact (this he).1
  · intro pre c st e c' st' hcs hI hs he
    obtain ⟨e0, eff⟩ := names_eff hs he
    obtain ⟨h1, h2⟩ := hI e0
    exact names_sameExts h1 h2 eff
  · intro _
    refine ⟨?_, Nat.le_refl _⟩
    intro k md hmd
    refine ⟨fun m hm => ?_, fun hk => ?_⟩
    · simp only at hmd; rw [hm] at hmd; cases hmd; rfl
    · have := getElem?_lt hmd; simp only at this; omega

/-! The names table stays in range. -/

/-- The entry is about something that exists. -/
def DefIn (p : Pool) (d : Def) : Prop :=
  match d.kind with
  | .package => True
  | .message i | .field i | .oneof i => i < p.messages.length
  | .service i | .method i => i < p.services.length
  | .enum i | .enumValue i => i < p.enums.length
  | .extension i => i < p.extensions.length

theorem PoolOk.defIn {p : Pool} (ok : PoolOk p) {x : Name × Def} (hx : x ∈ p.names) :
    DefIn p x.2 := by
  have := ok.names x hx
  unfold DefIn
  unfold keepName at this
  cases hk : x.2.kind <;> rw [hk] at this <;> simp only [decide_eq_true_eq] at this ⊢ <;> exact this

theorem Keeps.defIn {p q : Pool} (h : Keeps p q) {d : Def} (hd : DefIn p d) : DefIn q d := by
  unfold DefIn at hd ⊢
  cases hk : d.kind <;> rw [hk] at hd <;> simp only at hd ⊢
  · exact h.msgLt hd
  · exact h.msgLt hd
  · exact h.msgLt hd
  · exact getElem?_lt (h.services _ _ (List.getElem?_eq_getElem hd))
  · exact getElem?_lt (h.services _ _ (List.getElem?_eq_getElem hd))
  · exact h.enumLt hd
  · exact h.enumLt hd
  · exact getElem?_lt (h.extensions _ _ (List.getElem?_eq_getElem hd))

/-- The definitions of a traversal are in range of its end. -/
theorem visit_defIn {o : Offs} {fs : List FileP} {q : Pool} (hq : q.offs = offsAfter o fs)
    {e : Event} (he : e ∈ visit o fs) {n : Name} {d : Def} (hd : e.defn = some (n, d)) :
    DefIn q d := by
  obtain ⟨c, hc, ha⟩ := run_start o fs
  have hm : q.messages.length = c.message := by rw [ha.message, ← hq]; rfl
  have hs : q.services.length = c.service := by rw [ha.service, ← hq]; rfl
  have hen : q.enums.length = c.enum := by rw [ha.enum, ← hq]; rfl
  have hx : q.extensions.length = c.extension := by rw [ha.extension, ← hq]; rfl
  cases e with
  | file path i f => cases hd
  | message path full file parent k m =>
    cases hd
    show k < _
    rw [hm]; exact ((tally_message o).mem hc he rfl).2
  | field path full file k i f =>
    cases hd
    show k < _
    rcases visit_inner fs o _ he with ⟨_, _, _, ht⟩ | ⟨qpath, qfull, qpar, qm, h1, _⟩
    · exact ht.elim
    · rw [hm]; exact ((tally_message o).mem hc h1 rfl).2
  | oneof path full file k i f =>
    cases hd
    show k < _
    rcases visit_inner fs o _ he with ⟨_, _, _, ht⟩ | ⟨qpath, qfull, qpar, qm, h1, _⟩
    · exact ht.elim
    · rw [hm]; exact ((tally_message o).mem hc h1 rfl).2
  | service path full file k s =>
    cases hd
    show k < _
    rw [hs]; exact ((tally_service o).mem hc he rfl).2
  | method path full file k i m =>
    cases hd
    show k < _
    rcases visit_inner fs o _ he with ⟨_, _, _, ht⟩ | ⟨qpath, qfull, qm, h1, _⟩
    · exact ht.elim
    · rw [hs]; exact ((tally_service o).mem hc h1 rfl).2
  | enum path full file parent k en =>
    cases hd
    show k < _
    rw [hen]; exact ((tally_enum o).mem hc he rfl).2
  | enumValue path full file k i v =>
    cases hd
    show k < _
    rcases visit_inner fs o _ he with ⟨_, _, _, ht⟩ | ⟨scope, qpath, qpar, qm, h1, _⟩
    · exact ht.elim
    · rw [hen]; exact ((tally_enum o).mem hc h1 rfl).2
  | extension path full file parent k f =>
    cases hd
    show k < _
    rw [hx]; exact ((tally_ext o).mem hc he rfl).2

/-! The addition. -/

/-- A successful addition of `fs` to `p` gave `q`. -/
structure Added (env : Env) (p : Pool) (fs : List FileP) (q : Pool) : Prop where
  frame : Frame p q
  offs : q.offs = offsAfter p.offs fs
  decl : ∀ e ∈ visit p.offs fs, Declared env q e
  resolved : ∀ e ∈ visit p.offs fs, Ev2 env q q.files.length e
  exts : ∀ (k : Nat) m m', p.messages[k]? = some m → q.messages[k]? = some m' →
    ExtList q p.extensions.length k m.extensions m'.extensions
  newExts : ∀ (k : Nat) m', p.messages.length ≤ k → q.messages[k]? = some m' →
    ExtList q p.extensions.length k [] m'.extensions
  names : ∃ l, q.names = p.names ++ l ∧ ∀ x ∈ l, lookupN p.names x.1 = none ∧
    ((∃ e ∈ visit p.offs fs, e.defn = some x) ∨
     ∃ i f, .file [] i f ∈ visit p.offs fs ∧ x.1 ∈ packageNames f.package ∧ x.2 = ⟨i, [], .package⟩)
  fileNames : ∃ l, q.fileNames = p.fileNames ++ l ∧ ∀ x ∈ l, lookupN p.fileNames x.1 = none ∧
    ∃ f, .file [] x.2 f ∈ visit p.offs fs ∧ f.name = x.1

theorem Pass2.after {env : Env} {o : Offs} {q0 : Pool} {evs : List Event} {cE : Cnt} {p q : Pool}
    (h : Pass2 env o q0 evs cE evs cE p) (s : Sealed o.file p q) :
    (∀ e ∈ evs, Ev1s q cE e) ∧ (∀ e ∈ evs, Ev2 env q cE.file e) :=
  ⟨fun e he => (h.evs1 e he).mono (s.mono 0), fun e he => (h.evs2 e he).mono (s.mono cE.file) (Nat.le_refl _)⟩

theorem added_of_outcome {env : Env} (hsr : SearchOk env.search) {p : Pool} (ok : PoolOk p)
    {fs : List FileP} (hfresh : ∀ f ∈ fs, lookupN p.fileNames f.name = none) {q : Pool}
    (hb : buildDeduped env p.offs p fs = .ok ⟨q, []⟩) : Added env p fs q := by
  have frame := buildDeduped_frame hfresh hb
  simp only at frame
  have out := buildDeduped_outcome hb
  generalize hbb : (⟨q, []⟩ : Built) = b at out
  cases out with
  | names st h1 h2 => simp only [Built.mk.injEq] at hbb; exact absurd hbb.2.symm h2
  | resolve st st' h1 h2 h3 h4 => simp only [Built.mk.injEq] at hbb; exact absurd hbb.2.symm h4
  | options st st' errs h1 h2 h3 h4 h5 => simp only [Built.mk.injEq] at hbb; exact absurd hbb.2.symm h5
  | done st st' st'' h1 h2 h3 h4 h5 =>
    simp only [Built.mk.injEq, and_true] at hbb
    subst hbb
    obtain ⟨c, hc, ha, hN⟩ := names_pass h1 h2
    have P := resolve_pass hsr hc hN h3 h4
    have S := apply_sealed (p := p) (fs := fs) h5
    have SE := names_pass_exts h1 h2
    generalize { st''.pool with files := sealFiles p.offs.file st''.pool.files } = q at *
    have hsame := S.same
    obtain ⟨E1, E2⟩ := P.after S
    have hqm : q.messages = st'.pool.messages := by rw [hsame]
    have hqe : q.enums = st'.pool.enums := by rw [hsame]
    have hqs : q.services = st'.pool.services := by rw [hsame]
    have hqx : q.extensions = st'.pool.extensions := by rw [hsame]
    have hqn : q.names = st.pool.names := by rw [hsame]; exact P.names
    have hqf : q.fileNames = st.pool.fileNames := by rw [hsame]; exact P.fileNames
    have hlf : q.files.length = c.file := by rw [S.len, P.filesLen, hN.len.files]
    have hlm : q.messages.length = c.message := by rw [hqm, P.msgsLen, hN.len.messages]
    have hle : q.enums.length = c.enum := by rw [hqe, P.enumsLen, hN.len.enums]
    have hls : q.services.length = c.service := by rw [hqs, P.servicesLen]
    have hlx : q.extensions.length = c.extension := by rw [hqx, P.extensionsLen]
    have hoffs : q.offs = offsAfter p.offs fs := by
      have : q.offs = ⟨q.files.length, q.messages.length, q.enums.length, q.services.length,
        q.extensions.length⟩ := rfl
      rw [this, hlf, hlm, hle, hls, hlx, ha.file, ha.message, ha.enum, ha.service, ha.extension]
    have hnames : ∃ l, q.names = p.names ++ l ∧ ∀ x ∈ l, lookupN p.names x.1 = none ∧
        ((∃ e ∈ visit p.offs fs, e.defn = some x) ∨
         ∃ i f, .file [] i f ∈ visit p.offs fs ∧ x.1 ∈ packageNames f.package ∧
          x.2 = ⟨i, [], .package⟩) := by
      obtain ⟨l, g1, g2⟩ := hN.src.names
      refine ⟨l, by rw [hqn]; exact g1, fun x hx => ?_⟩
      obtain ⟨k1, k2⟩ := g2 x hx
      refine ⟨k1, ?_⟩
      rcases k2 with k2 | ⟨path, i, f, k2, k3, k4⟩
      · exact .inl k2
      · obtain ⟨rfl, _⟩ := file_mem_visit k2
        exact .inr ⟨i, f, k2, k3, k4⟩
    have keeps := frame.keeps
    -- everything named exists
    have inRange : ∀ n d, lookupN q.names n = some d → DefIn q d := by
      intro n d hd
      have hmem := lookupN_mem hd
      obtain ⟨l, g1, g2⟩ := hnames
      rw [g1, List.mem_append] at hmem
      rcases hmem with hmem | hmem
      · exact keeps.defIn (ok.defIn hmem)
      · rcases (g2 _ hmem).2 with ⟨e, he, hed⟩ | ⟨i, f, _, _, hk⟩
        · exact visit_defIn hoffs he hed
        · simp only at hk; rw [hk]; trivial
    have kindOk : ∀ {trans : List Nat} {scope : Name} {f : FieldP} {k : Kind} {g : Bool},
        TypeOk trans q.names scope f k g → KindOk q f k g := by
      intro trans scope f k g hk
      cases hk with
      | scalar k h1 h2 => exact .scalar k h1 h2
      | message n d i h1 h2 h3 =>
        have := inRange n d (resolveName_found h2).1
        unfold DefIn at this
        rw [h3] at this
        exact .message i h1 this
      | enum n d i h1 h2 h3 =>
        have := inRange n d (resolveName_found h2).1
        unfold DefIn at this
        rw [h3] at this
        exact .enum i h1 this
    have msgOk : ∀ {trans : List Nat} {scope name : Name} {k : Nat},
        MessageOk trans q.names scope name k → k < q.messages.length := by
      intro trans scope name k hk
      obtain ⟨n, d, h1, h2⟩ := hk
      have := inRange n d (resolveName_found h1).1
      unfold DefIn at this
      rw [h2] at this
      exact this
    refine ⟨frame, hoffs, ?_, ?_, ?_, ?_, hnames, ?_⟩
    · intro e he
      have e1 := E1 e he
      have e2 := E2 e he
      refine ⟨e1.1, ?_⟩
      have e1 := e1.2
      cases e with
      | file path i f =>
        obtain ⟨⟨fd, a1, a2, a3⟩, a4, a5⟩ := e1
        obtain ⟨fd', b1, b2, b3, b4, b5, b6⟩ := e2
        rw [a1] at b1; cases b1
        refine ⟨⟨fd, a1, a2, a3, ?_, b3, b5, b6⟩, a4, a5⟩
        have hi := (tally_file p.offs).mem hc he rfl
        have hlt := getElem?_lt a1
        rw [S.len] at hlt
        obtain ⟨fd2, s1, _, _, _, _, s2⟩ := S.new i _ hi.1 (List.getElem?_eq_getElem hlt)
        rw [a1] at s1; cases s1; exact s2
      | message path full file parent k m =>
        obtain ⟨⟨md, a1, a2, a3, a4⟩, a5⟩ := e1
        have hi := (tally_message p.offs).mem hc he rfl
        have := P.msgs k md hi.1 (by rw [← hqm]; exact a1)
        refine ⟨⟨md, a1, a2, a3, ?_, ?_, this.1⟩, a5⟩
        · rw [this.2, count_fields hc he]
        · rw [a4, count_oneofs hc he]
      | field path full file k i f =>
        obtain ⟨fd, md, d, b1, b2, b3, b4, b5, b6⟩ := e2
        exact ⟨fd, md, d, b1, b3, b4, b5,
          { id := b6.id, number := b6.number, valid := b6.valid, json := b6.json,
            kind := kindOk b6.kind, oneof := b6.oneof, oneofLt := b6.oneofLt, packed := b6.packed,
            presence := b6.presence, card := b6.card, default := b6.default }⟩
      | oneof path full file k i o => exact e1
      | enum path full file parent k en =>
        obtain ⟨⟨ed, a1, a2, a3, a4, a5⟩, a6⟩ := e1
        have hi := (tally_enum p.offs).mem hc he rfl
        have := P.enums k ed hi.1 (by rw [← hqe]; exact a1)
        refine ⟨⟨ed, a1, a2, a3, a4, ?_, ?_⟩, a6⟩
        · rw [a5, count_values hc he]
        · rw [a5]; exact this
      | enumValue path full file k i v =>
        obtain ⟨ed, a1, a2⟩ := e1
        obtain ⟨ed', fd, ep, b1, b2, b3, b4⟩ := e2
        rw [a1] at b1; cases b1
        exact ⟨ed, fd, ep, a1, a2, b2, b3, b4⟩
      | service path full file k s =>
        obtain ⟨sd, b1, b2⟩ := e2
        have hi := (tally_service p.offs).mem hc he rfl
        have := P.methods k sd hi.1 (by rw [← hqs]; exact b1)
        exact ⟨sd, b1, b2, by rw [this, count_methods hc he]⟩
      | method path full file k i m =>
        obtain ⟨fd, sd, d, b1, b2, b3, b4, b5, b6, b7⟩ := e2
        exact ⟨sd, d, b3, b4, b5, msgOk b6, msgOk b7⟩
      | extension path full file parent k f =>
        obtain ⟨fd, d, b1, b2, b3, b4, b5⟩ := e2
        exact ⟨fd, d, b1, b3, b4,
          { id := b5.id, parent := b5.parent, number := b5.number, valid := b5.valid, json := b5.json,
            kind := kindOk b5.kind, extendee := msgOk b5.extendee, packed := b5.packed,
            card := b5.card, default := b5.default }⟩
    · rw [hlf]; exact E2
    · intro k m m' hm hm'
      obtain ⟨m0, h0⟩ : ∃ m0, st.pool.messages[k]? = some m0 := by
        refine ⟨_, List.getElem?_eq_getElem ?_⟩
        have := getElem?_lt hm'
        rw [hqm, P.msgsLen] at this
        exact this
      have := P.exts k m0 m' h0 (by rw [← hqm]; exact hm')
      rw [(SE k m0 h0).1 m hm] at this
      exact this.same hqx
    · intro k m' hk hm'
      obtain ⟨m0, h0⟩ : ∃ m0, st.pool.messages[k]? = some m0 := by
        refine ⟨_, List.getElem?_eq_getElem ?_⟩
        have := getElem?_lt hm'
        rw [hqm, P.msgsLen] at this
        exact this
      have := P.exts k m0 m' h0 (by rw [← hqm]; exact hm')
      rw [(SE k m0 h0).2 hk] at this
      exact this.same hqx
    · obtain ⟨l, g1, g2⟩ := hN.src.fileNames
      refine ⟨l, by rw [hqf]; exact g1, fun x hx => ?_⟩
      obtain ⟨k1, path, f, k2, k3⟩ := g2 x hx
      obtain ⟨rfl, _⟩ := file_mem_visit k2
      exact ⟨k1, f, k2, k3⟩

end Verif.Pool
