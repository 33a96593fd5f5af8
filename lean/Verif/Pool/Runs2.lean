import Verif.Pool.Runs
/-!
Additions that return: the callbacks of the second and third pass.
-/
set_option autoImplicit false
namespace Verif.Pool
open Verif.Wire Verif.Dyn

/-- Positions in the look-up tables are positions of members. -/
structure Tab (o : Offs) (c : Cnt) (q : Pool) : Prop where
  services : q.services.length = c.service
  msgs : ∀ (k : Nat) md, o.message ≤ k → q.messages[k]? = some md → md.fields.length = c.fields k ∧
    (∀ x ∈ md.fieldNumbers, x.2 < md.fields.length) ∧
    (∀ x ∈ md.fieldNames, x.2 < md.fields.length) ∧ ∀ x ∈ md.fieldJsonNames, x.2 < md.fields.length
  enums : ∀ (k : Nat) ed, o.enum ≤ k → q.enums[k]? = some ed → Ascending ed.valueNumbers ∧
    (∀ x ∈ ed.valueNumbers, x.2 < ed.values.length) ∧ ∀ x ∈ ed.valueNames, x.2 < ed.values.length

theorem Tab.of_raw {o : Offs} {c : Cnt} {file : Nat} {st st' : St} (h : Tab o c st.pool)
    (r : Raw file st st') : Tab o c st'.pool :=
  ⟨by rw [r.services]; exact h.services, by rw [r.messages]; exact h.msgs,
    by rw [r.enums]; exact h.enums⟩

section
variable {stack : Nat}

theorem depLoop_runs {env : Env} {index : Nat} : ∀ (ds : List Name) (st : St) (tr : List Nat),
    Ready env.stack st.pool → index < st.pool.files.length →
    ∃ st' tr', depLoop env index ds st tr = .ok (st', tr') ∧ Sim st.pool st'.pool ∧
      st'.pool.messages = st.pool.messages ∧ st'.pool.enums = st.pool.enums ∧
      st'.pool.services = st.pool.services
  | [], st, tr, _, _ => ⟨st, tr, rfl, Sim.refl _, rfl, rfl, rfl⟩
  | d :: ds, st, tr, hg, hi => by
    simp only [depLoop]
    cases hl : lookupN st.pool.fileNames d with
    | none =>
      simp only [report_of _ hi, bind, Except.bind]
      obtain ⟨st', tr', h1, h2, h3⟩ := depLoop_runs (env := env) (index := index) ds
        (st.push (.fileNotFound d)) tr hg hi
      exact ⟨st', tr', h1, h2, h3⟩
    | some di =>
      simp only [modR_of hi, bind, Except.bind]
      have hs : Sim st.pool { st.pool with
          files := st.pool.files.modify index fun f => { f with deps := f.deps ++ [di] } } := by
        refine { Sim.refl st.pool with filesLen := by simp, files := ?_ }
        intro i fd hfd
        simp only [List.getElem?_modify, hfd]
        split
        · exact ⟨_, rfl, rfl⟩
        · exact ⟨_, rfl, rfl⟩
      have hg' := hg.sim hs
      obtain ⟨rank, k1, k2⟩ := hg'.rank
      have hdi : di < (st.pool.files.modify index fun f => { f with deps := f.deps ++ [di] }).length :=
        hg'.fileNames _ (lookupN_mem hl)
      obtain ⟨tr1, h1⟩ := resolvePublic_runs hg'.fileNames k2 env.stack
        (if tr.contains di then tr else di :: tr) di hdi (k1 di hdi)
      simp only at h1
      rw [h1]
      obtain ⟨st', tr', g1, g2, g3⟩ := depLoop_runs (env := env) (index := index) ds
        { st with pool := { st.pool with
          files := st.pool.files.modify index fun f => { f with deps := f.deps ++ [di] } } } tr1 hg'
        (by simpa using hi)
      exact ⟨st', tr', g1, hs.trans g2, g3⟩

theorem checkImports_pool (n : Nat) : ∀ (is : List Int) (st : St), (checkImports n st is).pool = st.pool
  | [], st => rfl
  | i :: is, st => by
    simp only [checkImports]
    rw [checkImports_pool n is]
    split <;> rfl

theorem resolveFile_runs {env : Env} {st : St} (hg : Ready env.stack st.pool) {index : Nat}
    (hi : index < st.pool.files.length) (f : FileP) :
    ∃ st', resolveFile env st index f = .ok st' ∧ Sim st.pool st'.pool ∧
      st'.pool.messages = st.pool.messages ∧ st'.pool.enums = st.pool.enums ∧
      st'.pool.services = st.pool.services := by
  obtain ⟨st1, tr, h1, h2, h3, h4, h5⟩ := depLoop_runs f.deps st [index] hg hi
  have hi1 : index < st1.pool.files.length := by rw [h2.filesLen]; exact hi
  simp only [resolveFile, h1, bind, Except.bind, modR_of hi1]
  refine ⟨_, rfl, ?_, ?_, ?_, ?_⟩ <;> simp only [checkImports_pool]
  · refine h2.trans { Sim.refl st1.pool with filesLen := by simp, files := ?_ }
    intro i fd hfd
    simp only [List.getElem?_modify, hfd]
    split
    · exact ⟨_, rfl, rfl⟩
    · exact ⟨_, rfl, rfl⟩
  · exact h3
  · exact h4
  · exact h5

theorem Sim.file {p q : Pool} (s : Sim p q) {file : Nat} {path : Path}
    (h : ∃ fd, p.files[file]? = some fd ∧ FieldAt fd.raw path) :
    ∃ fd, q.files[file]? = some fd ∧ FieldAt fd.raw path := by
  obtain ⟨fd, h1, h2⟩ := h
  obtain ⟨fd', g1, g2⟩ := s.files _ _ h1
  exact ⟨fd', g1, h2.strip g2⟩

theorem oneofStep_props (st : St) (m : MsgD) (idx : Option Int) (index : Nat) :
    (oneofStep st m idx index).1.pool = st.pool ∧ (oneofStep st m idx index).2.1.id = m.id ∧
    (oneofStep st m idx index).2.1.fields = m.fields ∧
    (oneofStep st m idx index).2.1.fieldNumbers = m.fieldNumbers ∧
    (oneofStep st m idx index).2.1.fieldNames = m.fieldNames ∧
    (oneofStep st m idx index).2.1.fieldJsonNames = m.fieldJsonNames := by
  unfold oneofStep
  split
  · exact ⟨rfl, rfl, rfl, rfl, rfl, rfl⟩
  · split
    · exact ⟨rfl, rfl, rfl, rfl, rfl, rfl⟩
    · exact ⟨rfl, rfl, rfl, rfl, rfl, rfl⟩

theorem Sim.set_msg {p : Pool} {k : Nat} {m m' : MsgD} (h : p.messages[k]? = some m) (hid : m'.id = m.id) :
    Sim p { p with messages := p.messages.set k m' } := by
  refine { Sim.refl p with msgsLen := by simp, messages := ?_ }
  intro i x hx
  rcases getElem?_set_cases (k := k) (b := m') hx with ⟨rfl, h1⟩ | ⟨_, h1⟩
  · rw [h] at hx; cases hx
    exact ⟨m', h1, hid⟩
  · exact ⟨x, h1, rfl⟩

theorem resolveField_runs {env : Env} {o : Offs} {c : Cnt} {st : St} (hg : Ready stack st.pool)
    (ht : Tab o c st.pool) {path : Path} {file msg : Nat}
    (hf : ∃ fd, st.pool.files[file]? = some fd ∧ FieldAt fd.raw path)
    (hm : msg < st.pool.messages.length) (ho : o.message ≤ msg) (full : Name) {f : FieldP}
    (hd : DefaultSafe env.checks f) :
    ∃ st', resolveField env st path full file msg (c.fields msg) f = .ok st' ∧ Sim st.pool st'.pool ∧
      Tab o { c with fields := bump c.fields msg } st'.pool := by
  obtain ⟨fd, hfd, hat⟩ := hf
  obtain ⟨st1, h1⟩ := checkNumber_runs hg hm (getElem?_lt hfd) f
  have p1 := (checkNumber_quiet h1).pool
  have hg1 : Ready stack st1.pool := by rw [p1]; exact hg
  have hfd1 : st1.pool.files[file]? = some fd := by rw [p1]; exact hfd
  obtain ⟨st2, kind, h2, hk⟩ := resolveType_runs hg1 hfd1 hat f full
  have r2 := resolveType_raw h2
  obtain ⟨fd2, hfd2, hat2⟩ := r2.sim.file ⟨fd, hfd1, hat⟩
  obtain ⟨st3, json, h3⟩ := resolveJsonName_runs hfd2 hat2 f
  have r3 := (resolveJsonName_raw h3).1
  obtain ⟨fd3, hfd3, hat3⟩ := r3.sim.file ⟨fd2, hfd2, hat2⟩
  have hk3 : ∀ k' g, kind = some (k', g) → (∀ i, k' = .enum i → i < st3.pool.enums.length) ∧
      (k' = .bytes → f.typeName = [] ∧ f.ty = .bytes) := by
    rw [r3.enums, r2.enums]; exact hk
  obtain ⟨st4, dflt, h4⟩ := parseDefaultOpt_runs (getElem?_lt hfd3) hk3 hd
  have p4 := (parseDefaultOpt_quiet h4).pool
  have s4 : Sim st.pool st4.pool := by
    rw [p4]; rw [← p1]; exact (r2.trans r3).sim
  have t4 : Tab o c st4.pool := by
    rw [p4]; rw [← p1] at ht; exact ht.of_raw (r2.trans r3)
  have hm4 : msg < st4.pool.messages.length := by rw [s4.msgsLen]; exact hm
  have hget := List.getElem?_eq_getElem hm4
  obtain ⟨b1, b2, b3, b4, b5, b6⟩ := oneofStep_props st4 st4.pool.messages[msg] f.oneofIndex (c.fields msg)
  obtain ⟨t1, t2, t3, t5⟩ := t4.msgs msg _ ho hget
  have hl5 : file < (oneofStep st4 st4.pool.messages[msg] f.oneofIndex (c.fields msg)).1.pool.files.length := by
    rw [b1, p4]; exact getElem?_lt hfd3
  simp only [resolveField, getR_ok.2 hfd, h1, h2, h3, h4, getR_of hm4, bind, Except.bind]
  generalize oneofStep st4 st4.pool.messages[msg] f.oneofIndex (c.fields msg) = r at *
  obtain ⟨st5, m5, oneof⟩ := r
  simp only at b1 b2 b3 b4 b5 b6 hl5 ⊢
  have lens : ∀ (d : FieldD) i, i < st4.pool.messages[msg].fields.length → i < (m5.fields ++ [d]).length := by
    intro d i hi
    rw [b3, List.length_append, List.length_singleton]; omega
  have d6 := fun (m6 : MsgD) (hm6 : m6.fields.length = m5.fields.length + 1) =>
    reportDup_runs (m := m6) hl5 (ex := SMap.get? m5.fieldNumbers (asU32 f.number)) (fun i hi => by
      rw [b4] at hi
      have := t2 _ (SMap.mem_of_get? hi)
      rw [hm6, b3]; simp only at this; omega) .duplicateFieldNumber
  have d7 := fun (m6 : MsgD) (hm6 : m6.fields.length = m5.fields.length + 1) (s : St)
      (hs : s.pool = st5.pool) =>
    reportDup_runs (st := s) (m := m6) (file := file) (by rw [hs]; exact hl5)
      (ex := lookupN m5.fieldNames f.name) (fun i hi => by
      rw [b5] at hi
      have := t3 _ (lookupN_mem hi)
      rw [hm6, b3]; simp only at this; omega) (.duplicateName full)
  have d8 := fun (m6 : MsgD) (hm6 : m6.fields.length = m5.fields.length + 1) (s : St)
      (hs : s.pool = st5.pool) =>
    reportDup_runs (st := s) (m := m6) (file := file) (by rw [hs]; exact hl5)
      (ex := lookupN m5.fieldJsonNames json) (fun i hi => by
      rw [b6] at hi
      have := t5 _ (lookupN_mem hi)
      rw [hm6, b3]; simp only at this; omega) .duplicateJsonName
  generalize hm6 : MsgD.mk m5.id m5.parent m5.extensions (m5.fields ++ [FieldD.mk
    (Ident.mk' file path full f.name) (asU32 f.number) json (kindOrDouble kind).1 (kindOrDouble kind).2
    oneof (isPacked fd.syn f kind) (supportsPresence fd.syn f kind) f.label dflt])
    (SMap.insert (asU32 f.number) (c.fields msg) m5.fieldNumbers)
    (insertN f.name (c.fields msg) m5.fieldNames) (insertN json (c.fields msg) m5.fieldJsonNames)
    m5.oneofs = m6
  have l6 : m6.fields.length = m5.fields.length + 1 := by rw [← hm6]; simp
  obtain ⟨st6, e6⟩ := d6 m6 l6
  have q6 := (reportDup_quiet e6).pool
  obtain ⟨st7, e7⟩ := d7 m6 l6 st6 q6
  have q7 := (reportDup_quiet e7).pool
  obtain ⟨st8, e8⟩ := d8 m6 l6 st7 (q7.trans q6)
  have q8 := (reportDup_quiet e8).pool
  simp only [e6, e7, e8]
  have q : st8.pool = st4.pool := by rw [q8, q7, q6, b1]
  refine ⟨_, rfl, ?_, ?_⟩
  · show Sim st.pool { st8.pool with messages := st8.pool.messages.set msg m6 }
    rw [q]
    refine s4.trans (Sim.set_msg hget ?_)
    rw [← hm6]; exact b2
  · show Tab o _ { st8.pool with messages := st8.pool.messages.set msg m6 }
    rw [q]
    refine ⟨t4.services, ?_, t4.enums⟩
    intro k md hk hmd
    rw [List.getElem?_set] at hmd
    by_cases hkm : msg = k
    · subst hkm
      simp only [if_true, hm4] at hmd
      cases hmd
      rw [l6, b3, t1]
      refine ⟨by simp [bump], ?_, ?_, ?_⟩
      · intro x hx
        rw [← hm6] at hx
        rcases SMap.mem_insert hx with rfl | hx
        · show c.fields msg < _; omega
        · rw [b4] at hx
          have := t2 x hx; omega
      · intro x hx
        rw [← hm6] at hx
        rcases mem_insertN hx with rfl | hx
        · show c.fields msg < _; omega
        · rw [b5] at hx
          have := t3 x hx; omega
      · intro x hx
        rw [← hm6] at hx
        rcases mem_insertN hx with rfl | hx
        · show c.fields msg < _; omega
        · rw [b6] at hx
          have := t5 x hx; omega
    · rw [if_neg hkm] at hmd
      have := t4.msgs k md hk hmd
      simpa [bump, Ne.symm hkm] using this

theorem resolveMethod_runs {o : Offs} {c : Cnt} {st : St} (hg : Ready stack st.pool)
    (ht : Tab o c st.pool) {path : Path} {file svc : Nat}
    (hf : ∃ fd, st.pool.files[file]? = some fd ∧ MethodAt fd.raw path)
    (hs : svc < c.service) (full : Name) (m : MethodP) :
    ∃ st', resolveMethod st path full file svc m = .ok st' ∧ Sim st.pool st'.pool ∧
      Tab o { c with methods := bump c.methods svc } st'.pool := by
  obtain ⟨fd, hfd, hat⟩ := hf
  obtain ⟨st1, i1, h1, _⟩ := findMessage_runs hg hfd (t := .input) hat full m.input
  have r1 := findMessage_raw h1
  obtain ⟨fd1, hfd1, e1⟩ := r1.sim.files _ _ hfd
  obtain ⟨st2, i2, h2, _⟩ := findMessage_runs (hg.sim r1.sim) hfd1 (t := .output) (hat.strip e1) full m.output
  have r2 := r1.trans (findMessage_raw h2)
  have t2 := ht.of_raw r2
  have hl : svc < st2.pool.services.length := by rw [t2.services]; exact hs
  simp only [resolveMethod, h1, h2, modR_of hl, bind, Except.bind]
  exact ⟨_, rfl, r2.sim.trans { Sim.refl st2.pool with }, by simp [t2.services], t2.msgs, t2.enums⟩

theorem Ascending.insertAt {search : List (Int × Nat) → Int → Bool × Nat} (hs : SearchOk search)
    {l : List (Int × Nat)} (h : Ascending l) (n : Int) (j : Nat) :
    Ascending (Pool.insertAt (search l n).2 (n, j) l) := by
  cases hr : search l n with
  | mk b i =>
    cases b with
    | true =>
      obtain ⟨k, hk⟩ := hs.hit l n i h hr
      have hd : l.drop i = (n, k) :: l.drop (i + 1) := by
        have hlt := getElem?_lt hk
        rw [List.drop_eq_getElem_cons hlt]
        rw [List.getElem?_eq_getElem hlt] at hk
        rw [Option.some.inj hk]
      have h' := h
      unfold Ascending at h'
      rw [← List.take_append_drop i l, List.pairwise_append, hd] at h'
      obtain ⟨_, a2, a3⟩ := h'
      refine insertAt_pairwise h (fun x hx => a3 x hx (n, k) (by simp)) (fun x hx => ?_)
      rw [hd] at hx
      rcases List.mem_cons.mp hx with rfl | hx
      · exact Int.le_refl _
      · exact (List.pairwise_cons.mp a2).1 x hx
    | false =>
      obtain ⟨_, h1, h2⟩ := hs.miss l n i h hr
      exact insertAt_pairwise h (fun x hx => Int.le_of_lt (h1 x hx)) (fun x hx => Int.le_of_lt (h2 x hx))

theorem resolveEnumValue_runs {env : Env} (hsr : SearchOk env.search) {o : Offs} {c : Cnt} {st : St}
    (hg : Ready stack st.pool) (ht : Tab o c st.pool) {file enum i : Nat}
    (hf : file < st.pool.files.length) (hi : ∃ ed, st.pool.enums[enum]? = some ed ∧ i < ed.values.length)
    (ho : o.enum ≤ enum) (full : Name) (v : EnumValueP) :
    ∃ st', resolveEnumValue env st full file enum i v = .ok st' ∧ Sim st.pool st'.pool ∧
      Tab o { c with values := bump c.values enum } st'.pool := by
  obtain ⟨ed, hed, hi⟩ := hi
  obtain ⟨st1, h1⟩ := checkEnumNumber_runs hg (getElem?_lt hed) hf v
  have p1 := (checkEnumNumber_quiet h1).pool
  obtain ⟨ha, hn, hm⟩ := ht.enums enum ed ho hed
  have hed1 : st1.pool.enums[enum]? = some ed := by rw [p1]; exact hed
  have hf1 : file < st1.pool.files.length := by rw [p1]; exact hf
  have h2 : ∃ st2, reportAlias st1 ed file (env.search ed.valueNumbers v.number) = .ok st2 := by
    unfold reportAlias
    split
    · next hh =>
      obtain ⟨j, hj⟩ := hsr.hit ed.valueNumbers v.number _ ha (Prod.ext hh.1 rfl)
      have hlt := hn _ (List.mem_of_getElem? hj)
      simp only at hlt
      simp only [getR_ok.2 hj, bind, Except.bind, getR_of hlt]
      exact ⟨_, report_of _ hf1⟩
    · exact ⟨_, rfl⟩
  obtain ⟨st2, h2⟩ := h2
  have p2 := (reportAlias_quiet h2).pool
  have h3 : ∃ st3, reportValueName st2 ed file full (lookupN ed.valueNames v.name) = .ok st3 := by
    unfold reportValueName
    cases hl : lookupN ed.valueNames v.name with
    | none => exact ⟨_, rfl⟩
    | some j =>
      have hlt := hm _ (lookupN_mem hl)
      simp only at hlt
      simp only [getR_of hlt, bind, Except.bind]
      exact ⟨_, report_of _ (by rw [p2]; exact hf1)⟩
  obtain ⟨st3, h3⟩ := h3
  have p3 := (reportValueName_quiet h3).pool
  simp only [resolveEnumValue, h1, getR_ok.2 hed1, h2, h3, bind, Except.bind]
  refine ⟨_, rfl, ?_, ?_⟩ <;> simp only [p3, p2, p1]
  · refine { Sim.refl st.pool with enumsLen := by simp, enums := ?_ }
    intro k x hx
    rcases getElem?_set_cases (k := enum) (b := { ed with
      valueNumbers := insertAt (env.search ed.valueNumbers v.number).2 (v.number, i) ed.valueNumbers
      valueNames := insertN v.name i ed.valueNames }) hx with ⟨rfl, g1⟩ | ⟨_, g1⟩
    · rw [hed] at hx; cases hx
      exact ⟨_, g1, rfl, rfl⟩
    · exact ⟨x, g1, rfl, rfl⟩
  · refine ⟨ht.services, ht.msgs, ?_⟩
    intro k x hk hx
    simp only [List.getElem?_set] at hx
    by_cases hke : enum = k
    · subst hke
      simp only [if_true, getElem?_lt hed] at hx
      cases hx
      refine ⟨ha.insertAt hsr _ _, ?_, ?_⟩
      · intro y hy
        rcases insertAt_mem.mp hy with rfl | hy
        · exact hi
        · exact hn y hy
      · intro y hy
        rcases mem_insertN hy with rfl | hy
        · exact hi
        · exact hm y hy
    · rw [if_neg hke] at hx
      exact ht.enums k x hk hx

theorem extendeeStep_runs {o : Offs} {c : Cnt} {st : St} (hg : Ready stack st.pool) (ht : Tab o c st.pool)
    {file : Nat} (hf : file < st.pool.files.length) {ext : Option Nat}
    (he : ∀ i, ext = some i → i < st.pool.messages.length) (index : Nat) (f : FieldP) :
    ∃ st', extendeeStep st ext index f file = .ok st' ∧ Sim st.pool st'.pool ∧ Tab o c st'.pool := by
  cases ext with
  | none => exact ⟨_, rfl, Sim.refl _, ht⟩
  | some i =>
    have hi := he i rfl
    have s1 : Sim st.pool { st.pool with
        messages := st.pool.messages.modify i fun m => { m with extensions := m.extensions ++ [index] } } := by
      refine { Sim.refl st.pool with msgsLen := by simp, messages := ?_ }
      intro k x hx
      simp only [List.getElem?_modify, hx]
      split
      · exact ⟨_, rfl, rfl⟩
      · exact ⟨_, rfl, rfl⟩
    obtain ⟨st2, h2⟩ := checkNumber_runs (st := { st with pool := { st.pool with
      messages := st.pool.messages.modify i fun m => { m with extensions := m.extensions ++ [index] } } })
      (hg.sim s1) (msg := i) (by simpa using hi) hf f
    have p2 := (checkNumber_quiet h2).pool
    simp only [extendeeStep, modR_of hi, bind, Except.bind]
    refine ⟨st2, h2, ?_, ?_⟩ <;> rw [p2]
    · exact s1
    · refine ⟨ht.services, ?_, ht.enums⟩
      intro k md hk hmd
      simp only [List.getElem?_modify, Option.map_eq_map, Option.map_eq_some_iff] at hmd
      obtain ⟨x, hx, rfl⟩ := hmd
      have := ht.msgs k x hk hx
      split
      · exact this
      · exact this

theorem resolveExtension_runs {env : Env} {o : Offs} {c : Cnt} {st : St} (hg : Ready stack st.pool)
    (ht : Tab o c st.pool) {path : Path} {file : Nat}
    (hf : ∃ fd, st.pool.files[file]? = some fd ∧ FieldAt fd.raw path) (full : Name)
    (parent : Option Nat) (index : Nat) {f : FieldP} (hd : DefaultSafe env.checks f) :
    ∃ st', resolveExtension env st path full file parent index f = .ok st' ∧ Sim st.pool st'.pool ∧
      Tab o { c with extension := c.extension + 1 } st'.pool := by
  obtain ⟨fd, hfd, hat⟩ := hf
  obtain ⟨st1, ext, h1, hx⟩ := findMessage_runs hg hfd (t := .extendee) hat full f.extendeeName
  have r1 := findMessage_raw h1
  obtain ⟨fd1, hfd1, hat1⟩ := r1.sim.file ⟨fd, hfd, hat⟩
  obtain ⟨st2, h2, s2, t2⟩ := extendeeStep_runs (hg.sim r1.sim) (ht.of_raw r1) (getElem?_lt hfd1)
    (ext := ext) (by rw [r1.messages]; exact hx) index f
  obtain ⟨fd2, hfd2, hat2⟩ := s2.file ⟨fd1, hfd1, hat1⟩
  have s02 := r1.sim.trans s2
  obtain ⟨st3, kind, h3, hk⟩ := resolveType_runs (hg.sim s02) hfd2 hat2 f full
  have r3 := resolveType_raw h3
  obtain ⟨fd3, hfd3, hat3⟩ := r3.sim.file ⟨fd2, hfd2, hat2⟩
  obtain ⟨st4, json, h4⟩ := resolveJsonName_runs hfd3 hat3 f
  have r4 := (resolveJsonName_raw h4).1
  obtain ⟨fd4, hfd4, hat4⟩ := r4.sim.file ⟨fd3, hfd3, hat3⟩
  have hk4 : ∀ k' g, kind = some (k', g) → (∀ i, k' = .enum i → i < st4.pool.enums.length) ∧
      (k' = .bytes → f.typeName = [] ∧ f.ty = .bytes) := by
    rw [r4.enums, r3.enums]; exact hk
  obtain ⟨st5, dflt, h5⟩ := parseDefaultOpt_runs (getElem?_lt hfd4) hk4 hd
  have p5 := (parseDefaultOpt_quiet h5).pool
  have s5 : Sim st.pool st5.pool := by
    rw [p5]; exact s02.trans (r3.trans r4).sim
  have t5 : Tab o c st5.pool := by
    rw [p5]; exact t2.of_raw (r3.trans r4)
  simp only [resolveExtension, h1, h2, h3, h4, h5, getR_ok.2 hfd2, bind, Except.bind]
  exact ⟨_, rfl, s5.trans { Sim.refl st5.pool with }, t5.services, t5.msgs, t5.enums⟩

/-- The default value a callback is about. -/
def EvSafe (checks : Bool) : Event → Prop
  | .field _ _ _ _ _ f => DefaultSafe checks f
  | .extension _ _ _ _ _ f => DefaultSafe checks f
  | _ => True

/-- Callbacks of the second pass return. -/
theorem resolveStep_runs {env : Env} (hsr : SearchOk env.search) {o : Offs} {c c' : Cnt} {st : St}
    {e : Event} (hg : Ready env.stack st.pool) (ht : Tab o c st.pool) (hin : EvIn st.pool e)
    (hd : EvSafe env.checks e) (hs : c.step o e = some c') :
    ∃ st', resolveStep env st e = .ok st' ∧ Sim st.pool st'.pool ∧ Tab o c' st'.pool := by
  cases e with
  | file path i f =>
    simp only [Cnt.step] at hs; split at hs <;> cases hs
    obtain ⟨st', h1, h2, h3, h4, h5⟩ := resolveFile_runs hg hin f
    exact ⟨st', h1, h2, by rw [h5]; exact ht.services, by rw [h3]; exact ht.msgs, by rw [h4]; exact ht.enums⟩
  | message path full file parent k m =>
    simp only [Cnt.step] at hs; split at hs <;> cases hs
    exact ⟨st, rfl, Sim.refl _, ht.services, ht.msgs, ht.enums⟩
  | oneof path full file k i m =>
    simp only [Cnt.step] at hs; split at hs <;> cases hs
    exact ⟨st, rfl, Sim.refl _, ht.services, ht.msgs, ht.enums⟩
  | enum path full file parent k m =>
    simp only [Cnt.step] at hs; split at hs <;> cases hs
    exact ⟨st, rfl, Sim.refl _, ht.services, ht.msgs, ht.enums⟩
  | service path full file k m =>
    simp only [Cnt.step] at hs; split at hs <;> cases hs
    exact ⟨_, rfl, { Sim.refl st.pool with }, by simp [resolveService, ht.services], ht.msgs, ht.enums⟩
  | field path full file msg i f =>
    simp only [Cnt.step] at hs; split at hs
    · next hi =>
      cases hs
      obtain ⟨rfl, hb, _⟩ := hi
      exact resolveField_runs hg ht hin.1 hin.2 hb.1 full hd
    · cases hs
  | method path full file svc i m =>
    simp only [Cnt.step] at hs; split at hs
    · next hi =>
      cases hs
      exact resolveMethod_runs hg ht hin hi.2.1.2 full m
    · cases hs
  | enumValue path full file enum i v =>
    simp only [Cnt.step] at hs; split at hs
    · next hi =>
      cases hs
      exact resolveEnumValue_runs hsr hg ht hin.1 hin.2 hi.2.1.1 full v
    · cases hs
  | extension path full file parent i f =>
    simp only [Cnt.step] at hs; split at hs
    · next hi =>
      cases hs
      exact resolveExtension_runs hg ht hin full parent i hd
    · cases hs

/-- The second pass returns. -/
theorem resolve_runs {env : Env} (hsr : SearchOk env.search) {o : Offs} {q0 : Pool} {evs : List Event}
    {c : Cnt} (hc : Cnt.run o (Cnt.start o) evs = some c) (hg : Ready env.stack q0)
    (ht : Tab o (Cnt.start o) q0) (hin : ∀ e ∈ evs, EvIn q0 e) (hd : ∀ e ∈ evs, EvSafe env.checks e) :
    ∃ st, runPass (resolveStep env) ⟨q0, []⟩ evs = .ok st ∧ Sim q0 st.pool := by
  have step : ∀ c st e c', (EvIn q0 e ∧ EvSafe env.checks e) → c.step o e = some c' →
      (Sim q0 st.pool ∧ Tab o c st.pool) →
      ∃ st', resolveStep env st e = .ok st' ∧ (Sim q0 st'.pool ∧ Tab o c' st'.pool) := by
    intro c st e c' hP hcs hI
    obtain ⟨st', h1, h2, h3⟩ := resolveStep_runs hsr (hg.sim hI.1) hI.2 (hP.1.sim hI.1) hP.2 hcs
    exact ⟨st', h1, hI.1.trans h2, h3⟩
  obtain ⟨st, h1, h2, _⟩ := pass_runs (o := o) (fun e => EvIn q0 e ∧ EvSafe env.checks e)
    (fun c st => Sim q0 st.pool ∧ Tab o c st.pool) step evs (Cnt.start o) c ⟨q0, []⟩
    (fun e he => ⟨hin e he, hd e he⟩) hc ⟨Sim.refl _, ht⟩
  exact ⟨st, h1, h2⟩

/-! The third pass. -/

theorem applyOpt_runs {env : Env} {p q0 : Pool} {st : St} (hs : Sim q0 st.pool) {e : Event}
    (hin : EvIn q0 e) : ∃ st', applyOpt env p st e = .ok st' ∧ Sim q0 st'.pool := by
  have hin' := hin.sim hs
  cases e with
  | message path full file parent k m =>
    simp only [applyOpt]
    cases m.options with
    | none => exact ⟨st, rfl, hs⟩
    | some x =>
      obtain ⟨fd, h1, h2⟩ := hin'
      obtain ⟨st', h3⟩ := setRaw_runs (g := fun raw => modMsg (fun mp => { mp with
        options := some (env.msgOpt p (.message path full file parent k m)) }) raw path) h1 (h2.mod _)
      refine ⟨st', h3, hs.trans (setRaw_raw ?_ h3).1.sim⟩
      exact fun a b hab => modMsg_strip _ (fun f => by simp [stripMsg_eq]) _ _ _ hab
  | field path full file msg i f =>
    simp only [applyOpt]
    cases f.options with
    | none => exact ⟨st, rfl, hs⟩
    | some x =>
      obtain ⟨⟨fd, h1, h2⟩, _⟩ := hin'
      obtain ⟨st', h3⟩ := setRaw_runs (g := fun raw => modField (fun mp => { mp with
        options := some (env.fieldOpt p (.field path full file msg i f)) }) raw path) h1 (h2.mod _)
      refine ⟨st', h3, hs.trans (setRaw_raw ?_ h3).1.sim⟩
      exact fun a b hab => modField_strip _ (fun f => by simp [stripField]) _ _ _ hab
  | extension path full file msg i f =>
    simp only [applyOpt]
    cases f.options with
    | none => exact ⟨st, rfl, hs⟩
    | some x =>
      obtain ⟨fd, h1, h2⟩ := hin'
      obtain ⟨st', h3⟩ := setRaw_runs (g := fun raw => modField (fun mp => { mp with
        options := some (env.fieldOpt p (.extension path full file msg i f)) }) raw path) h1 (h2.mod _)
      refine ⟨st', h3, hs.trans (setRaw_raw ?_ h3).1.sim⟩
      exact fun a b hab => modField_strip _ (fun f => by simp [stripField]) _ _ _ hab
  | _ => exact ⟨st, rfl, hs⟩

theorem apply_runs {env : Env} {p q0 : Pool} : ∀ (evs : List Event) (st : St), Sim q0 st.pool →
    (∀ e ∈ evs, EvIn q0 e) → ∃ st', runPass (applyOpt env p) st evs = .ok st'
  | [], st, _, _ => ⟨st, rfl⟩
  | e :: es, st, hs, hin => by
    obtain ⟨st1, h1, h2⟩ := applyOpt_runs (env := env) (p := p) hs (hin e (by simp))
    obtain ⟨st2, h3⟩ := apply_runs es st1 h2 (fun e he => hin e (by simp [he]))
    exact ⟨st2, by simp only [runPass, h1]; exact h3⟩

theorem optErrs_runs {env : Env} {p : Pool} (h : ∀ e, ∃ b, env.optErr p e = .ok b) :
    ∀ evs, ∃ l, optErrs env p evs = .ok l
  | [] => ⟨_, rfl⟩
  | e :: es => by
    obtain ⟨b, hb⟩ := h e
    obtain ⟨l, hl⟩ := optErrs_runs h es
    exact ⟨_, by simp only [optErrs, hb, hl]; rfl⟩

end
end Verif.Pool
