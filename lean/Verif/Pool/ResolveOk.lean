import Verif.Pool.NamesOk
/-!
The second pass when it reports no errors: effect of every callback.
-/
set_option autoImplicit false
namespace Verif.Pool
open Verif.Wire Verif.Dyn

/-! Imports. -/

/-- The visible files: every import together with what `resolve_public_dependencies` adds
for it. -/
def visLoop (files : List FileD) (fileNames : List (Name × Nat)) (stack : Nat) :
    List Nat → List Nat → Res (List Nat)
  | [], tr => .ok tr
  | d :: ds, tr =>
    match resolvePublic files fileNames stack (if tr.contains d then tr else d :: tr) d with
    | .error x => .error x
    | .ok tr' => visLoop files fileNames stack ds tr'

theorem publicLoop_congr (fn : List (Name × Nat)) (pub : List Int)
    (r r' : List Nat → Nat → Res (List Nat)) (h : ∀ ds i, r ds i = r' ds i) :
    ∀ (ns : List Name) (i : Nat) (ds : List Nat),
      publicLoop fn pub r i ns ds = publicLoop fn pub r' i ns ds
  | [], _, _ => rfl
  | n :: ns, i, ds => by
    simp only [publicLoop, h, publicLoop_congr fn pub r r' h ns]

/-- What the imports of a file depend on. -/
def FileD.imports (f : FileD) : List Name × List Int := (f.raw.deps, f.raw.publicDeps)

theorem resolvePublic_congr {fa fb : List FileD} (fn : List (Name × Nat))
    (h : ∀ (i : Nat), (fa[i]?).map FileD.imports = (fb[i]?).map FileD.imports) :
    ∀ (n : Nat) (ds : List Nat) (i : Nat), resolvePublic fa fn n ds i = resolvePublic fb fn n ds i
  | 0, _, _ => rfl
  | n + 1, ds, i => by
    have hi := h i
    have ih := resolvePublic_congr fn h n
    simp only [resolvePublic]
    cases ha : fa[i]? with
    | none =>
      cases hb : fb[i]? with
      | none => rfl
      | some b => rw [ha, hb] at hi; simp at hi
    | some a =>
      cases hb : fb[i]? with
      | none => rw [ha, hb] at hi; simp at hi
      | some b =>
        rw [ha, hb] at hi
        simp only [Option.map_some, Option.some.injEq, FileD.imports, Prod.mk.injEq] at hi
        simp only [hi]
        exact publicLoop_congr _ _ _ _ ih _ _ _

theorem visLoop_congr {fa fb : List FileD} (fn : List (Name × Nat)) (stack : Nat)
    (h : ∀ (i : Nat), (fa[i]?).map FileD.imports = (fb[i]?).map FileD.imports) :
    ∀ (ds tr : List Nat), visLoop fa fn stack ds tr = visLoop fb fn stack ds tr
  | [], _ => rfl
  | d :: ds, tr => by
    simp only [visLoop, resolvePublic_congr fn h, visLoop_congr fn stack h ds]

theorem modify_append (l : List FileD) (i : Nat) (a b : List Nat) :
    (l.modify i fun f => { f with deps := f.deps ++ a }).modify i
      (fun f => { f with deps := f.deps ++ b }) =
    l.modify i fun f => { f with deps := f.deps ++ (a ++ b) } := by
  apply List.ext_getElem?
  intro j
  by_cases h : i = j
  · subst h
    simp only [getElem?_modify_eq]
    cases l[i]? <;> simp
  · simp only [getElem?_modify_ne _ _ h]

theorem modify_raw (l : List FileD) (i : Nat) (a : List Nat) (j : Nat) :
    ((l.modify i fun f => { f with deps := f.deps ++ a })[j]?).map FileD.imports =
      (l[j]?).map FileD.imports := by
  by_cases h : i = j
  · subst h
    simp only [getElem?_modify_eq]
    cases l[i]? <;> simp [FileD.imports]
  · simp only [getElem?_modify_ne _ _ h]

theorem depLoop_errs {env : Env} {index : Nat} : ∀ {ds : List Name} {st st' : St}
    {tr tr' : List Nat}, depLoop env index ds st tr = .ok (st', tr') → st.errors <+: st'.errors
  | [], st, st', tr, tr', h => by
    simp only [depLoop, Except.ok.injEq, Prod.mk.injEq] at h
    rw [h.1]; exact List.prefix_refl _
  | d :: ds, st, st', tr, tr', h => by
    simp only [depLoop] at h
    split at h
    · simp only [bind_ok, modR_ok] at h
      obtain ⟨fs, _, tr1, _, h⟩ := h
      exact (depLoop_errs h : _)
    · simp only [bind_ok] at h
      obtain ⟨st1, h1, h⟩ := h
      exact (Quiet.report h1).errors.trans (depLoop_errs h)

theorem depLoop_ok {env : Env} {index : Nat} : ∀ {ds : List Name} {st st' : St}
    {tr tr' : List Nat}, depLoop env index ds st tr = .ok (st', tr') → st'.errors = [] →
    st.errors = [] ∧ ∃ l, ds.map (lookupN st.pool.fileNames) = l.map some ∧
      st'.pool = { st.pool with
        files := st.pool.files.modify index fun f => { f with deps := f.deps ++ l } } ∧
      visLoop st.pool.files st.pool.fileNames env.stack l tr = .ok tr'
  | [], st, st', tr, tr', h, he => by
    simp only [depLoop, Except.ok.injEq, Prod.mk.injEq] at h
    obtain ⟨rfl, rfl⟩ := h
    refine ⟨he, [], rfl, ?_, rfl⟩
    have : (st.pool.files.modify index fun f => { f with deps := f.deps ++ [] }) = st.pool.files := by
      apply List.ext_getElem?
      intro j
      by_cases h : index = j
      · subst h
        simp only [getElem?_modify_eq]
        cases st.pool.files[index]? <;> simp
      · simp only [getElem?_modify_ne _ _ h]
    rw [this]
  | d :: ds, st, st', tr, tr', h, he => by
    simp only [depLoop] at h
    split at h
    · next di hdi =>
      simp only [bind_ok, modR_ok] at h
      obtain ⟨fs, ⟨_, hfs⟩, tr1, h1, h⟩ := h
      obtain ⟨e0, l, h2, h3, h4⟩ := depLoop_ok h he
      subst hfs
      refine ⟨e0, di :: l, ?_, ?_, ?_⟩
      · simp only [List.map_cons, hdi, h2]
      · rw [h3]
        simp only [modify_append, List.singleton_append]
      · simp only [visLoop]
        simp only at h1 h4
        rw [resolvePublic_congr _ (modify_raw _ _ _)] at h1
        rw [visLoop_congr _ _ (modify_raw _ _ _)] at h4
        rw [h1]
        exact h4
    · simp only [bind_ok] at h
      obtain ⟨st1, h1, h⟩ := h
      have := errors_nil (depLoop_errs h) he
      rw [report_ok] at h1
      rw [h1.2] at this
      exact absurd this (push_ne _ _)

theorem checkImports_ok (n : Nat) : ∀ (l : List Int) (st : St), (checkImports n st l).errors = [] →
    checkImports n st l = st ∧ ∀ i ∈ l, 0 ≤ i ∧ i < n
  | [], st, _ => ⟨rfl, by simp⟩
  | i :: l, st, h => by
    simp only [checkImports] at h ⊢
    obtain ⟨h1, h2⟩ := checkImports_ok n l _ h
    split at h1
    · next hi =>
      rw [if_pos hi, h1]
      refine ⟨rfl, ?_⟩
      intro j hj
      rcases List.mem_cons.mp hj with rfl | hj
      · exact hi
      · exact h2 j hj
    · next hi =>
      rw [if_neg hi, h1] at h
      exact absurd h (push_ne _ _)

/-! Effects. -/

/-- Only the descriptor of one file changed. -/
structure FilesEff (file : Nat) (a b : List FileD) : Prop where
  len : b.length = a.length
  other : ∀ i, i ≠ file → b[i]? = a[i]?
  alike : ∀ x, a[file]? = some x → ∃ y, b[file]? = some y ∧ Alike x y

theorem Raw.filesEff {file : Nat} {st st' : St} (h : Raw file st st') :
    FilesEff file st.pool.files st'.pool.files := ⟨h.len, h.other, h.alike⟩

/-- The field descriptor built for a declared field. -/
structure FieldMade (env : Env) (syn : Syn) (trans : List Nat) (names : List (Name × Def))
    (enums : List EnumD) (file : Nat) (path : Path) (full : Name) (f : FieldP) (oneofs : Nat)
    (d : FieldD) : Prop where
  id : d.id = Ident.mk' file path full f.name
  number : (d.number : Int) = f.number
  valid : numberOk f.number = true
  json : d.jsonName = jsonOf f
  kind : TypeOk trans names full f d.kind d.group
  oneof : d.oneof.map Int.ofNat = f.oneofIndex
  oneofLt : ∀ j, d.oneof = some j → j < oneofs
  packed : d.packed = isPacked syn f (some (d.kind, d.group))
  presence : d.presence = supportsPresence syn f (some (d.kind, d.group))
  card : d.card = f.label
  default : DefaultOk env enums d.kind f.default d.default

/-- The message after a field has been added to it. -/
structure FieldAdded (m : MsgD) (index : Nat) (name : Name) (d : FieldD) (m' : MsgD) : Prop where
  eq : m' = { m with
    fields := m.fields ++ [d]
    fieldNumbers := SMap.insert d.number index m.fieldNumbers
    fieldNames := insertN name index m.fieldNames
    fieldJsonNames := insertN d.jsonName index m.fieldJsonNames
    oneofs := match d.oneof with
      | none => m.oneofs
      | some j => m.oneofs.modify j fun o => { o with fields := o.fields ++ [index] } }
  number : SMap.get? m.fieldNumbers d.number = none
  name : lookupN m.fieldNames name = none
  json : lookupN m.fieldJsonNames d.jsonName = none

/-- The message a method names. -/
def MessageOk (trans : List Nat) (names : List (Name × Def)) (scope name : Name) (k : Nat) : Prop :=
  ∃ n d, resolveName trans names scope name .message = .found n d ∧ d.kind = .message k

/-- The extension descriptor built for a declared extension. -/
structure ExtMade (env : Env) (syn : Syn) (trans : List Nat) (names : List (Name × Def))
    (enums : List EnumD) (file : Nat) (path : Path) (full : Name) (parent : Option Nat) (f : FieldP)
    (d : ExtD) : Prop where
  id : d.id = Ident.mk' file path full f.name
  parent : d.parent = parent
  number : (d.number : Int) = f.number
  valid : numberOk f.number = true
  json : d.jsonName = '[' :: full ++ [']']
  kind : TypeOk trans names full f d.kind d.group
  extendee : MessageOk trans names full f.extendeeName d.extendee
  packed : d.packed = isPacked syn f (some (d.kind, d.group))
  card : d.card = f.label
  default : DefaultOk env enums d.kind f.default d.default

/-- The number of a field is usable in message `k`. -/
def NumberOkIn (p : Pool) (k : Nat) (f : FieldP) : Prop :=
  ∃ m fd mp, p.messages[k]? = some m ∧ p.files[m.id.file]? = some fd ∧
    findMsg fd.raw m.id.path = some mp ∧ NumberOk mp f

/-- Effect of one callback of the second pass that reports nothing. -/
def ResolveEff (env : Env) (p : Pool) (e : Event) (q : Pool) : Prop :=
  match e with
  | .file _ i f => ∃ l tr fd, p.files[i]? = some fd ∧ f.deps.map (lookupN p.fileNames) = l.map some ∧
      visLoop p.files p.fileNames env.stack l [i] = .ok tr ∧
      (∀ j ∈ f.publicDeps, 0 ≤ j ∧ j < f.deps.length) ∧
      (∀ j ∈ f.weakDeps, 0 ≤ j ∧ j < f.deps.length) ∧
      q = { p with files := p.files.set i { fd with deps := fd.deps ++ l, trans := tr } }
  | .message .. => q = p
  | .oneof .. => q = p
  | .enum .. => q = p
  | .field path full file k i f => ∃ fd m d m', p.files[file]? = some fd ∧
      p.messages[k]? = some m ∧ NumberOkIn p k f ∧
      FieldMade env fd.syn fd.trans p.names p.enums file path full f m.oneofs.length d ∧
      FieldAdded m i f.name d m' ∧ FilesEff file p.files q.files ∧
      q = { p with files := q.files, messages := p.messages.set k m' }
  | .service path full file _ s => q = { p with services := p.services ++
      [{ id := Ident.mk' file path full s.name, methods := [] }] }
  | .method path full file k _ m => ∃ fd a b, p.files[file]? = some fd ∧
      MessageOk fd.trans p.names full m.input a ∧ MessageOk fd.trans p.names full m.output b ∧
      FilesEff file p.files q.files ∧ k < p.services.length ∧
      q = { p with
        files := q.files
        services := p.services.modify k fun s => { s with methods := s.methods ++
          [{ id := Ident.mk' file path full m.name, input := a, output := b }] } }
  | .enumValue _ _ _ k i v => ∃ e fd ep, p.enums[k]? = some e ∧ p.files[e.id.file]? = some fd ∧
      findEnum fd.raw e.id.path = some ep ∧
      (∀ r ∈ ep.reserved, ¬ (r.1 ≤ v.number ∧ v.number ≤ r.2)) ∧
      ((env.search e.valueNumbers v.number).1 = true → e.allowAlias = true) ∧
      lookupN e.valueNames v.name = none ∧
      q = { p with enums := p.enums.set k { e with
        valueNumbers := insertAt (env.search e.valueNumbers v.number).2 (v.number, i) e.valueNumbers
        valueNames := insertN v.name i e.valueNames } }
  | .extension path full file parent i f => ∃ fd d, p.files[file]? = some fd ∧
      ExtMade env fd.syn fd.trans p.names p.enums file path full parent f d ∧
      FilesEff file p.files q.files ∧ d.extendee < p.messages.length ∧
      (∃ fs, FilesEff file p.files fs ∧ NumberOkIn { p with files := fs } d.extendee f) ∧
      q = { p with
        files := q.files
        messages := p.messages.modify d.extendee fun m => { m with extensions := m.extensions ++ [i] }
        extensions := p.extensions ++ [d] }

theorem asU32_of_ok {n : Int} (h : numberOk n = true) : (asU32 n : Int) = n := by
  simp only [numberOk, Bool.and_eq_true, decide_eq_true_eq] at h
  unfold asU32
  omega

theorem FilesEff.trans {file : Nat} {a b c : List FileD} (h : FilesEff file a b)
    (g : FilesEff file b c) : FilesEff file a c where
  len := g.len.trans h.len
  other i hi := (g.other i hi).trans (h.other i hi)
  alike x hx := by
    obtain ⟨y, hy, axy⟩ := h.alike x hx
    obtain ⟨z, hz, ayz⟩ := g.alike y hy
    exact ⟨z, hz, axy.comp ayz⟩

theorem resolve_eff {env : Env} {st st' : St} {e : Event} (h : resolveStep env st e = .ok st')
    (he : st'.errors = []) : st.errors = [] ∧ ResolveEff env st.pool e st'.pool := by
  cases e with
  | file path i f =>
    simp only [resolveStep, resolveFile, bind_ok, modR_ok, Except.ok.injEq] at h
    obtain ⟨⟨st1, tr⟩, h1, fs, ⟨hi, hfs⟩, h2⟩ := h
    subst h2
    obtain ⟨h3, h4⟩ := checkImports_ok _ _ _ he
    rw [h3] at he ⊢
    obtain ⟨h5, h6⟩ := checkImports_ok _ _ _ he
    rw [h5] at he ⊢
    simp only at he
    obtain ⟨e0, l, h7, h8, h9⟩ := depLoop_ok h1 he
    rw [h8] at hi hfs
    simp only [List.length_modify] at hi
    have hget : st.pool.files[i]? = some st.pool.files[i] := by simp [hi]
    refine ⟨e0, l, tr, _, hget, h7, h9, h6, h4, ?_⟩
    rw [h8, hfs]
    simp only [Pool.mk.injEq, true_and, and_true]
    apply List.ext_getElem?
    intro j
    by_cases hij : i = j
    · subst hij
      simp only [getElem?_modify_eq, List.getElem?_set, hget, Option.map_some, hi, if_true]
    · rw [getElem?_modify_ne _ _ hij, getElem?_modify_ne _ _ hij, List.getElem?_set, if_neg hij]
  | message => simp only [resolveStep, Except.ok.injEq] at h; subst h; exact ⟨he, rfl⟩
  | oneof => simp only [resolveStep, Except.ok.injEq] at h; subst h; exact ⟨he, rfl⟩
  | enum => simp only [resolveStep, Except.ok.injEq] at h; subst h; exact ⟨he, rfl⟩
  | service => simp only [resolveStep, Except.ok.injEq] at h; subst h; exact ⟨he, rfl⟩
  | field path full file k i f =>
    simp only [resolveStep, resolveField, bind_ok, getR_ok, Except.ok.injEq] at h
    obtain ⟨fd, hfd, st1, h1, ⟨st2, kind⟩, h2, ⟨st3, json⟩, h3, ⟨st4, dflt⟩, h4, m, hm, st6, h6,
      st7, h7, st8, h8, h9⟩ := h
    subst h9
    simp only at he
    obtain ⟨d3, rfl⟩ := reportDup_ok h8 he
    obtain ⟨d2, rfl⟩ := reportDup_ok h7 he
    obtain ⟨d1, rfl⟩ := reportDup_ok h6 he
    have q5 := oneofStep_quiet st4 m f.oneofIndex i
    have e4 := errors_nil q5.errors he
    have q4 := parseDefaultOpt_quiet h4
    have e3 := errors_nil q4.errors e4
    obtain ⟨r3, e32, hj⟩ := resolveJsonName_raw h3
    have e2 : st2.errors = [] := by rw [← e32]; exact e3
    obtain ⟨kd, g, hkg, htype⟩ := resolveType_found h2 e2
    have r2 := resolveType_raw h2
    have e1 := errors_nil r2.errors e2
    obtain ⟨mN, fdN, mp, n1, n2, n3, n4⟩ := checkNumber_ok h1 e1
    have q1 := checkNumber_quiet h1
    have e0 := errors_nil q1.errors e1
    subst hkg
    simp only [parseDefaultOpt] at h4
    have hd := parseDefault_ok h4 e4
    -- pools
    have p1 : st1.pool = st.pool := q1.pool
    have p4 : st4.pool = st3.pool := q4.pool
    have hfe : FilesEff file st.pool.files st3.pool.files := by
      rw [← p1]; exact (r2.trans r3).filesEff
    have p3 : st3.pool = { st.pool with files := st3.pool.files } := by
      have := (r2.trans r3).pool
      rw [p1] at this
      exact this
    have hm0 : st.pool.messages[k]? = some m := by
      rw [p4, p3] at hm; exact hm
    -- the oneof
    have ho : (oneofStep st4 m f.oneofIndex i).1 = st4 ∧
        (oneofStep st4 m f.oneofIndex i).2.2.map Int.ofNat = f.oneofIndex ∧
        (∀ j, (oneofStep st4 m f.oneofIndex i).2.2 = some j → j < m.oneofs.length) ∧
        (oneofStep st4 m f.oneofIndex i).2.1 = { m with oneofs :=
          match (oneofStep st4 m f.oneofIndex i).2.2 with
          | none => m.oneofs
          | some j => m.oneofs.modify j fun o => { o with fields := o.fields ++ [i] } } := by
      unfold oneofStep at he ⊢
      cases hoi : f.oneofIndex with
      | none => simp
      | some j =>
        rw [hoi] at he
        simp only at he ⊢
        split
        · next hc =>
          rw [if_pos hc] at he
          exact absurd he (push_ne _ _)
        · next hc =>
          refine ⟨rfl, ?_, ?_, rfl⟩
          · simp only [Option.map_some, Option.some.injEq]
            show ((j.toNat : Nat) : Int) = j
            omega
          · intro j' hj'
            simp only [Option.some.injEq] at hj'
            omega
    obtain ⟨o1, o2, o3, o4⟩ := ho
    rw [o1]
    refine ⟨e0, fd, m, { id := Ident.mk' file path full f.name, number := asU32 f.number,
                          jsonName := json, kind := kd, group := g,
                          oneof := (oneofStep st4 m f.oneofIndex i).2.2,
                          packed := isPacked fd.syn f (some (kd, g)),
                          presence := supportsPresence fd.syn f (some (kd, g)),
                          card := f.label, default := dflt }, _,
      hfd, hm0, ⟨mN, fdN, mp, ?_, ?_, n3, n4⟩, ?_, ⟨rfl, ?_, ?_, ?_⟩, ?_, ?_⟩
    · exact n1
    · exact n2
    · refine ⟨rfl, asU32_of_ok n4.valid, n4.valid, hj, ?_, o2, o3, rfl, rfl, rfl, ?_⟩
      · have := htype fd (by rw [p1]; exact hfd)
        rw [p1] at this; exact this
      · rw [p3] at hd; exact hd
    · rw [o4] at d1; exact d1
    · rw [o4] at d2; exact d2
    · rw [o4] at d3; exact d3
    · rw [p4]; exact hfe
    · rw [p4]
      simp only [o4]
      rw [p3]
      rfl
  | method path full file k i m =>
    simp only [resolveStep, resolveMethod, bind_ok, modR_ok, Except.ok.injEq] at h
    obtain ⟨⟨st1, inp⟩, h1, ⟨st2, out⟩, h2, ss, ⟨hk, hss⟩, h3⟩ := h
    subst h3
    simp only at he hk hss
    have r1 := findMessage_raw h1
    have r2 := findMessage_raw h2
    have e1 := errors_nil r2.errors he
    obtain ⟨fd2, n2, d2, b, hf2, rfl, hk2, hr2⟩ := findMessage_found h2 he
    obtain ⟨fd1, n1, d1, a, hf1, rfl, hk1, hr1⟩ := findMessage_found h1 e1
    have r := r1.trans r2
    have e0 := errors_nil r1.errors e1
    rw [r.services] at hk hss
    obtain ⟨y, hy, al⟩ := r1.alike fd1 hf1
    rw [hf2] at hy; cases hy
    refine ⟨e0, fd1, a, b, hf1, ⟨n1, d1, hr1, hk1⟩, ⟨n2, d2, ?_, hk2⟩, r.filesEff, hk, ?_⟩
    · rw [al.trans, r1.names] at hr2; exact hr2
    · rw [hss, r.pool]
      rfl
  | enumValue path full file k i v =>
    simp only [resolveStep, resolveEnumValue, bind_ok, getR_ok, Except.ok.injEq] at h
    obtain ⟨st1, h1, en, hen, st2, h2, st3, h3, h4⟩ := h
    subst h4
    simp only at he
    obtain ⟨d3, rfl⟩ := reportValueName_ok h3 he
    obtain ⟨d2, rfl⟩ := reportAlias_ok h2 he
    obtain ⟨en', fd, ep, n1, n2, n3, n4⟩ := checkEnumNumber_ok h1 he
    have q1 := checkEnumNumber_quiet h1
    have p1 : st3.pool = st.pool := q1.pool
    rw [p1] at hen
    rw [n1] at hen; cases hen
    refine ⟨errors_nil q1.errors he, en, fd, ep, n1, n2, n3, n4, d2, d3, ?_⟩
    rw [p1]
  | extension path full file parent i f =>
    simp only [resolveStep, resolveExtension, bind_ok, getR_ok, Except.ok.injEq] at h
    obtain ⟨⟨st1, ext⟩, h1, st2, h2, fd, hfd, ⟨st3, kind⟩, h3, ⟨st4, json⟩, h4, ⟨st5, dflt⟩, h5,
      h6⟩ := h
    subst h6
    simp only at he
    have q5 := parseDefaultOpt_quiet h5
    have e4 := errors_nil q5.errors he
    obtain ⟨r4, e43, hj⟩ := resolveJsonName_raw h4
    have e3 : st3.errors = [] := by rw [← e43]; exact e4
    obtain ⟨kd, g, hkg, htype⟩ := resolveType_found h3 e3
    have r3 := resolveType_raw h3
    have e2 := errors_nil r3.errors e3
    subst hkg
    simp only [parseDefaultOpt] at h5
    have hd := parseDefault_ok h5 he
    have r1 := findMessage_raw h1
    have key : ∃ x, ext = some x ∧ x < st1.pool.messages.length ∧ st1.errors = [] ∧
        st2.pool = { st1.pool with messages := st1.pool.messages.modify x fun m =>
          { m with extensions := m.extensions ++ [i] } } ∧
        NumberOkIn st1.pool x f := by
      have e1 : st1.errors = [] := by
        unfold extendeeStep at h2
        split at h2
        · simp only [Except.ok.injEq] at h2; rw [h2]; exact e2
        · simp only [bind_ok] at h2
          obtain ⟨ms, _, h8⟩ := h2
          exact (errors_nil (checkNumber_quiet h8).errors e2 : _)
      obtain ⟨fd1, n1, d1, x, hf1, rfl, hk1, hr1⟩ := findMessage_found h1 e1
      refine ⟨x, rfl, ?_⟩
      simp only [extendeeStep, bind_ok, modR_ok] at h2
      obtain ⟨ms, ⟨hx, rfl⟩, h8⟩ := h2
      refine ⟨hx, e1, (checkNumber_quiet h8).pool, ?_⟩
      obtain ⟨m, fdm, mp, c1, c2, c3, c4⟩ := checkNumber_ok h8 e2
      simp only [getElem?_modify_eq, Option.map_eq_some_iff] at c1
      obtain ⟨m0, c5, rfl⟩ := c1
      exact ⟨m0, fdm, mp, c5, c2, c3, c4⟩
    obtain ⟨x, rfl, hx, e1, p2, hnum⟩ := key
    have e0 := errors_nil r1.errors e1
    obtain ⟨fd1, n1, d1, x', hf1, hx', hk1, hr1⟩ := findMessage_found h1 e1
    simp only [Option.some.injEq] at hx'
    subst hx'
    obtain ⟨y, hy, al⟩ := r1.alike fd1 hf1
    have hfdy : fd = y := by
      rw [p2] at hfd
      simp only at hfd
      rw [hy] at hfd; cases hfd; rfl
    subst hfdy
    have r34 := r3.trans r4
    have hfe : FilesEff file st.pool.files st5.pool.files := by
      rw [q5.pool]
      refine r1.filesEff.trans ?_
      have := r34.filesEff
      rw [p2] at this
      exact this
    have hnum' := hnum
    rw [r1.pool] at hnum'
    refine ⟨e0, fd1, { id := Ident.mk' file path full f.name, parent := parent,
                        number := asU32 f.number, jsonName := '[' :: full ++ [']'], extendee := x,
                        kind := kd, group := g, packed := isPacked fd.syn f (some (kd, g)),
                        card := f.label, default := dflt }, hf1, ?_, hfe, ?_,
      ⟨st1.pool.files, r1.filesEff, hnum'⟩, ?_⟩
    · obtain ⟨_, _, _, _, _, _, hnn⟩ := hnum
      refine ⟨rfl, rfl, asU32_of_ok hnn.valid, hnn.valid, rfl, ?_, ⟨n1, d1, hr1, hk1⟩, ?_, rfl, ?_⟩
      · have := htype fd (by rw [p2]; exact hy)
        rw [p2, al.trans] at this
        simp only [r1.names] at this
        exact this
      · show isPacked fd.syn f (some (kd, g)) = isPacked fd1.syn f (some (kd, g))
        rw [al.syn]
      · rw [r34.enums, p2] at hd
        simp only [r1.enums] at hd
        exact hd
    · show x < st.pool.messages.length
      rw [← r1.messages]; exact hx
    · rw [q5.pool, r34.pool, p2, r1.pool]
      rfl

end Verif.Pool
