import Verif.Pool.Tables
import Verif.Pool.Tally
/-!
The second pass (resolve.rs) when it reports nothing: what it keeps of the first pass, and
what it establishes for every declaration.
-/
set_option autoImplicit false
namespace Verif.Pool
open Verif.Wire Verif.Dyn

/-! What one step keeps. -/

/-- Enums keep their values. -/
def EnumsLe (a b : List EnumD) : Prop :=
  ∀ (i : Nat) e, a[i]? = some e → ∃ e', b[i]? = some e' ∧ e'.id = e.id ∧ e'.parent = e.parent ∧
    e'.values = e.values ∧ e'.allowAlias = e.allowAlias

/-- Files keep everything but, before they are visited, their imports, and the parts of the
raw descriptor that resolution rewrites. -/
def FilesLe (n : Nat) (a b : List FileD) : Prop :=
  ∀ (i : Nat) f, a[i]? = some f → ∃ f', b[i]? = some f' ∧ f'.syn = f.syn ∧
    stripFile f'.raw = stripFile f.raw ∧ (i < n → f'.deps = f.deps ∧ f'.trans = f.trans)

/-- Messages keep their identity and fields. -/
def MsgsLe (a b : List MsgD) : Prop :=
  ∀ (i : Nat) m, a[i]? = some m → ∃ m', b[i]? = some m' ∧ m'.id = m.id ∧ m'.parent = m.parent ∧
    m.fields <+: m'.fields ∧ m'.oneofs.map OneofD.id = m.oneofs.map OneofD.id

def SvcsLe (a b : List SvcD) : Prop :=
  ∀ (i : Nat) s, a[i]? = some s → ∃ s', b[i]? = some s' ∧ s'.id = s.id ∧ s.methods <+: s'.methods

/-- What one step of the second pass keeps; `n` is the number of files visited before it. -/
structure Mono2 (n : Nat) (p q : Pool) : Prop where
  names : q.names = p.names
  fileNames : q.fileNames = p.fileNames
  filesLen : q.files.length = p.files.length
  files : FilesLe n p.files q.files
  msgsLen : q.messages.length = p.messages.length
  messages : MsgsLe p.messages q.messages
  enumsLen : q.enums.length = p.enums.length
  enums : EnumsLe p.enums q.enums
  services : SvcsLe p.services q.services
  extensions : p.extensions <+: q.extensions

theorem EnumsLe.refl (a : List EnumD) : EnumsLe a a := fun _ e h => ⟨e, h, rfl, rfl, rfl, rfl⟩
theorem FilesLe.refl (n : Nat) (a : List FileD) : FilesLe n a a :=
  fun _ f h => ⟨f, h, rfl, rfl, fun _ => ⟨rfl, rfl⟩⟩
theorem MsgsLe.refl (a : List MsgD) : MsgsLe a a :=
  fun _ m h => ⟨m, h, rfl, rfl, List.prefix_refl _, rfl⟩
theorem SvcsLe.refl (a : List SvcD) : SvcsLe a a := fun _ s h => ⟨s, h, rfl, List.prefix_refl _⟩

theorem Mono2.refl (n : Nat) (p : Pool) : Mono2 n p p where
  names := rfl
  fileNames := rfl
  filesLen := rfl
  files := FilesLe.refl _ _
  msgsLen := rfl
  messages := MsgsLe.refl _
  enumsLen := rfl
  enums := EnumsLe.refl _
  services := SvcsLe.refl _
  extensions := List.prefix_refl _

theorem FilesEff.le {file : Nat} {a b : List FileD} (h : FilesEff file a b) (n : Nat) :
    FilesLe n a b := by
  intro i f hf
  by_cases hi : i = file
  · subst hi
    obtain ⟨y, hy, al⟩ := h.alike f hf
    exact ⟨y, hy, al.syn, al.raw, fun _ => ⟨al.deps, al.trans⟩⟩
  · exact ⟨f, by rw [h.other i hi]; exact hf, rfl, rfl, fun _ => ⟨rfl, rfl⟩⟩

theorem getElem?_set_cases {α : Type} {l : List α} {k i : Nat} {a b : α}
    (h : l[i]? = some a) : (k = i ∧ (l.set k b)[i]? = some b) ∨ (k ≠ i ∧ (l.set k b)[i]? = some a) := by
  have hl := getElem?_lt h
  by_cases hk : k = i
  · subst hk
    exact .inl ⟨rfl, by rw [List.getElem?_set_self hl]⟩
  · exact .inr ⟨hk, by rw [List.getElem?_set_ne hk]; exact h⟩

theorem FieldAdded.ids {m m' : MsgD} {i : Nat} {n : Name} {d : FieldD} (h : FieldAdded m i n d m') :
    m'.oneofs.map OneofD.id = m.oneofs.map OneofD.id := by
  have e := h.eq
  rw [e]
  simp only
  cases d.oneof with
  | none => rfl
  | some j =>
    refine map_modify_of OneofD.id _ ?_ _ _
    intro a; rfl

theorem resolve_mono {env : Env} {p q : Pool} {o : Offs} {c c' : Cnt} {e : Event}
    (h : ResolveEff env p e q) (hs : c.step o e = some c') : Mono2 c.file p q := by
  cases e with
  | file path i f =>
    obtain ⟨l, tr, fd, hfd, _, _, _, _, rfl⟩ := h
    refine { Mono2.refl c.file p with filesLen := by simp, files := ?_ }
    intro j x hx
    simp only [Cnt.step] at hs
    split at hs
    · next hi =>
      rcases getElem?_set_cases (k := i) (b := { fd with deps := fd.deps ++ l, trans := tr }) hx
        with ⟨hk, h1⟩ | ⟨hk, h1⟩
      · subst hk
        rw [hfd] at hx
        cases hx
        exact ⟨_, h1, rfl, rfl, fun hlt => by omega⟩
      · exact ⟨x, h1, rfl, rfl, fun _ => ⟨rfl, rfl⟩⟩
    · cases hs
  | message path full file parent k m => simp only [ResolveEff] at h; rw [h]; exact Mono2.refl _ _
  | oneof path full file k i o => simp only [ResolveEff] at h; rw [h]; exact Mono2.refl _ _
  | enum path full file parent k en => simp only [ResolveEff] at h; rw [h]; exact Mono2.refl _ _
  | field path full file k i f =>
    obtain ⟨fd, m, d, m', hfd, hm, _, _, hadd, hfe, hq⟩ := h
    rw [hq]
    refine { Mono2.refl c.file p with
      filesLen := hfe.len, files := hfe.le _, msgsLen := by simp, messages := ?_ }
    intro j x hx
    rcases getElem?_set_cases (k := k) (b := m') hx with ⟨hk, h1⟩ | ⟨hk, h1⟩
    · subst hk
      rw [hm] at hx; cases hx
      refine ⟨m', h1, ?_, ?_, ?_, hadd.ids⟩ <;> rw [hadd.eq]
      exact List.prefix_append _ _
    · exact ⟨x, h1, rfl, rfl, List.prefix_refl _, rfl⟩
  | service path full file k s =>
    simp only [ResolveEff] at h
    rw [h]
    refine { Mono2.refl c.file p with services := ?_ }
    intro j x hx
    exact ⟨x, getElem?_append_of_some _ hx, rfl, List.prefix_refl _⟩
  | method path full file k i m =>
    obtain ⟨fd, a, b, hfd, _, _, hfe, hk, hq⟩ := h
    rw [hq]
    refine { Mono2.refl c.file p with filesLen := hfe.len, files := hfe.le _, services := ?_ }
    intro j x hx
    by_cases hkj : k = j
    · subst hkj
      refine ⟨{ x with methods := x.methods ++ [_] }, by rw [getElem?_modify_eq, hx]; exact rfl, rfl,
        List.prefix_append _ _⟩
    · exact ⟨x, by rw [getElem?_modify_ne _ _ hkj]; exact hx, rfl, List.prefix_refl _⟩
  | enumValue path full file k i v =>
    obtain ⟨ed, fd, ep, hed, _, _, _, _, _, rfl⟩ := h
    refine { Mono2.refl c.file p with enumsLen := by simp, enums := ?_ }
    intro j x hx
    rcases getElem?_set_cases (k := k) (b := { ed with
        valueNumbers := insertAt (env.search ed.valueNumbers v.number).2 (v.number, i) ed.valueNumbers
        valueNames := insertN v.name i ed.valueNames }) hx with ⟨hk, h1⟩ | ⟨hk, h1⟩
    · subst hk
      rw [hed] at hx; cases hx
      exact ⟨_, h1, rfl, rfl, rfl, rfl⟩
    · exact ⟨x, h1, rfl, rfl, rfl, rfl⟩
  | extension path full file parent i f =>
    obtain ⟨fd, d, hfd, _, hfe, hlt, _, hq⟩ := h
    rw [hq]
    refine { Mono2.refl c.file p with
      filesLen := hfe.len, files := hfe.le _, msgsLen := by simp, messages := ?_,
      extensions := List.prefix_append _ _ }
    intro j x hx
    by_cases hkj : d.extendee = j
    · subst hkj
      refine ⟨{ x with extensions := x.extensions ++ [i] }, by rw [getElem?_modify_eq, hx]; exact rfl,
        rfl, rfl, List.prefix_refl _, rfl⟩
    · exact ⟨x, by rw [getElem?_modify_ne _ _ hkj]; exact hx, rfl, rfl, List.prefix_refl _, rfl⟩

/-! What the second pass keeps of the first. -/

/-- Facts established by the first pass. `cE` counts the whole batch. -/
def Ev1s (q : Pool) (cE : Cnt) (e : Event) : Prop :=
  (∀ n d, e.defn = some (n, d) → lookupN q.names n = some d) ∧
  match e with
  | .file _ i f => (∃ fd, q.files[i]? = some fd ∧ parseSyn f.syn = some fd.syn ∧
        stripFile fd.raw = stripFile f) ∧
      lookupN q.fileNames f.name = some i ∧
      ∀ n ∈ packageNames f.package, ∃ d, lookupN q.names n = some d ∧ d.kind = .package
  | .message path full file parent k m =>
      (∃ md, q.messages[k]? = some md ∧ md.id = Ident.mk' file path full m.name ∧
        md.parent = parent ∧ md.oneofs.length = cE.oneofs k) ∧
      ∃ fd, q.files[file]? = some fd ∧
        (fd.syn = .proto3 → (m.fields.map fun f => toLowerWithoutUnderscores f.name).Nodup)
  | .oneof path full file k i o => ∃ md od, q.messages[k]? = some md ∧
      md.oneofs[i]? = some od ∧ od.id = Ident.mk' file path full o.name
  | .enum path full file parent k en =>
      (∃ ed, q.enums[k]? = some ed ∧ ed.id = Ident.mk' file path full en.name ∧
        ed.parent = parent ∧ ed.allowAlias = en.allowAlias ∧ ed.values.length = cE.values k) ∧
      ∃ fd, q.files[file]? = some fd ∧ FirstOk fd.syn en.values
  | .enumValue path full file k i v => ∃ ed, q.enums[k]? = some ed ∧
      ed.values[i]? = some { id := Ident.mk' file path full v.name, number := v.number }
  | _ => True

theorem Ev1.stable {q : Pool} {c : Cnt} {e : Event} (h : Ev1 q c e) : Ev1s q c e := by
  obtain ⟨h0, h⟩ := h
  refine ⟨h0, ?_⟩
  cases e with
  | file path i f =>
    obtain ⟨⟨syn, h1, h2⟩, h3, h4⟩ := h
    exact ⟨⟨_, h2, h1, rfl⟩, h3, h4⟩
  | message path full file parent k m =>
    obtain ⟨⟨md, h1, h2, h3⟩, h4⟩ := h
    exact ⟨⟨md, h1, by rw [h3]; rfl, by rw [h3]; rfl, h2⟩, h4⟩
  | oneof path full file k i o =>
    obtain ⟨md, h1, h2⟩ := h
    exact ⟨md, _, h1, h2, rfl⟩
  | enum path full file parent k en =>
    obtain ⟨⟨ed, h1, h2, h3⟩, h4⟩ := h
    exact ⟨⟨ed, h1, by rw [h3]; rfl, by rw [h3]; rfl, by rw [h3]; rfl, h2⟩, h4⟩
  | enumValue path full file k i v => exact h
  | _ => trivial

theorem map_id_get {a b : List OneofD} (h : b.map OneofD.id = a.map OneofD.id) {i : Nat} {o : OneofD}
    (ho : a[i]? = some o) : ∃ o', b[i]? = some o' ∧ o'.id = o.id := by
  have : (b.map OneofD.id)[i]? = (a.map OneofD.id)[i]? := by rw [h]
  rw [List.getElem?_map, List.getElem?_map, ho, Option.map_some, Option.map_eq_some_iff] at this
  obtain ⟨o', h1, h2⟩ := this
  exact ⟨o', h1, h2⟩

theorem map_id_len {a b : List OneofD} (h : b.map OneofD.id = a.map OneofD.id) :
    b.length = a.length := by
  have := congrArg List.length h
  simpa using this

theorem Ev1s.mono {p q : Pool} {n : Nat} {cE : Cnt} {e : Event} (h : Ev1s p cE e)
    (m : Mono2 n p q) : Ev1s q cE e := by
  obtain ⟨h0, h⟩ := h
  refine ⟨by rw [m.names]; exact h0, ?_⟩
  cases e with
  | file path i f =>
    obtain ⟨⟨fd, h1, h2, h3⟩, h4, h5⟩ := h
    obtain ⟨fd', g1, g2, g3, _⟩ := m.files _ _ h1
    refine ⟨⟨fd', g1, by rw [g2]; exact h2, g3.trans h3⟩, by rw [m.fileNames]; exact h4, ?_⟩
    rw [m.names]; exact h5
  | message path full file parent k ms =>
    obtain ⟨⟨md, h1, h2, h3, h4⟩, fd, h5, h6⟩ := h
    obtain ⟨md', g1, g2, g3, _, g4⟩ := m.messages _ _ h1
    obtain ⟨fd', f1, f2, _⟩ := m.files _ _ h5
    exact ⟨⟨md', g1, g2.trans h2, g3.trans h3, (map_id_len g4).trans h4⟩, fd', f1, by rw [f2]; exact h6⟩
  | oneof path full file k i o =>
    obtain ⟨md, od, h1, h2, h3⟩ := h
    obtain ⟨md', g1, _, _, _, g4⟩ := m.messages _ _ h1
    obtain ⟨od', g5, g6⟩ := map_id_get g4 h2
    exact ⟨md', od', g1, g5, g6.trans h3⟩
  | enum path full file parent k en =>
    obtain ⟨⟨ed, h1, h2, h3, h4, h5⟩, fd, h6, h7⟩ := h
    obtain ⟨ed', g1, g2, g3, g4, g5⟩ := m.enums _ _ h1
    obtain ⟨fd', f1, f2, _⟩ := m.files _ _ h6
    exact ⟨⟨ed', g1, g2.trans h2, g3.trans h3, g5.trans h4, by rw [g4]; exact h5⟩, fd', f1,
      by rw [f2]; exact h7⟩
  | enumValue path full file k i v =>
    obtain ⟨ed, h1, h2⟩ := h
    obtain ⟨ed', g1, _, _, g4, _⟩ := m.enums _ _ h1
    exact ⟨ed', g1, by rw [g4]; exact h2⟩
  | _ => trivial

/-! What the second pass establishes. -/

/-- Facts established by the second pass; `n` files have been visited. -/
def Ev2 (env : Env) (q : Pool) (n : Nat) (e : Event) : Prop :=
  match e with
  | .file _ i f => ∃ fd, q.files[i]? = some fd ∧ i < n ∧
      f.deps.map (lookupN q.fileNames) = fd.deps.map some ∧
      visLoop q.files q.fileNames env.stack fd.deps [i] = .ok fd.trans ∧
      (∀ j ∈ f.publicDeps, 0 ≤ j ∧ j < f.deps.length) ∧
      (∀ j ∈ f.weakDeps, 0 ≤ j ∧ j < f.deps.length)
  | .field path full file k i f => ∃ fd md d, q.files[file]? = some fd ∧ file < n ∧
      q.messages[k]? = some md ∧ md.fields[i]? = some d ∧ NumberOkIn q k f ∧
      FieldMade env fd.syn fd.trans q.names q.enums file path full f md.oneofs.length d
  | .service path full file k s => ∃ sd, q.services[k]? = some sd ∧
      sd.id = Ident.mk' file path full s.name
  | .method path full file k i m => ∃ fd sd d, q.files[file]? = some fd ∧ file < n ∧
      q.services[k]? = some sd ∧ sd.methods[i]? = some d ∧ d.id = Ident.mk' file path full m.name ∧
      MessageOk fd.trans q.names full m.input d.input ∧
      MessageOk fd.trans q.names full m.output d.output
  | .enumValue _ _ _ k _ v => ∃ e fd ep, q.enums[k]? = some e ∧ q.files[e.id.file]? = some fd ∧
      findEnum fd.raw e.id.path = some ep ∧
      (∀ r ∈ ep.reserved, ¬ (r.1 ≤ v.number ∧ v.number ≤ r.2))
  | .extension path full file parent i f => ∃ fd d, q.files[file]? = some fd ∧ file < n ∧
      q.extensions[i]? = some d ∧ NumberOkIn q d.extendee f ∧
      ExtMade env fd.syn fd.trans q.names q.enums file path full parent f d
  | _ => True

theorem DefaultOk.mono {env : Env} {a b : List EnumD} (h : EnumsLe a b) {k : Kind} {s : Option Name}
    {v : Option Value} (hd : DefaultOk env a k s v) : DefaultOk env b k s v := by
  cases s with
  | none => exact hd
  | some s =>
    obtain ⟨w, hv, hw⟩ := hd
    refine ⟨w, hv, ?_⟩
    cases k with
    | enum i =>
      simp only [defaultOf] at hw ⊢
      split at hw
      · cases hw
      · next ed hed =>
        obtain ⟨ed', g1, _, _, g4, _⟩ := h i ed hed
        rw [g1]
        simp only [g4]
        exact hw
    | _ => exact hw

theorem FieldMade.mono {env : Env} {syn : Syn} {trans : List Nat} {names : List (Name × Def)}
    {a b : List EnumD} {file : Nat} {path : Path} {full : Name} {f : FieldP} {n : Nat} {d : FieldD}
    (h : FieldMade env syn trans names a file path full f n d) (hl : EnumsLe a b) :
    FieldMade env syn trans names b file path full f n d :=
  { id := h.id, number := h.number, valid := h.valid, json := h.json, kind := h.kind,
    oneof := h.oneof, oneofLt := h.oneofLt, packed := h.packed, presence := h.presence,
    card := h.card, default := h.default.mono hl }

theorem ExtMade.mono {env : Env} {syn : Syn} {trans : List Nat} {names : List (Name × Def)}
    {a b : List EnumD} {file : Nat} {path : Path} {full : Name} {parent : Option Nat} {f : FieldP}
    {d : ExtD} (h : ExtMade env syn trans names a file path full parent f d) (hl : EnumsLe a b) :
    ExtMade env syn trans names b file path full parent f d :=
  { id := h.id, parent := h.parent, number := h.number, valid := h.valid, json := h.json,
    kind := h.kind, extendee := h.extendee, packed := h.packed, card := h.card,
    default := h.default.mono hl }

theorem findMsg_strip_mono {a b : FileP} (h : stripFile b = stripFile a) {path : Path} {m : MsgP}
    (hm : findMsg a path = some m) : ∃ m', findMsg b path = some m' ∧ stripMsg m' = stripMsg m := by
  have h1 := findMsg_strip b path
  rw [h, findMsg_strip, hm, Option.map_some] at h1
  rw [eq_comm, Option.map_eq_some_iff] at h1
  exact h1

theorem findEnum_strip_mono {a b : FileP} (h : stripFile b = stripFile a) (path : Path) :
    findEnum b path = findEnum a path := by
  rw [← findEnum_strip b, h, findEnum_strip]

theorem strip_ranges {m m' : MsgP} (h : stripMsg m' = stripMsg m) :
    m'.reserved = m.reserved ∧ m'.extRanges = m.extRanges := by
  rw [stripMsg_eq, stripMsg_eq] at h
  simp only [MsgP.mk.injEq] at h
  exact ⟨h.2.2.2.2.2.2.2.2.1, h.2.2.2.2.2.1⟩

theorem NumberOkIn.mono {p q : Pool} {n k : Nat} {f : FieldP} (h : NumberOkIn p k f)
    (hm : MsgsLe p.messages q.messages) (hf : FilesLe n p.files q.files) : NumberOkIn q k f := by
  obtain ⟨md, fd, mp, h1, h2, h3, h4⟩ := h
  obtain ⟨md', g1, g2, _⟩ := hm _ _ h1
  obtain ⟨fd', f1, _, f4, _⟩ := hf _ _ h2
  obtain ⟨mp', k1, k2⟩ := findMsg_strip_mono f4 h3
  obtain ⟨r1, r2⟩ := strip_ranges k2
  refine ⟨md', fd', mp', g1, by rw [g2]; exact f1, by rw [g2]; exact k1, h4.valid, ?_, ?_⟩
  · rw [r1]; exact h4.reserved
  · rw [r2]; exact h4.ext

theorem imports_strip {a b : FileD} (h : stripFile b.raw = stripFile a.raw) :
    b.imports = a.imports := by
  rw [stripFile_eq, stripFile_eq] at h
  have h1 := congrArg FileP.deps h
  have h2 := congrArg FileP.publicDeps h
  simp only at h1 h2
  simp only [FileD.imports, h1, h2]

theorem FilesLe.imports {n : Nat} {a b : List FileD} (h : FilesLe n a b) (hl : b.length = a.length)
    (i : Nat) : (b[i]?).map FileD.imports = (a[i]?).map FileD.imports := by
  cases ha : a[i]? with
  | none =>
    have : b[i]? = none := by
      rw [List.getElem?_eq_none_iff] at ha ⊢; omega
    rw [this]
  | some f =>
    obtain ⟨f', g1, _, g4, _⟩ := h i f ha
    rw [g1, Option.map_some, Option.map_some, imports_strip g4]

theorem Ev2.mono {env : Env} {p q : Pool} {n n' : Nat} {e : Event} (h : Ev2 env p n e)
    (m : Mono2 n p q) (hn : n ≤ n') : Ev2 env q n' e := by
  have vl : ∀ ds tr, visLoop q.files q.fileNames env.stack ds tr
      = visLoop p.files p.fileNames env.stack ds tr := by
    intro ds tr
    rw [m.fileNames]
    exact visLoop_congr _ _ (m.files.imports m.filesLen) ds tr
  cases e with
  | file path i f =>
    obtain ⟨fd, h1, h2, h3, h4, h5, h6⟩ := h
    obtain ⟨fd', f1, f2, f4, f5⟩ := m.files _ _ h1
    obtain ⟨g1, g2⟩ := f5 h2
    refine ⟨fd', f1, by omega, ?_, ?_, h5, h6⟩
    · rw [m.fileNames, g1]; exact h3
    · rw [vl, g1, g2]; exact h4
  | field path full file k i f =>
    obtain ⟨fd, md, d, h1, h2, h3, h4, h5, h6⟩ := h
    obtain ⟨fd', f1, f2, f4, f5⟩ := m.files _ _ h1
    obtain ⟨g1, g2⟩ := f5 h2
    obtain ⟨md', k1, k2, k3, k4, k5⟩ := m.messages _ _ h3
    refine ⟨fd', md', d, f1, by omega, k1, ?_, h5.mono m.messages m.files, ?_⟩
    · obtain ⟨l, hl⟩ := k4
      rw [← hl]; exact getElem?_append_of_some _ h4
    · rw [f2, g2, m.names, map_id_len k5]
      exact h6.mono m.enums
  | service path full file k s =>
    obtain ⟨sd, h1, h2⟩ := h
    obtain ⟨sd', g1, g2, _⟩ := m.services _ _ h1
    exact ⟨sd', g1, g2.trans h2⟩
  | method path full file k i ms =>
    obtain ⟨fd, sd, d, h1, h2, h3, h4, h5, h6, h7⟩ := h
    obtain ⟨fd', f1, f2, f4, f5⟩ := m.files _ _ h1
    obtain ⟨g1, g2⟩ := f5 h2
    obtain ⟨sd', k1, k2, l, hl⟩ := m.services _ _ h3
    refine ⟨fd', sd', d, f1, by omega, k1, ?_, h5, ?_, ?_⟩
    · rw [← hl]; exact getElem?_append_of_some _ h4
    · rw [g2, m.names]; exact h6
    · rw [g2, m.names]; exact h7
  | enumValue path full file k i v =>
    obtain ⟨ed, fd, ep, h1, h2, h3, h4⟩ := h
    obtain ⟨ed', g1, g2, _⟩ := m.enums _ _ h1
    obtain ⟨fd', f1, _, f4, _⟩ := m.files _ _ h2
    exact ⟨ed', fd', ep, g1, by rw [g2]; exact f1,
      by rw [g2, findEnum_strip_mono f4]; exact h3, h4⟩
  | extension path full file parent i f =>
    obtain ⟨fd, d, h1, h2, h3, h4, h5⟩ := h
    obtain ⟨fd', f1, f2, f4, f5⟩ := m.files _ _ h1
    obtain ⟨g1, g2⟩ := f5 h2
    obtain ⟨l, hl⟩ := m.extensions
    refine ⟨fd', d, f1, by omega, ?_, h4.mono m.messages m.files, ?_⟩
    · rw [← hl]; exact getElem?_append_of_some _ h3
    · rw [f2, g2, m.names]; exact h5.mono m.enums
  | _ => trivial

/-! The invariant of the pass. -/

/-- Between two states of a pass, `base` extensions existed before and message `k` had the
list `old`. -/
def ExtList (q : Pool) (base k : Nat) (old : List Nat) (l : List Nat) : Prop :=
  ∃ r, l = old ++ r ∧ r.Pairwise (· < ·) ∧
    ∀ e, e ∈ r ↔ base ≤ e ∧ ∃ d, q.extensions[e]? = some d ∧ d.extendee = k

/-- State of the second pass: `q0` is the pool it started from, `evs` all callbacks, `cE`
their counters, `pre` the callbacks made so far and `c` their counters. -/
structure Pass2 (env : Env) (o : Offs) (q0 : Pool) (evs : List Event) (cE : Cnt)
    (pre : List Event) (c : Cnt) (q : Pool) : Prop where
  above : c.Above o
  zero : c.Zero
  names : q.names = q0.names
  fileNames : q.fileNames = q0.fileNames
  filesLen : q.files.length = q0.files.length
  msgsLen : q.messages.length = q0.messages.length
  enumsLen : q.enums.length = q0.enums.length
  servicesLen : q.services.length = c.service
  extensionsLen : q.extensions.length = c.extension
  noDeps : ∀ (i : Nat) fd, c.file ≤ i → q.files[i]? = some fd → fd.deps = []
  evs1 : ∀ e ∈ evs, Ev1s q cE e
  evs2 : ∀ e ∈ pre, Ev2 env q c.file e
  msgs : ∀ (k : Nat) md, o.message ≤ k → q.messages[k]? = some md →
    MsgOk md ∧ md.fields.length = c.fields k
  enums : ∀ (k : Nat) ed, o.enum ≤ k → q.enums[k]? = some ed → EnumOk ed (c.values k)
  methods : ∀ (k : Nat) sd, o.service ≤ k → q.services[k]? = some sd → sd.methods.length = c.methods k
  exts : ∀ (k : Nat) md0 md, q0.messages[k]? = some md0 → q.messages[k]? = some md →
    ExtList q o.extension k md0.extensions md.extensions

/-- The name of a declaration is the last part of its full name. -/
def Event.Scoped : Event → Prop
  | .field _ full _ _ _ f => ∃ s, full = pushScope s f.name
  | .enumValue _ full _ _ _ v => ∃ s, full = pushScope s v.name
  | _ => True

theorem visit_scoped {o : Offs} {fs : List FileP} {e : Event} (h : e ∈ visit o fs) : e.Scoped := by
  rcases visit_inner fs o _ h with ⟨j, g, hg, ht⟩ | hi
  · cases e with
    | field => exact ht.elim
    | enumValue => exact ht.elim
    | _ => trivial
  · cases e with
    | field path full file k i f => obtain ⟨_, s, _, _, _, _, h, _⟩ := hi; exact ⟨s, h⟩
    | enumValue path full file k i v => obtain ⟨s, _, _, _, _, _, h, _⟩ := hi; exact ⟨s, h⟩
    | _ => trivial

theorem ExtList.same {p q : Pool} (h : q.extensions = p.extensions) {b k : Nat} {old l : List Nat}
    (g : ExtList p b k old l) : ExtList q b k old l := by
  obtain ⟨r, h1, h2, h3⟩ := g
  exact ⟨r, h1, h2, by rw [h]; exact h3⟩

/-- A step that touches no message, enum, service or extension list. -/
theorem getElem?_set_inv {α : Type} {l : List α} {k i : Nat} {a b : α}
    (h : (l.set k b)[i]? = some a) : (k = i ∧ a = b) ∨ (k ≠ i ∧ l[i]? = some a) := by
  by_cases hk : k = i
  · subst hk
    have hl := getElem?_lt h
    rw [List.length_set] at hl
    rw [List.getElem?_set_self hl] at h
    exact .inl ⟨rfl, (Option.some.inj h).symm⟩
  · rw [List.getElem?_set_ne hk] at h; exact .inr ⟨hk, h⟩

theorem Pass2.step {env : Env} (hsr : SearchOk env.search) {o : Offs} {q0 : Pool}
    {evs : List Event} {cE : Cnt} {pre : List Event} {c c' : Cnt} {p q : Pool} {e : Event}
    (I : Pass2 env o q0 evs cE pre c p) (hmem : e ∈ evs) (hsc : e.Scoped)
    (hs : c.step o e = some c') (eff : ResolveEff env p e q) :
    Pass2 env o q0 evs cE (pre ++ [e]) c' q := by
  have mono := resolve_mono eff hs
  have grow := Cnt.step_grows hs
  have hvl : ∀ ds tr, visLoop q.files q.fileNames env.stack ds tr
      = visLoop p.files p.fileNames env.stack ds tr := by
    intro ds tr
    rw [mono.fileNames]
    exact visLoop_congr _ _ (mono.files.imports mono.filesLen) ds tr
  have base : Ev2 env q c'.file e → q.services.length = c'.service → q.extensions.length = c'.extension →
      (∀ (i : Nat) fd, c'.file ≤ i → q.files[i]? = some fd → fd.deps = []) →
      (∀ (k : Nat) md, o.message ≤ k → q.messages[k]? = some md →
        MsgOk md ∧ md.fields.length = c'.fields k) →
      (∀ (k : Nat) ed, o.enum ≤ k → q.enums[k]? = some ed → EnumOk ed (c'.values k)) →
      (∀ (k : Nat) sd, o.service ≤ k → q.services[k]? = some sd → sd.methods.length = c'.methods k) →
      (∀ (k : Nat) md0 md, q0.messages[k]? = some md0 → q.messages[k]? = some md →
        ExtList q o.extension k md0.extensions md.extensions) →
      Pass2 env o q0 evs cE (pre ++ [e]) c' q := by
    intro h1 h2 h3 h4 h5 h6 h7 h8
    refine ⟨I.above.step hs, I.zero.step hs, mono.names.trans I.names,
      mono.fileNames.trans I.fileNames, mono.filesLen.trans I.filesLen,
      mono.msgsLen.trans I.msgsLen, mono.enumsLen.trans I.enumsLen, h2, h3, h4,
      fun x hx => (I.evs1 x hx).mono mono, ?_, h5, h6, h7, h8⟩
    intro x hx
    rcases List.mem_append.mp hx with hx | hx
    · exact (I.evs2 x hx).mono mono grow.file
    · have hx : x = e := by simpa using hx
      subst hx; exact h1
  -- files of the new state that have not been visited
  have noDeps' : ∀ {file : Nat}, FilesEff file p.files q.files → c'.file = c.file →
      ∀ (i : Nat) fd, c'.file ≤ i → q.files[i]? = some fd → fd.deps = [] := by
    intro file hfe hcf i fd hi hfd
    have hlt := getElem?_lt hfd
    rw [mono.filesLen] at hlt
    obtain ⟨f0, hf0⟩ : ∃ f0, p.files[i]? = some f0 := ⟨_, List.getElem?_eq_getElem hlt⟩
    by_cases hif : i = file
    · subst hif
      obtain ⟨y, hy, al⟩ := hfe.alike _ hf0
      rw [hfd] at hy; cases hy
      rw [al.deps]; exact I.noDeps i _ (by omega) hf0
    · rw [hfe.other i hif] at hfd
      exact I.noDeps i fd (by omega) hfd
  cases e with
  | file path i f =>
    obtain ⟨l, tr, fd, hfd, hl, hv, hp, hw, rfl⟩ := eff
    simp only [Cnt.step] at hs
    split at hs
    · next hi =>
      cases hs
      refine base ?_ I.servicesLen I.extensionsLen ?_ I.msgs I.enums I.methods
        (fun k a b ha hb => (I.exts k a b ha hb))
      · have hd := I.noDeps i fd (by omega) hfd
        rcases getElem?_set_cases (k := i) (b := { fd with deps := fd.deps ++ l, trans := tr }) hfd
          with ⟨_, h1⟩ | ⟨hk, _⟩
        · refine ⟨_, h1, by simp only; omega, ?_, ?_, hp, hw⟩
          · simp only [hd, List.nil_append]; exact hl
          · rw [hvl]; simp only [hd, List.nil_append]; exact hv
        · exact absurd rfl hk
      · intro j x hj hx
        rcases getElem?_set_inv hx with ⟨hk, _⟩ | ⟨_, hx⟩
        · simp only at hj; omega
        · exact I.noDeps j x (by simp only at hj; omega) hx
    · cases hs
  | message path full file parent k m =>
    simp only [ResolveEff] at eff; subst eff
    simp only [Cnt.step] at hs
    split at hs
    · cases hs
      exact base trivial I.servicesLen I.extensionsLen I.noDeps I.msgs I.enums I.methods I.exts
    · cases hs
  | oneof path full file k i oo =>
    simp only [ResolveEff] at eff; subst eff
    simp only [Cnt.step] at hs
    split at hs
    · cases hs
      exact base trivial I.servicesLen I.extensionsLen I.noDeps I.msgs I.enums I.methods I.exts
    · cases hs
  | enum path full file parent k en =>
    simp only [ResolveEff] at eff; subst eff
    simp only [Cnt.step] at hs
    split at hs
    · cases hs
      exact base trivial I.servicesLen I.extensionsLen I.noDeps I.msgs I.enums I.methods I.exts
    · cases hs
  | field path full file k i f =>
    obtain ⟨fd, m, d, m', hfd, hm, hnum, hmade, hadd, hfe, hq⟩ := eff
    simp only [Cnt.step] at hs
    split at hs
    · next hc =>
      obtain ⟨hi, hk, hfl⟩ := hc
      cases hs
      obtain ⟨mok, mlen⟩ := I.msgs k m hk.1 hm
      have hi' : i = m.fields.length := by rw [mlen]; exact hi
      subst hi'
      have hname : d.id.name = f.name := by
        obtain ⟨s, hs⟩ := hsc
        rw [hmade.id, hs, Ident.mk'_name]
      have hpos : 0 < d.number := by
        have h1 := hmade.number
        have h2 := hmade.valid
        simp only [numberOk, Bool.and_eq_true, decide_eq_true_eq] at h2
        omega
      have mok' := mok.add hadd hname hpos hmade.oneofLt
      have hqm : q.messages = p.messages.set k m' := by rw [hq]
      refine base ?_ ?_ ?_ (noDeps' hfe rfl) ?_ ?_ ?_ ?_
      · obtain ⟨fd', hfd', al⟩ := hfe.alike fd hfd
        rcases getElem?_set_cases (k := k) (b := m') hm with ⟨_, h1⟩ | ⟨hne, _⟩
        · refine ⟨fd', m', d, hfd', hfl.2, by rw [hqm]; exact h1, ?_,
            hnum.mono mono.messages mono.files, ?_⟩
          · rw [hadd.eq]; simp
          · rw [al.syn, al.trans, mono.names, map_id_len hadd.ids]
            exact hmade.mono mono.enums
        · exact absurd rfl hne
      · rw [hq]; exact I.servicesLen
      · rw [hq]; exact I.extensionsLen
      · intro j md hj hmd
        rw [hqm] at hmd
        rcases getElem?_set_inv hmd with ⟨hkj, rfl⟩ | ⟨hkj, hmd⟩
        · subst hkj
          refine ⟨mok', ?_⟩
          rw [hadd.eq]
          simp only [List.length_append, List.length_singleton, bump, if_true]
          omega
        · obtain ⟨g1, g2⟩ := I.msgs j md hj hmd
          refine ⟨g1, ?_⟩
          simp only [bump]
          rw [if_neg (fun h => hkj h.symm)]
          exact g2
      · intro j ed hj hed
        rw [hq] at hed; exact I.enums j ed hj hed
      · intro j sd hj hsd
        rw [hq] at hsd; exact I.methods j sd hj hsd
      · intro j a b ha hb
        have hqe : q.extensions = p.extensions := by rw [hq]
        rw [hqm] at hb
        rcases getElem?_set_inv hb with ⟨hkj, rfl⟩ | ⟨hkj, hb⟩
        · subst hkj
          have := I.exts k a m ha hm
          rw [show b.extensions = m.extensions by rw [hadd.eq]]
          exact this.same hqe
        · exact (I.exts j a b ha hb).same hqe
    · cases hs
  | service path full file k s =>
    simp only [ResolveEff] at eff
    simp only [Cnt.step] at hs
    split at hs
    · next hc =>
      cases hs
      obtain ⟨hk, hfl⟩ := hc
      have hk' : k = p.services.length := by rw [I.servicesLen]; exact hk
      subst eff
      refine base ?_ ?_ I.extensionsLen I.noDeps I.msgs I.enums ?_
        (fun k a b ha hb => (I.exts k a b ha hb))
      · exact ⟨_, by simp only [hk']; rw [List.getElem?_append_right (Nat.le_refl _)]; simp; exact rfl, rfl⟩
      · simp only [List.length_append, List.length_singleton, I.servicesLen]
      · intro j sd hj hsd
        rcases mem_append_get hsd with ⟨_, h1⟩ | ⟨h1, h2⟩
        · exact I.methods j sd hj h1
        · rw [h2]
          simp only [List.length_nil]
          exact (I.zero.methods j (by rw [h1, I.servicesLen]; exact Nat.le_refl _)).symm
    · cases hs
  | method path full file k i m =>
    obtain ⟨fd, a, b, hfd, hin, hout, hfe, hklt, hq⟩ := eff
    simp only [Cnt.step] at hs
    split at hs
    · next hc =>
      cases hs
      obtain ⟨hi, hk, hfl⟩ := hc
      obtain ⟨sd, hsd⟩ : ∃ sd, p.services[k]? = some sd := ⟨_, List.getElem?_eq_getElem hklt⟩
      have hlen := I.methods k sd hk.1 hsd
      have hqs : q.services = p.services.modify k fun s => { s with methods := s.methods ++
          [{ id := Ident.mk' file path full m.name, input := a, output := b }] } := by rw [hq]
      refine base ?_ ?_ ?_ (noDeps' hfe rfl) ?_ ?_ ?_ ?_
      · obtain ⟨fd', hfd', al⟩ := hfe.alike fd hfd
        refine ⟨fd', { sd with methods := sd.methods ++
          [{ id := Ident.mk' file path full m.name, input := a, output := b }] },
          { id := Ident.mk' file path full m.name, input := a, output := b },
          hfd', hfl.2, ?_, ?_, rfl, ?_, ?_⟩
        · rw [hqs, getElem?_modify_eq, hsd]; rfl
        · simp only
          rw [List.getElem?_append_right (by omega), show i - sd.methods.length = 0 by omega]; rfl
        · rw [al.trans, mono.names]; exact hin
        · rw [al.trans, mono.names]; exact hout
      · rw [hqs, List.length_modify]; exact I.servicesLen
      · rw [hq]; exact I.extensionsLen
      · intro j md hj hmd
        rw [hq] at hmd; exact I.msgs j md hj hmd
      · intro j ed hj hed
        rw [hq] at hed; exact I.enums j ed hj hed
      · intro j s hj hsj
        rw [hqs] at hsj
        by_cases hkj : k = j
        · subst hkj
          rw [getElem?_modify_eq, hsd] at hsj
          simp only [Option.map_some, Option.some.injEq] at hsj
          rw [← hsj]
          simp only [List.length_append, List.length_singleton, bump, if_true]
          omega
        · rw [getElem?_modify_ne _ _ hkj] at hsj
          simp only [bump]
          rw [if_neg (fun h => hkj h.symm)]
          exact I.methods j s hj hsj
      · intro j x y hx hy
        rw [hq] at hy
        exact (I.exts j x y hx hy).same (by rw [hq])
    · cases hs
  | enumValue path full file k i v =>
    obtain ⟨ed, fd, ep, hed, hfd, hep, hres, hal, hnm, hq⟩ := eff
    simp only [Cnt.step] at hs
    split at hs
    · next hc =>
      cases hs
      obtain ⟨hi, hk, hfl⟩ := hc
      have eok := I.enums k ed hk.1 hed
      obtain ⟨_, ed1, hed1, hval⟩ := I.evs1 _ hmem
      rw [hed] at hed1; cases hed1
      have hname : (Ident.mk' file path full v.name).name = v.name := by
        obtain ⟨s, hs⟩ := hsc
        rw [hs, Ident.mk'_name]
      have hval' : ed.values[c.values k]? = some { id := Ident.mk' file path full v.name, number := v.number } := by
        rw [← hi]; exact hval
      have eok' := EnumOk.add hsr eok hval' hal (by simp only [hname]; exact hnm)
      simp only [hname] at eok'
      rw [← hi] at eok'
      have hqe : q.enums = p.enums.set k { ed with
        valueNumbers := insertAt (env.search ed.valueNumbers v.number).2 (v.number, i) ed.valueNumbers
        valueNames := insertN v.name i ed.valueNames } := by rw [hq]
      refine base ?_ ?_ ?_ ?_ ?_ ?_ ?_ ?_
      · rcases getElem?_set_cases (k := k) (b := { ed with
          valueNumbers := insertAt (env.search ed.valueNumbers v.number).2 (v.number, i) ed.valueNumbers
          valueNames := insertN v.name i ed.valueNames }) hed with ⟨_, h1⟩ | ⟨hne, _⟩
        · rw [← hqe] at h1
          refine ⟨_, fd, ep, h1, ?_, hep, hres⟩
          rw [hq]; exact hfd
        · exact absurd rfl hne
      · rw [hq]; exact I.servicesLen
      · rw [hq]; exact I.extensionsLen
      · intro j x hj hx
        rw [hq] at hx; exact I.noDeps j x hj hx
      · intro j md hj hmd
        rw [hq] at hmd; exact I.msgs j md hj hmd
      · intro j ee hj hee
        rw [hqe] at hee
        rcases getElem?_set_inv hee with ⟨hkj, rfl⟩ | ⟨hkj, hee⟩
        · subst hkj
          simp only [bump, if_true]
          rw [← hi]
          exact eok'
        · simp only [bump]
          rw [if_neg (fun h => hkj h.symm)]
          exact I.enums j ee hj hee
      · intro j sd hj hsd
        rw [hq] at hsd; exact I.methods j sd hj hsd
      · intro j x y hx hy
        rw [hq] at hy
        exact (I.exts j x y hx hy).same (by rw [hq])
    · cases hs
  | extension path full file parent i f =>
    obtain ⟨fd, d, hfd, hmade, hfe, hlt, ⟨fs, hfs, hnum⟩, hq⟩ := eff
    simp only [Cnt.step] at hs
    split at hs
    · next hc =>
      cases hs
      obtain ⟨hi, hfl, hpar⟩ := hc
      have hi' : i = p.extensions.length := by rw [I.extensionsLen]; exact hi
      have hqx : q.extensions = p.extensions ++ [d] := by rw [hq]
      have hqm : q.messages = p.messages.modify d.extendee fun m =>
          { m with extensions := m.extensions ++ [i] } := by rw [hq]
      refine base ?_ ?_ ?_ (noDeps' hfe rfl) ?_ ?_ ?_ ?_
      · obtain ⟨fd', hfd', al⟩ := hfe.alike fd hfd
        refine ⟨fd', d, hfd', hfl.2, ?_, ?_, ?_⟩
        · rw [hqx, hi']; simp
        · -- the intermediate files differ from both ends only in what is stripped
          obtain ⟨md, xd, mp, h1, h2, h3, h4⟩ := hnum
          have h0 : NumberOkIn p d.extendee f := by
            have hlt2 := getElem?_lt h2
            simp only at hlt2
            rw [hfs.len] at hlt2
            obtain ⟨x0, hx0⟩ : ∃ x0, p.files[md.id.file]? = some x0 := ⟨_, List.getElem?_eq_getElem hlt2⟩
            obtain ⟨x1, hx1, _, hst, _⟩ := hfs.le 0 _ _ hx0
            simp only at h2
            rw [hx1] at h2; cases h2
            obtain ⟨mp', k1, k2⟩ := findMsg_strip_mono hst.symm h3
            obtain ⟨r1, r2⟩ := strip_ranges k2
            exact ⟨md, x0, mp', h1, hx0, k1, h4.valid, by rw [r1]; exact h4.reserved,
              by rw [r2]; exact h4.ext⟩
          exact h0.mono mono.messages mono.files
        · rw [al.syn, al.trans, mono.names]
          exact hmade.mono mono.enums
      · rw [hq]; exact I.servicesLen
      · rw [hqx]; simp only [List.length_append, List.length_singleton, I.extensionsLen]
      · intro j md hj hmd
        rw [hqm] at hmd
        by_cases hkj : d.extendee = j
        · rw [hkj, getElem?_modify_eq, Option.map_eq_some_iff] at hmd
          obtain ⟨md0, h0, rfl⟩ := hmd
          obtain ⟨g1, g2⟩ := I.msgs j md0 hj h0
          exact ⟨g1.congr rfl rfl rfl rfl rfl, g2⟩
        · rw [getElem?_modify_ne _ _ hkj] at hmd
          exact I.msgs j md hj hmd
      · intro j ed hj hed
        rw [hq] at hed; exact I.enums j ed hj hed
      · intro j sd hj hsd
        rw [hq] at hsd; exact I.methods j sd hj hsd
      · intro j a b ha hb
        have hbase : o.extension ≤ i := by rw [hi]; exact I.above.extension
        rw [hqm] at hb
        by_cases hkj : d.extendee = j
        · rw [hkj, getElem?_modify_eq, Option.map_eq_some_iff] at hb
          obtain ⟨b0, h0, rfl⟩ := hb
          obtain ⟨r, h1, h2, h3⟩ := I.exts j a b0 ha h0
          refine ⟨r ++ [i], ?_, ?_, ?_⟩
          · simp only [h1, List.append_assoc]
          · rw [List.pairwise_append]
            refine ⟨h2, by simp, ?_⟩
            intro x hx y hy
            simp only [List.mem_singleton] at hy
            subst hy
            obtain ⟨_, dx, hdx, _⟩ := (h3 x).mp hx
            rw [hi']; exact getElem?_lt hdx
          · intro x
            rw [List.mem_append, h3 x, List.mem_singleton, hqx]
            constructor
            · rintro (⟨g1, dx, g2, g3⟩ | rfl)
              · exact ⟨g1, dx, getElem?_append_of_some _ g2, g3⟩
              · exact ⟨hbase, d, by rw [hi']; simp, hkj⟩
            · rintro ⟨g1, dx, g2, g3⟩
              rcases mem_append_get g2 with ⟨_, g2⟩ | ⟨g2, _⟩
              · exact .inl ⟨g1, dx, g2, g3⟩
              · exact .inr (by rw [hi']; exact g2)
        · rw [getElem?_modify_ne _ _ hkj] at hb
          obtain ⟨r, h1, h2, h3⟩ := I.exts j a b ha hb
          refine ⟨r, h1, h2, ?_⟩
          intro x
          rw [h3 x, hqx]
          constructor
          · rintro ⟨g1, dx, g2, g3⟩
            exact ⟨g1, dx, getElem?_append_of_some _ g2, g3⟩
          · rintro ⟨g1, dx, g2, g3⟩
            rcases mem_append_get g2 with ⟨_, g2⟩ | ⟨_, g2⟩
            · exact ⟨g1, dx, g2, g3⟩
            · rw [g2] at g3; exact absurd g3 hkj
    · cases hs

theorem MsgOk.fresh {m : MsgD} (h1 : m.fields = []) (h2 : m.fieldNumbers = [])
    (h3 : m.fieldNames = []) (h4 : m.fieldJsonNames = [])
    (h5 : ∀ (j : Nat) o, m.oneofs[j]? = some o → o.fields = []) : MsgOk m := by
  refine ⟨by rw [h2]; rfl, by rw [h2, h1]; exact Idx.nil, by rw [h3, h1]; exact Idx.nil,
    by rw [h4, h1]; exact Idx.nil, ?_, by rw [h1]; simp, by rw [h1]; simp⟩
  intro j o hj
  rw [h5 j o hj, h1]
  simp

theorem EnumOk.fresh {e : EnumD} (h1 : e.valueNumbers = []) (h2 : e.valueNames = []) :
    EnumOk e 0 := by
  refine ⟨by rw [h1]; exact List.Pairwise.nil, fun _ => by rw [h1]; exact List.Pairwise.nil,
    by rw [h1]; rfl, ?_, ?_⟩
  · intro x; rw [h1]; simp
  · rw [h2]; simp only [List.take_zero]; exact Idx.nil

theorem Pass2.start {env : Env} {p q0 : Pool} {fs : List FileP} {c : Cnt}
    (hc : Cnt.run p.offs (Cnt.start p.offs) (visit p.offs fs) = some c)
    (hN : Names1 p (visit p.offs fs) c q0) :
    Pass2 env p.offs q0 (visit p.offs fs) c [] (Cnt.start p.offs) q0 := by
  refine ⟨Cnt.start_above _, Cnt.start_zero _, rfl, rfl, rfl, rfl, rfl, ?_, ?_, ?_,
    fun e he => (hN.evs e he).stable, by simp, ?_, ?_, ?_, ?_⟩
  · rw [hN.src.services]; rfl
  · rw [hN.src.extensions]; rfl
  · intro i fd hi hfd
    have hlt := getElem?_lt hfd
    rw [hN.len.files] at hlt
    obtain ⟨e, he, hsel⟩ := (tally_file p.offs).ex hc hi hlt
    cases e <;> simp only [selFile, Option.some.injEq, reduceCtorEq] at hsel
    subst hsel
    obtain ⟨_, ⟨syn, _, h2⟩, _⟩ := hN.evs _ he
    rw [hfd] at h2
    cases h2; rfl
  · intro k md hk hmd
    have hlt := getElem?_lt hmd
    rw [hN.len.messages] at hlt
    obtain ⟨e, he, hsel⟩ := (tally_message p.offs).ex hc hk hlt
    cases e <;> simp only [selMessage, Option.some.injEq, reduceCtorEq] at hsel
    subst hsel
    obtain ⟨_, ⟨md', h2, h3, h4⟩, _⟩ := hN.evs _ he
    rw [hmd] at h2
    cases h2
    refine ⟨MsgOk.fresh (by rw [h4]; rfl) (by rw [h4]; rfl) (by rw [h4]; rfl) (by rw [h4]; rfl) ?_,
      by rw [h4]; rfl⟩
    intro j oo hj
    have hjlt := getElem?_lt hj
    rw [h3] at hjlt
    obtain ⟨e', he', hsel'⟩ := (tally_oneof p.offs _).ex hc (i := j) (Nat.zero_le _) hjlt
    cases e' <;> simp only [selOneof, reduceCtorEq] at hsel'
    split at hsel'
    · next hkk =>
      cases hsel'
      subst hkk
      obtain ⟨_, md2, g1, g2⟩ := hN.evs _ he'
      rw [hmd] at g1; cases g1
      rw [hj] at g2; cases g2; rfl
    · cases hsel'
  · intro k ed hk hed
    have hlt := getElem?_lt hed
    rw [hN.len.enums] at hlt
    obtain ⟨e, he, hsel⟩ := (tally_enum p.offs).ex hc hk hlt
    cases e <;> simp only [selEnum, Option.some.injEq, reduceCtorEq] at hsel
    subst hsel
    obtain ⟨_, ⟨ed', h2, h3, h4⟩, _⟩ := hN.evs _ he
    rw [hed] at h2
    cases h2
    exact EnumOk.fresh (by rw [h4]; rfl) (by rw [h4]; rfl)
  · intro k sd hk hsd
    have hlt := getElem?_lt hsd
    rw [hN.src.services] at hlt
    have : p.offs.service = p.services.length := rfl
    omega
  · intro k a b ha hb
    rw [ha] at hb; cases hb
    refine ⟨[], by simp, List.Pairwise.nil, ?_⟩
    intro e
    simp only [List.not_mem_nil, false_iff, not_and]
    rintro he ⟨d, hd, _⟩
    have hlt := getElem?_lt hd
    rw [hN.src.extensions] at hlt
    have : p.offs.extension = p.extensions.length := rfl
    omega

/-- The second pass, when it reports nothing. -/
theorem resolve_pass {env : Env} (hsr : SearchOk env.search) {p q0 : Pool} {fs : List FileP}
    {c : Cnt} (hc : Cnt.run p.offs (Cnt.start p.offs) (visit p.offs fs) = some c)
    (hN : Names1 p (visit p.offs fs) c q0) {st : St}
    (h : runPass (resolveStep env) ⟨q0, []⟩ (visit p.offs fs) = .ok st) (he : st.errors = []) :
    Pass2 env p.offs q0 (visit p.offs fs) c (visit p.offs fs) c st.pool := by
  have := pass_inv' (o := p.offs) (fun e => e ∈ visit p.offs fs)
    (fun pre c' st => st.errors = [] → Pass2 env p.offs q0 (visit p.offs fs) c pre c' st.pool)
    ?_ (visit p.offs fs) [] (Cnt.start p.offs) c ⟨q0, []⟩ st (fun e he => he) hc
    (fun _ => Pass2.start hc hN) h
  · exact this he
  · intro pre c1 st1 e c2 st2 hmem hcs hI hs he2
    obtain ⟨e0, eff⟩ := resolve_eff hs he2
    exact (hI e0).step hsr hmem (visit_scoped hmem) hcs eff

end Verif.Pool
