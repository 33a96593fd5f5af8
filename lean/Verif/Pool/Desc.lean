import Verif.Pool.Pass2
import Verif.Pool.Closed
import Verif.Pool.Query
/-!
What a pool says about the declarations it was built from.
-/
set_option autoImplicit false
namespace Verif.Pool
open Verif.Wire Verif.Dyn

/-! The counters at the end of a traversal. -/
section
variable {o : Offs} {fs : List FileP} {c : Cnt}

theorem count_fields (hc : Cnt.run o (Cnt.start o) (visit o fs) = some c) {path : Path}
    {full : Name} {file : Nat} {parent : Option Nat} {k : Nat} {m : MsgP}
    (h : .message path full file parent k m ∈ visit o fs) : c.fields k = m.fields.length := by
  rcases Nat.lt_trichotomy (c.fields k) m.fields.length with hlt | heq | hgt
  · have := (visit_full fs o _ h).1 (c.fields k) _ (List.getElem?_eq_getElem hlt)
    have := (tally_field o k).mem hc this (by simp [selField]; rfl)
    omega
  · exact heq
  · obtain ⟨e, he, hsel⟩ := (tally_field o k).ex hc (i := m.fields.length) (Nat.zero_le _) hgt
    cases e <;> simp only [selField, reduceCtorEq] at hsel
    split at hsel
    · next hk =>
      cases hsel
      rcases visit_inner fs o _ he with ⟨_, _, _, ht⟩ | ⟨qpath, qfull, qpar, qm, h1, _, _, h2⟩
      · exact ht.elim
      · subst hk
        have := (tally_message o).uniq hc h h1 rfl rfl
        simp only [Event.message.injEq] at this
        obtain ⟨_, _, _, _, _, rfl⟩ := this
        have := getElem?_lt h2
        omega
    · cases hsel

theorem count_oneofs (hc : Cnt.run o (Cnt.start o) (visit o fs) = some c) {path : Path}
    {full : Name} {file : Nat} {parent : Option Nat} {k : Nat} {m : MsgP}
    (h : .message path full file parent k m ∈ visit o fs) : c.oneofs k = m.oneofs.length := by
  rcases Nat.lt_trichotomy (c.oneofs k) m.oneofs.length with hlt | heq | hgt
  · have := (visit_full fs o _ h).2.1 (c.oneofs k) _ (List.getElem?_eq_getElem hlt)
    have := (tally_oneof o k).mem hc this (by simp [selOneof]; rfl)
    omega
  · exact heq
  · obtain ⟨e, he, hsel⟩ := (tally_oneof o k).ex hc (i := m.oneofs.length) (Nat.zero_le _) hgt
    cases e <;> simp only [selOneof, reduceCtorEq] at hsel
    split at hsel
    · next hk =>
      cases hsel
      rcases visit_inner fs o _ he with ⟨_, _, _, ht⟩ | ⟨qpath, qfull, qpar, qm, h1, _, _, h2⟩
      · exact ht.elim
      · subst hk
        have := (tally_message o).uniq hc h h1 rfl rfl
        simp only [Event.message.injEq] at this
        obtain ⟨_, _, _, _, _, rfl⟩ := this
        have := getElem?_lt h2
        omega
    · cases hsel

theorem count_values (hc : Cnt.run o (Cnt.start o) (visit o fs) = some c) {path : Path}
    {full : Name} {file : Nat} {parent : Option Nat} {k : Nat} {m : EnumP}
    (h : .enum path full file parent k m ∈ visit o fs) : c.values k = m.values.length := by
  rcases Nat.lt_trichotomy (c.values k) m.values.length with hlt | heq | hgt
  · obtain ⟨s, _, hf⟩ := visit_full fs o _ h
    have := hf (c.values k) _ (List.getElem?_eq_getElem hlt)
    have := (tally_value o k).mem hc this (by simp [selValue]; rfl)
    omega
  · exact heq
  · obtain ⟨e, he, hsel⟩ := (tally_value o k).ex hc (i := m.values.length) (Nat.zero_le _) hgt
    cases e <;> simp only [selValue, reduceCtorEq] at hsel
    split at hsel
    · next hk =>
      cases hsel
      rcases visit_inner fs o _ he with ⟨_, _, _, ht⟩ | ⟨scope, qpath, qpar, qm, h1, _, _, h2⟩
      · exact ht.elim
      · subst hk
        have := (tally_enum o).uniq hc h h1 rfl rfl
        simp only [Event.enum.injEq] at this
        obtain ⟨_, _, _, _, _, rfl⟩ := this
        have := getElem?_lt h2
        omega
    · cases hsel

theorem count_methods (hc : Cnt.run o (Cnt.start o) (visit o fs) = some c) {path : Path}
    {full : Name} {file : Nat} {k : Nat} {m : ServiceP}
    (h : .service path full file k m ∈ visit o fs) : c.methods k = m.methods.length := by
  rcases Nat.lt_trichotomy (c.methods k) m.methods.length with hlt | heq | hgt
  · have := visit_full fs o _ h (c.methods k) _ (List.getElem?_eq_getElem hlt)
    have := (tally_method o k).mem hc this (by simp [selMethod]; rfl)
    omega
  · exact heq
  · obtain ⟨e, he, hsel⟩ := (tally_method o k).ex hc (i := m.methods.length) (Nat.zero_le _) hgt
    cases e <;> simp only [selMethod, reduceCtorEq] at hsel
    split at hsel
    · next hk =>
      cases hsel
      rcases visit_inner fs o _ he with ⟨_, _, _, ht⟩ | ⟨qpath, qfull, qm, h1, _, _, h2⟩
      · exact ht.elim
      · subst hk
        have := (tally_service o).uniq hc h h1 rfl rfl
        simp only [Event.service.injEq] at this
        obtain ⟨_, _, _, _, rfl⟩ := this
        have := getElem?_lt h2
        omega
    · cases hsel
end

/-! The lasting facts about a declaration. -/

/-- The type of a field exists in the pool. -/
inductive KindOk (p : Pool) (f : FieldP) : Kind → Bool → Prop where
  | scalar (k : Kind) : f.typeName = [] → scalarKind f.ty = some k → KindOk p f k false
  | message (i : Nat) : f.typeName ≠ [] → i < p.messages.length →
      KindOk p f (.message i) (decide (f.ty = .group))
  | enum (i : Nat) : f.typeName ≠ [] → i < p.enums.length → KindOk p f (.enum i) false

/-- The descriptor of a field, relative to the declaration. -/
structure FieldIs (env : Env) (p : Pool) (syn : Syn) (file : Nat) (path : Path) (full : Name)
    (f : FieldP) (oneofs : Nat) (d : FieldD) : Prop where
  id : d.id = Ident.mk' file path full f.name
  number : (d.number : Int) = f.number
  valid : numberOk f.number = true
  json : d.jsonName = jsonOf f
  kind : KindOk p f d.kind d.group
  oneof : d.oneof.map Int.ofNat = f.oneofIndex
  oneofLt : ∀ j, d.oneof = some j → j < oneofs
  packed : d.packed = isPacked syn f (some (d.kind, d.group))
  presence : d.presence = supportsPresence syn f (some (d.kind, d.group))
  card : d.card = f.label
  default : DefaultOk env p.enums d.kind f.default d.default

structure ExtIs (env : Env) (p : Pool) (syn : Syn) (file : Nat) (path : Path) (full : Name)
    (parent : Option Nat) (f : FieldP) (d : ExtD) : Prop where
  id : d.id = Ident.mk' file path full f.name
  parent : d.parent = parent
  number : (d.number : Int) = f.number
  valid : numberOk f.number = true
  json : d.jsonName = '[' :: full ++ [']']
  kind : KindOk p f d.kind d.group
  extendee : d.extendee < p.messages.length
  packed : d.packed = isPacked syn f (some (d.kind, d.group))
  card : d.card = f.label
  default : DefaultOk env p.enums d.kind f.default d.default

/-- What a pool says about one declaration it was built from. -/
def Declared (env : Env) (p : Pool) (e : Event) : Prop :=
  (∀ n d, e.defn = some (n, d) → lookupN p.names n = some d) ∧
  match e with
  | .file _ i f => (∃ fd, p.files[i]? = some fd ∧ parseSyn f.syn = some fd.syn ∧
        stripFile fd.raw = stripFile f ∧ fd.prost = fd.raw ∧
        f.deps.map (lookupN p.fileNames) = fd.deps.map some ∧
        (∀ j ∈ f.publicDeps, 0 ≤ j ∧ j < f.deps.length) ∧
        (∀ j ∈ f.weakDeps, 0 ≤ j ∧ j < f.deps.length)) ∧
      lookupN p.fileNames f.name = some i ∧
      ∀ n ∈ packageNames f.package, ∃ d, lookupN p.names n = some d ∧ d.kind = .package
  | .message path full file parent k m =>
      (∃ md, p.messages[k]? = some md ∧ md.id = Ident.mk' file path full m.name ∧
        md.parent = parent ∧ md.fields.length = m.fields.length ∧
        md.oneofs.length = m.oneofs.length ∧ MsgOk md) ∧
      ∃ fd, p.files[file]? = some fd ∧
        (fd.syn = .proto3 → (m.fields.map fun f => toLowerWithoutUnderscores f.name).Nodup)
  | .field path full file k i f => ∃ fd md d, p.files[file]? = some fd ∧
      p.messages[k]? = some md ∧ md.fields[i]? = some d ∧ NumberOkIn p k f ∧
      FieldIs env p fd.syn file path full f md.oneofs.length d
  | .oneof path full file k i o => ∃ md od, p.messages[k]? = some md ∧
      md.oneofs[i]? = some od ∧ od.id = Ident.mk' file path full o.name
  | .enum path full file parent k en =>
      (∃ ed, p.enums[k]? = some ed ∧ ed.id = Ident.mk' file path full en.name ∧
        ed.parent = parent ∧ ed.allowAlias = en.allowAlias ∧
        ed.values.length = en.values.length ∧ EnumOk ed ed.values.length) ∧
      ∃ fd, p.files[file]? = some fd ∧ FirstOk fd.syn en.values
  | .enumValue path full file k i v => ∃ ed fd ep, p.enums[k]? = some ed ∧
      ed.values[i]? = some { id := Ident.mk' file path full v.name, number := v.number } ∧
      p.files[ed.id.file]? = some fd ∧ findEnum fd.raw ed.id.path = some ep ∧
      (∀ r ∈ ep.reserved, ¬ (r.1 ≤ v.number ∧ v.number ≤ r.2))
  | .service path full file k s => ∃ sd, p.services[k]? = some sd ∧
      sd.id = Ident.mk' file path full s.name ∧ sd.methods.length = s.methods.length
  | .method path full file k i m => ∃ sd d, p.services[k]? = some sd ∧ sd.methods[i]? = some d ∧
      d.id = Ident.mk' file path full m.name ∧
      d.input < p.messages.length ∧ d.output < p.messages.length
  | .extension path full file parent i f => ∃ fd d, p.files[file]? = some fd ∧
      p.extensions[i]? = some d ∧ NumberOkIn p d.extendee f ∧
      ExtIs env p fd.syn file path full parent f d

/-- `q` keeps everything `p` says; both successful additions and roll-backs do. -/
structure Keeps (p q : Pool) : Prop where
  names : ∀ n d, lookupN p.names n = some d → lookupN q.names n = some d
  fileNames : ∀ n d, lookupN p.fileNames n = some d → lookupN q.fileNames n = some d
  files : ∀ (i : Nat) f, p.files[i]? = some f → q.files[i]? = some f
  messages : ∀ (i : Nat) m, p.messages[i]? = some m → ∃ m', q.messages[i]? = some m' ∧
    m'.forget = m.forget
  enums : ∀ (i : Nat) f, p.enums[i]? = some f → q.enums[i]? = some f
  services : ∀ (i : Nat) f, p.services[i]? = some f → q.services[i]? = some f
  extensions : ∀ (i : Nat) f, p.extensions[i]? = some f → q.extensions[i]? = some f

theorem prefix_get {α : Type} {a b : List α} (h : a <+: b) {i : Nat} {x : α} (hx : a[i]? = some x) :
    b[i]? = some x := by
  obtain ⟨l, rfl⟩ := h
  exact getElem?_append_of_some _ hx

theorem map_prefix_get {α β : Type} {s : α → β} {a b : List α} (h : a.map s <+: b.map s) {i : Nat}
    {x : α} (hx : a[i]? = some x) : ∃ y, b[i]? = some y ∧ s y = s x := by
  have : (a.map s)[i]? = some (s x) := by rw [List.getElem?_map, hx]; rfl
  have := prefix_get h this
  rw [List.getElem?_map, Option.map_eq_some_iff] at this
  exact this

theorem Frame.keeps {p q : Pool} (h : Frame p q) : Keeps p q where
  names n d hd := by
    obtain ⟨l, hl, _⟩ := h.names
    rw [hl]; exact lookupN_append_some _ hd
  fileNames n d hd := by
    obtain ⟨l, hl, _⟩ := h.fileNames
    rw [hl]; exact lookupN_append_some _ hd
  files _ _ hf := prefix_get h.files hf
  messages _ _ hm := map_prefix_get h.messages hm
  enums _ _ hf := prefix_get h.enums hf
  services _ _ hf := prefix_get h.services hf
  extensions _ _ hf := prefix_get h.extensions hf

theorem Like.keeps {p q : Pool} (h : Like p q) : Keeps p q where
  names n d hd := by
    obtain ⟨l, hl, _⟩ := h.names
    rw [hl]; exact lookupN_append_some _ hd
  fileNames n d hd := by rw [h.fileNames]; exact hd
  files _ _ hf := by rw [h.files]; exact hf
  messages _ _ hm := map_prefix_get (by rw [h.messages]; exact List.prefix_refl _) hm
  enums _ _ hf := by rw [h.enums]; exact hf
  services _ _ hf := by rw [h.services]; exact hf
  extensions _ _ hf := by rw [h.extensions]; exact hf

theorem forget_eq {m m' : MsgD} (h : m'.forget = m.forget) :
    m' = { m with extensions := m'.extensions } := by
  cases m; cases m'
  simp only [MsgD.forget, MsgD.mk.injEq, true_and] at h
  simp only [MsgD.mk.injEq, true_and]
  exact ⟨h.1, h.2.1, h.2.2⟩

section
variable {p q : Pool}

theorem Keeps.msgLt (h : Keeps p q) {i : Nat} (hi : i < p.messages.length) : i < q.messages.length := by
  obtain ⟨m', h1, _⟩ := h.messages i _ (List.getElem?_eq_getElem hi)
  exact getElem?_lt h1

theorem Keeps.enumLt (h : Keeps p q) {i : Nat} (hi : i < p.enums.length) : i < q.enums.length :=
  getElem?_lt (h.enums i _ (List.getElem?_eq_getElem hi))

theorem Keeps.enumsLe (h : Keeps p q) : EnumsLe p.enums q.enums :=
  fun i e he => ⟨e, h.enums i e he, rfl, rfl, rfl, rfl⟩

theorem Keeps.filesLe (h : Keeps p q) (n : Nat) : FilesLe n p.files q.files :=
  fun i f hf => ⟨f, h.files i f hf, rfl, rfl, fun _ => ⟨rfl, rfl⟩⟩

theorem Keeps.msgsLe (h : Keeps p q) : MsgsLe p.messages q.messages := by
  intro i m hm
  obtain ⟨m', h1, h2⟩ := h.messages i m hm
  have := forget_eq h2
  exact ⟨m', h1, by rw [this], by rw [this], by rw [this]; exact List.prefix_refl _, by rw [this]⟩

theorem KindOk.keeps (h : Keeps p q) {f : FieldP} {k : Kind} {g : Bool} (hk : KindOk p f k g) :
    KindOk q f k g := by
  cases hk with
  | scalar k h1 h2 => exact .scalar k h1 h2
  | message i h1 h2 => exact .message i h1 (h.msgLt h2)
  | enum i h1 h2 => exact .enum i h1 (h.enumLt h2)

theorem FieldIs.keeps {env : Env} {syn : Syn} {file : Nat} {path : Path} {full : Name} {f : FieldP}
    {n : Nat} {d : FieldD} (h : FieldIs env p syn file path full f n d) (k : Keeps p q) :
    FieldIs env q syn file path full f n d :=
  { id := h.id, number := h.number, valid := h.valid, json := h.json, kind := h.kind.keeps k,
    oneof := h.oneof, oneofLt := h.oneofLt, packed := h.packed, presence := h.presence,
    card := h.card, default := h.default.mono k.enumsLe }

theorem ExtIs.keeps {env : Env} {syn : Syn} {file : Nat} {path : Path} {full : Name} {f : FieldP}
    {parent : Option Nat} {d : ExtD} (h : ExtIs env p syn file path full parent f d)
    (k : Keeps p q) : ExtIs env q syn file path full parent f d :=
  { id := h.id, parent := h.parent, number := h.number, valid := h.valid, json := h.json,
    kind := h.kind.keeps k, extendee := k.msgLt h.extendee, packed := h.packed, card := h.card,
    default := h.default.mono k.enumsLe }

theorem map_lookup_keeps {a b : List (Name × Nat)}
    (h : ∀ n d, lookupN a n = some d → lookupN b n = some d) :
    ∀ {ns : List Name} {ds : List Nat}, ns.map (lookupN a) = ds.map some →
      ns.map (lookupN b) = ds.map some
  | [], ds, hd => hd
  | n :: ns, [], hd => by simp at hd
  | n :: ns, d :: ds, hd => by
    simp only [List.map_cons, List.cons.injEq] at hd ⊢
    exact ⟨h n d hd.1, map_lookup_keeps h hd.2⟩

theorem Declared.keeps {env : Env} {e : Event} (h : Declared env p e) (k : Keeps p q) :
    Declared env q e := by
  obtain ⟨h0, h⟩ := h
  refine ⟨fun n d hd => k.names n d (h0 n d hd), ?_⟩
  cases e with
  | file path i f =>
    obtain ⟨⟨fd, h1, h2, h3, h4, h5, h6, h7⟩, h8, h9⟩ := h
    refine ⟨⟨fd, k.files _ _ h1, h2, h3, h4, map_lookup_keeps k.fileNames h5, h6, h7⟩,
      k.fileNames _ _ h8, fun n hn => ?_⟩
    obtain ⟨d, g1, g2⟩ := h9 n hn
    exact ⟨d, k.names _ _ g1, g2⟩
  | message path full file parent i m =>
    obtain ⟨⟨md, h1, h2, h3, h4, h5, h6⟩, fd, h7, h8⟩ := h
    obtain ⟨md', g1, g2⟩ := k.messages _ _ h1
    have e := forget_eq g2
    refine ⟨⟨md', g1, by rw [e]; exact h2, by rw [e]; exact h3, by rw [e]; exact h4,
      by rw [e]; exact h5, ?_⟩, fd, k.files _ _ h7, h8⟩
    exact h6.congr (by rw [e]) (by rw [e]) (by rw [e]) (by rw [e]) (by rw [e])
  | field path full file j i f =>
    obtain ⟨fd, md, d, h1, h2, h3, h4, h5⟩ := h
    obtain ⟨md', g1, g2⟩ := k.messages _ _ h2
    have e := forget_eq g2
    refine ⟨fd, md', d, k.files _ _ h1, g1, by rw [e]; exact h3,
      h4.mono k.msgsLe (k.filesLe 0), ?_⟩
    rw [show md'.oneofs = md.oneofs by rw [e]]
    exact h5.keeps k
  | oneof path full file j i o =>
    obtain ⟨md, od, h1, h2, h3⟩ := h
    obtain ⟨md', g1, g2⟩ := k.messages _ _ h1
    have e := forget_eq g2
    exact ⟨md', od, g1, by rw [e]; exact h2, h3⟩
  | enum path full file parent i en =>
    obtain ⟨⟨ed, h1, h2⟩, fd, h3, h4⟩ := h
    exact ⟨⟨ed, k.enums _ _ h1, h2⟩, fd, k.files _ _ h3, h4⟩
  | enumValue path full file j i v =>
    obtain ⟨ed, fd, ep, h1, h2, h3, h4⟩ := h
    exact ⟨ed, fd, ep, k.enums _ _ h1, h2, k.files _ _ h3, h4⟩
  | service path full file i s =>
    obtain ⟨sd, h1, h2⟩ := h
    exact ⟨sd, k.services _ _ h1, h2⟩
  | method path full file j i m =>
    obtain ⟨sd, d, h1, h2, h3, h4, h5⟩ := h
    exact ⟨sd, d, k.services _ _ h1, h2, h3, k.msgLt h4, k.msgLt h5⟩
  | extension path full file parent i f =>
    obtain ⟨fd, d, h1, h2, h3, h4⟩ := h
    exact ⟨fd, d, k.files _ _ h1, k.extensions _ _ h2, h3.mono k.msgsLe (k.filesLe 0), h4.keeps k⟩
end

/-! After the second pass. -/

/-- The third pass and the sealing change nothing but the files. -/
structure Sealed (n : Nat) (p q : Pool) : Prop where
  same : q = { p with files := q.files }
  len : q.files.length = p.files.length
  old : ∀ (i : Nat) f, i < n → p.files[i]? = some f → q.files[i]? = some f
  new : ∀ (i : Nat) f, n ≤ i → p.files[i]? = some f → ∃ f', q.files[i]? = some f' ∧
    f'.syn = f.syn ∧ f'.deps = f.deps ∧ f'.trans = f.trans ∧ stripFile f'.raw = stripFile f.raw ∧
    f'.prost = f'.raw

theorem apply_sealed {env : Env} {p : Pool} {fs : List FileP} {q r : Pool} {st : St}
    (h : runPass (applyOpt env r) ⟨q, []⟩ (visit p.offs fs) = .ok st) :
    Sealed p.offs.file q { st.pool with files := sealFiles p.offs.file st.pool.files } := by
  obtain ⟨c, hc, _⟩ := run_start p.offs fs
  have inv := pass_inv (o := p.offs)
    (fun _ c st => st.pool = { q with files := st.pool.files } ∧
      st.pool.files.length = q.files.length ∧
      ∀ (i : Nat) f, q.files[i]? = some f → ∃ f', st.pool.files[i]? = some f' ∧ Alike f f' ∧
        (i < p.offs.file → f' = f)) ?_ _ [] _ _ _ _ hc ?_ h
  · obtain ⟨h1, h2, h3⟩ := inv
    refine ⟨?_, ?_, ?_, ?_⟩
    · simp only; rw [h1]
    · simp only [sealFiles, List.length_append, List.length_map, List.length_take, List.length_drop]
      omega
    · intro i f hi hf
      obtain ⟨f', g1, _, g3⟩ := h3 i f hf
      rw [g3 hi] at g1
      simp only [sealFiles]
      have hl := getElem?_lt g1
      rw [List.getElem?_append_left (by rw [List.length_take]; omega), List.getElem?_take_of_lt hi]
      exact g1
    · intro i f hi hf
      obtain ⟨f', g1, g2, _⟩ := h3 i f hf
      have hl := getElem?_lt g1
      have hlt : (st.pool.files.take p.offs.file).length = p.offs.file := by
        rw [List.length_take]; omega
      refine ⟨{ f' with prost := f'.raw }, ?_, g2.syn, g2.deps, g2.trans, g2.raw, rfl⟩
      simp only [sealFiles]
      rw [List.getElem?_append_right (by omega), hlt, List.getElem?_map, List.getElem?_drop,
        show p.offs.file + (i - p.offs.file) = i by omega, g1]
      rfl
  · intro pre c st e c' st' hcs ⟨h1, h2, h3⟩ hs
    rcases applyOpt_raw hs with rfl | ⟨file, g1, g2, _⟩
    · exact ⟨h1, h2, h3⟩
    · have hb := g1 _ _ _ hcs
      refine ⟨?_, g2.len.trans h2, ?_⟩
      · have := g2.pool
        rw [this, h1]
      · intro i f hf
        obtain ⟨f1, k1, k2, k3⟩ := h3 i f hf
        by_cases hif : i = file
        · subst hif
          obtain ⟨f2, l1, l2⟩ := g2.alike f1 k1
          exact ⟨f2, l1, k2.comp l2, fun hlt => absurd hb.1 (by omega)⟩
        · exact ⟨f1, by rw [g2.other i hif]; exact k1, k2, k3⟩
  · exact ⟨rfl, rfl, fun i f hf => ⟨f, hf, Alike.refl f, fun _ => rfl⟩⟩

theorem Sealed.filesLe {n : Nat} {p q : Pool} (h : Sealed n p q) (m : Nat) :
    FilesLe m p.files q.files := by
  intro i f hf
  by_cases hi : i < n
  · exact ⟨f, h.old i f hi hf, rfl, rfl, fun _ => ⟨rfl, rfl⟩⟩
  · obtain ⟨f', g1, g2, g3, g4, g5, _⟩ := h.new i f (by omega) hf
    exact ⟨f', g1, g2, g5, fun _ => ⟨g3, g4⟩⟩

theorem Sealed.mono {n : Nat} {p q : Pool} (h : Sealed n p q) (m : Nat) : Mono2 m p q := by
  have e := h.same
  refine ⟨?_, ?_, h.len, h.filesLe m, ?_, ?_, ?_, ?_, ?_, ?_⟩ <;> rw [e]
  · exact MsgsLe.refl _
  · exact EnumsLe.refl _
  · exact SvcsLe.refl _
  · exact List.prefix_refl _

end Verif.Pool
