import Verif.Pool.Accept2
/-!
During the second pass over valid files the pool describes all files, and nothing is reported.
-/
set_option autoImplicit false
namespace Verif.Pool
open Verif.Wire Verif.Dyn

/-- A pool during the second pass, as far as references to declarations go. -/
structure Mid (all : List FileP) (q : Pool) : Prop where
  names : NamesAre all q.names
  files : FilesAre all q.files q.fileNames
  msgs : ∀ {path full fi par k m}, .message path full fi par k m ∈ visit {} all →
    ∃ md, q.messages[k]? = some md ∧ md.id = Ident.mk' fi path full m.name
  enums : ∀ {path full fi par k e}, .enum path full fi par k e ∈ visit {} all →
    ∃ ed, q.enums[k]? = some ed ∧ ∀ v ∈ e.values, ∃ w ∈ ed.values, w.id.name = v.name

section
variable {env : Env} {acc fs all : List FileP} {p q q0 : Pool} {vis : Nat → Nat → Prop}

theorem mid_of (h : Desc env acc p) {cE : Cnt} (hN : Names1 p (visit p.offs fs) cE q0)
    (hcf : cE.file = p.files.length + fs.length) (hfr : Frame p q) {pre : List Event} {c : Cnt}
    (I : Pass2 env p.offs q0 (visit p.offs fs) cE pre c q) : Mid (acc ++ fs) q := by
  have hk := hfr.keeps
  have hall : visit {} (acc ++ fs) = visit {} acc ++ visit p.offs fs := by
    rw [visit_append, h.offs]
  have hlen : acc.length = p.files.length := by
    have := congrArg Offs.file h.offs
    rw [offsAfter_file] at this
    have h1 : p.offs.file = p.files.length := rfl
    have h2 : ({} : Offs).file = 0 := rfl
    omega
  have hol : p.offs.file = acc.length := hlen.symm
  have hat : ∀ {i : Nat} {f : FileP}, (acc ++ fs)[i]? = some f →
      (∃ fd, q.files[i]? = some fd ∧ stripFile fd.raw = stripFile f) ∧
      lookupN q.fileNames f.name = some i ∧
      ∀ n ∈ packageNames f.package, ∃ d, lookupN q.names n = some d ∧ d.kind = .package := by
    intro i f hf
    by_cases hi : i < acc.length
    · rw [List.getElem?_append_left hi] at hf
      obtain ⟨fd, h1, h2⟩ := h.filesAre.at' hf
      refine ⟨⟨fd, hk.files _ _ h1, h2⟩, hk.fileNames _ _ (h.filesAre.name_iff.2 ⟨f, hf, rfl⟩), ?_⟩
      intro n hn
      obtain ⟨d, g1, g2⟩ := h.namesAre.pkgs f (List.mem_of_getElem? hf) n hn
      exact ⟨d, hk.names _ _ g1, g2⟩
    · rw [List.getElem?_append_right (by omega)] at hf
      have hv := visit_files fs p.offs _ f hf
      rw [hol, show acc.length + (i - acc.length) = i by omega] at hv
      obtain ⟨_, ⟨fd, h1, _, h2⟩, h3, h4⟩ := I.evs1 _ hv
      exact ⟨⟨fd, h1, h2⟩, h3, h4⟩
  refine ⟨⟨?_, ?_, ?_⟩, ⟨fun hf => (hat hf).1, ?_, ?_⟩, ?_, ?_⟩
  · intro e he n d hd
    rw [hall, List.mem_append] at he
    rcases he with he | he
    · exact hk.names _ _ ((h.evs _ he).1 _ _ hd)
    · exact (I.evs1 _ he).1 _ _ hd
  · intro f hf
    obtain ⟨i, hi⟩ := List.getElem?_of_mem hf
    exact (hat hi).2.2
  · intro x hx
    rw [I.names] at hx
    obtain ⟨l, g1, g2⟩ := hN.src.names
    rw [g1, List.mem_append] at hx
    rcases hx with hx | hx
    · rcases h.names x hx with ⟨e, he, hd⟩ | ⟨hk, h0 | ⟨f, hf, hp⟩⟩
      · exact .inl ⟨e, by rw [hall]; exact List.mem_append_left _ he, hd⟩
      · exact .inr ⟨hk, .inl h0⟩
      · exact .inr ⟨hk, .inr ⟨f, List.mem_append_left _ hf, hp⟩⟩
    · rcases (g2 x hx).2 with ⟨e, he, hd⟩ | ⟨path, i, f, hf, hp, hd⟩
      · exact .inl ⟨e, by rw [hall]; exact List.mem_append_right _ he, hd⟩
      · obtain ⟨j, _, hj⟩ := file_at hf
        exact .inr ⟨by rw [hd], .inr ⟨f, List.mem_append_right _ (List.mem_of_getElem? hj), hp⟩⟩
  · intro i fd hfd
    have hlt := getElem?_lt hfd
    rw [I.filesLen, hN.len.files, hcf, ← hlen] at hlt
    have hlt : i < (acc ++ fs).length := by rw [List.length_append]; exact hlt
    obtain ⟨⟨fd', h1, h2⟩, _⟩ := hat (List.getElem?_eq_getElem hlt)
    rw [hfd] at h1; cases h1
    exact ⟨_, List.getElem?_eq_getElem hlt, h2⟩
  · intro n i
    constructor
    · intro hl
      have hm := lookupN_mem hl
      rw [I.fileNames] at hm
      obtain ⟨l, g1, g2⟩ := hN.src.fileNames
      rw [g1, List.mem_append] at hm
      rcases hm with hm | hm
      · obtain ⟨f, h1, h2⟩ := h.fileNames _ hm
        exact ⟨f, getElem?_append_of_some _ h1, h2⟩
      · obtain ⟨_, path, f, hf, h2⟩ := g2 _ hm
        obtain ⟨j, h3, h4⟩ := file_at hf
        refine ⟨f, ?_, h2⟩
        simp only at h3
        rw [h3, hol, List.getElem?_append_right (by omega), Nat.add_sub_cancel_left]
        exact h4
    · rintro ⟨f, hf, rfl⟩
      exact (hat hf).2.1
  · intro path full fi par k m he
    rw [hall, List.mem_append] at he
    rcases he with he | he
    · obtain ⟨_, ⟨md, h1, h2, _⟩, _⟩ := h.evs _ he
      obtain ⟨md', g1, g2⟩ := hk.messages _ _ h1
      exact ⟨md', g1, by rw [forget_eq g2]; exact h2⟩
    · obtain ⟨_, ⟨md, h1, h2, _⟩, _⟩ := I.evs1 _ he
      exact ⟨md, h1, h2⟩
  · intro path full fi par k e he
    rw [hall, List.mem_append] at he
    rcases he with he | he
    · obtain ⟨_, ⟨ed, h1, _⟩, _⟩ := h.evs _ he
      refine ⟨ed, hk.enums _ _ h1, fun v hv => ?_⟩
      obtain ⟨i, hi⟩ := List.getElem?_of_mem hv
      obtain ⟨s, _, hf⟩ := visit_full _ _ _ he
      obtain ⟨_, ed', _, _, h2, h3, _⟩ := h.evs _ (hf i v hi)
      rw [h1] at h2; cases h2
      exact ⟨_, List.mem_of_getElem? h3, Ident.mk'_name ..⟩
    · obtain ⟨_, ⟨ed, h1, _⟩, _⟩ := I.evs1 _ he
      refine ⟨ed, h1, fun v hv => ?_⟩
      obtain ⟨i, hi⟩ := List.getElem?_of_mem hv
      obtain ⟨s, _, hf⟩ := visit_full _ _ _ he
      obtain ⟨_, ed', h2, h3⟩ := I.evs1 _ (hf i v hi)
      rw [h1] at h2; cases h2
      exact ⟨_, List.mem_of_getElem? h3, Ident.mk'_name ..⟩

/-! References. -/

theorem Mid.event_at (M : Mid all q) {j : Nat} {n : Name} {x : Item} {d : Def}
    (hd : DeclaredAs all j n x) (hl : lookupN q.names n = some d) :
    ∃ e ∈ visit {} all, ∃ path, e.item = some (j, path, n, x) ∧ e.defn = some (n, d) := by
  obtain ⟨f, path, s, h1, h2, rfl⟩ := hd
  obtain ⟨e, he, hx⟩ := has_visited (o := {}) h1 h2
  have h0 : ({} : Offs).file = 0 := rfl
  rw [h0, Nat.zero_add] at hx
  obtain ⟨k, hk, ht⟩ := Event.item_tag hx
  have := M.names.defs _ he _ _ hk
  rw [hl] at this; cases this
  exact ⟨e, he, path, hx, hk⟩

/-- The number of a field or extension fits the declaration of the message. -/
theorem Mid.number_ok (M : Mid all q) {path : Path} {full : Name} {fi k : Nat} {par : Option Nat}
    {m : MsgP} (he : .message path full fi par k m ∈ visit {} all) {f : FieldP} (hn : NumberOk m f) :
    NumberOkIn q k f := by
  obtain ⟨md, h1, h2⟩ := M.msgs he
  obtain ⟨j, g, s, h3, h4, _, h5⟩ := visited_has he rfl
  have h0 : ({} : Offs).file = 0 := rfl
  rw [h0, Nat.zero_add] at h3
  subst h3
  obtain ⟨fd, h6, h7⟩ := M.files.at' h4
  obtain ⟨mp, h8, h9⟩ := findMsg_strip_mono h7 h5.found.2
  obtain ⟨r1, r2⟩ := strip_ranges h9
  refine ⟨md, fd, mp, h1, by rw [h2]; exact h6, by rw [h2]; exact h8, hn.valid, ?_, ?_⟩
  · rw [r1]; exact hn.reserved
  · rw [r2]; exact hn.ext

theorem Mid.message_ok (M : Mid all q) {deps : List Nat} {scope name n : Name} (hs : scope ≠ [])
    (hr : Refers all (· ∈ deps) false scope name n) :
    ∃ k, MessageOk deps q.names scope name k ∧ ∃ d, lookupN q.names n = some d ∧ d.kind = .message k := by
  obtain ⟨d, hd⟩ := (M.names.resolve_iff (enums := false) hs).2 hr
  have hf := resolveName_found hd
  obtain ⟨fi, path, k⟩ := d
  cases k with
  | message k => exact ⟨k, ⟨n, _, hd, rfl⟩, _, hf.1, rfl⟩
  | _ => cases hf.2.2

theorem scalar_default {k : Kind} {ty : PType} (h : scalarKind ty = some k) (s : Name) (enums : List EnumD) :
    defaultOf env enums k s = parseSimple env.fp env.checks k s := by
  cases ty <;> simp only [scalarKind, Option.some.injEq, reduceCtorEq] at h <;> subst h <;> rfl

theorem Mid.type_ok (M : Mid all q) {deps : List Nat} {scope : Name} {f : FieldP} (hs : scope ≠ [])
    (ht : TypeValid all (· ∈ deps) scope f) (hd : DefaultValid env all (· ∈ deps) scope f) :
    ∃ kd g v, TypeOk deps q.names scope f kd g ∧ DefaultOk env q.enums kd f.default v := by
  by_cases h0 : f.typeName = []
  · obtain ⟨k, hk⟩ := Option.ne_none_iff_exists'.1 (ht.1 h0)
    cases hdf : f.default with
    | none => exact ⟨k, false, none, .scalar k h0 hk, rfl⟩
    | some s =>
      obtain ⟨k', v, h1, h2⟩ := (hd s hdf).1 h0
      rw [hk] at h1; cases h1
      exact ⟨k, false, some v, .scalar k h0 hk, v, rfl, by rw [scalar_default hk]; exact h2⟩
  · obtain ⟨n, hr⟩ := ht.2 h0
    obtain ⟨d, hd'⟩ := (M.names.resolve_iff (enums := true) hs).2 hr
    have hf := resolveName_found hd'
    cases hdf : f.default with
    | none =>
      obtain ⟨fi, path, k⟩ := d
      cases k with
      | message k => exact ⟨_, _, none, .message n _ k h0 hd' rfl, rfl⟩
      | enum k => exact ⟨_, _, none, .enum n _ k h0 hd' rfl, rfl⟩
      | _ => cases hf.2.2
    | some s =>
      obtain ⟨n', j, e, h1, h2, v, hv, hvs⟩ := (hd s hdf).2 h0
      rw [h1.unique hr] at h2
      obtain ⟨ev, hev, path, hi, hdn⟩ := M.event_at h2 hf.1
      cases ev <;> simp only [Event.item, Option.some.injEq, Prod.mk.injEq, reduceCtorEq, and_false,
        Item.enum.injEq] at hi
      obtain ⟨rfl, rfl, rfl, rfl⟩ := hi
      simp only [Event.defn, Option.some.injEq, Prod.mk.injEq, true_and] at hdn
      subst hdn
      obtain ⟨ed, hed, hvals⟩ := M.enums hev
      obtain ⟨w, hw, hwn⟩ := hvals v hv
      cases hfind : ed.values.find? (fun v => v.id.name == s) with
      | none =>
        rw [List.find?_eq_none] at hfind
        exact absurd (by rw [hwn, hvs]; simp) (hfind w hw)
      | some x =>
        have hx : ∀ k : Nat, q.enums[k]? = some ed → defaultOf env q.enums (.enum k) s =
            .ok (some (.enum (BitVec.ofInt 32 x.number))) := fun k hk => by
          simp only [defaultOf, hk, hfind, Option.map_some]
        exact ⟨_, _, some _, .enum _ _ _ h0 hd' rfl, _, rfl, hx _ hed⟩

/-! The callbacks. -/

/-- The files are valid when every file may refer to the set its imports give. -/
structure ValidAs (env : Env) (acc fs : List FileP) : Prop where
  any : ∃ vis, Valid env acc fs vis
  each : ∀ {q : Pool}, FilesAre (acc ++ fs) q.files q.fileNames → ∀ {j : Nat} {f : FileP} {deps tr : List Nat},
    fs[j]? = some f → f.deps.map (lookupN q.fileNames) = deps.map some →
    visLoop q.files q.fileNames env.stack deps [acc.length + j] = .ok tr →
    ∃ vis, Valid env acc fs vis ∧ vis (acc.length + j) = (· ∈ tr)

/-- It is enough that the files are valid for all sets between the two notions of visibility. -/
theorem ValidAs.of_between (hv : ∀ vis, Between (acc ++ fs) vis → Valid env acc fs vis) : ValidAs env acc fs where
  any := ⟨_, hv (NearlyVisible (acc ++ fs)) fun i j => ⟨id, fun h => h.visible⟩⟩
  each := by
    intro q M j f deps tr h2 g2 g3
    have hf : (acc ++ fs)[acc.length + j]? = some f := by
      rw [List.getElem?_append_right (by omega), Nat.add_sub_cancel_left]; exact h2
    obtain ⟨t1, t2⟩ := M.trans_of hf g2 g3
    refine ⟨fun i k => if i = acc.length + j then k ∈ tr else NearlyVisible (acc ++ fs) i k, hv _ ?_, ?_⟩
    · intro i k
      by_cases hi : i = acc.length + j
      · subst hi
        simp only [if_true]
        exact ⟨t2 k, t1 k⟩
      · simp only [if_neg hi]
        exact ⟨id, fun h => h.visible⟩
    · funext k
      simp only [if_true]

/-- The files are valid when a file that has been visited may refer to the set it was given. -/
theorem visited_vis (h : Desc env acc p) (M : Mid (acc ++ fs) q) {pre : List Event}
    (hpre : ∀ x ∈ pre, x ∈ visit p.offs fs) {c cE : Cnt}
    (hc : Cnt.run p.offs (Cnt.start p.offs) pre = some c)
    (I : Pass2 env p.offs q0 (visit p.offs fs) cE pre c q) {file : Nat}
    (hb : between p.offs.file file c.file) (hv : ValidAs env acc fs) :
    ∃ j f fd, file = acc.length + j ∧ fs[j]? = some f ∧ q.files[file]? = some fd ∧
      ∃ vis, Valid env acc fs vis ∧ vis file = (· ∈ fd.trans) := by
  have hol : p.offs.file = acc.length := by
    have := congrArg Offs.file h.offs
    rw [offsAfter_file] at this
    have h2 : ({} : Offs).file = 0 := rfl
    omega
  obtain ⟨x, hx, hsel⟩ := (tally_file p.offs).ex hc hb.1 hb.2
  cases x <;> simp only [selFile, Option.some.injEq, reduceCtorEq] at hsel
  next path index f =>
  subst hsel
  obtain ⟨j, h1, h2⟩ := file_at (hpre _ hx)
  obtain ⟨fd, g1, _, g2, g3, _⟩ := I.evs2 _ hx
  rw [hol] at h1
  rw [h1] at g1 g3
  obtain ⟨vis, h4, h5⟩ := hv.each M.files h2 g2 g3
  exact ⟨j, _, fd, h1, h2, by rw [h1]; exact g1, vis, h4, by rw [h1]; exact h5⟩

theorem resolveFine (hsr : SearchOk env.search)
    (hv : ValidAs env acc fs) (h : Desc env acc p)
    (hne : [] ∉ fs.flatMap fileDecls) {cE : Cnt}
    (hcE : Cnt.run p.offs (Cnt.start p.offs) (visit p.offs fs) = some cE)
    (M : Mid (acc ++ fs) q)
    {pre post : List Event} {e : Event} (hev : pre ++ e :: post = visit p.offs fs) {c c' : Cnt}
    (hc : Cnt.run p.offs (Cnt.start p.offs) pre = some c) (hcs : c.step p.offs e = some c')
    (I : Pass2 env p.offs q0 (visit p.offs fs) cE pre c q) : ResolveFine env q e := by
  have he : e ∈ visit p.offs fs := by rw [← hev]; simp
  have hpre : ∀ x ∈ pre, x ∈ visit p.offs fs := fun x hx => by rw [← hev]; simp [hx]
  have hall : ∀ x ∈ visit p.offs fs, x ∈ visit {} (acc ++ fs) := fun x hx => by
    rw [visit_append, ← h.offs]; exact List.mem_append_right _ hx
  obtain ⟨_, v0⟩ := hv.any
  have hne' : ∀ {x : Event} {n d}, x ∈ visit p.offs fs → x.defn = some (n, d) → n ≠ [] := by
    rintro x n d hx hd rfl
    exact hne ((mem_decls (o := p.offs)).2 ⟨_, hx, _, hd⟩)
  have hol : p.offs.file = acc.length := by
    have := congrArg Offs.file h.offs
    rw [offsAfter_file] at this
    have h2 : ({} : Offs).file = 0 := rfl
    omega
  cases e with
  | file path i f =>
    obtain ⟨j, _, hj⟩ := file_at he
    have hm := List.mem_of_getElem? hj
    refine ⟨fun n hn hl => ?_, v0.importIdx f hm⟩
    obtain ⟨g, hg, rfl⟩ := v0.imports f hm n hn
    obtain ⟨k, hk⟩ := List.getElem?_of_mem hg
    have := M.files.name_iff.2 ⟨g, hk, rfl⟩
    rw [hl] at this; cases this
  | message => trivial
  | oneof => trivial
  | enum => trivial
  | service => trivial
  | method path full file k i m =>
    simp only [Cnt.step] at hcs
    split at hcs
    case isFalse => cases hcs
    case isTrue hi =>
    obtain ⟨j, f, fd, h1, h2, h3, vis, h4, h5⟩ := visited_vis h M hpre hc I hi.2.2 hv
    obtain ⟨j', f', s, g1, g2, g3, g4⟩ := visited_has he rfl
    have : j' = j := by rw [hol] at g1; omega
    subst this
    rw [h2] at g2; cases g2
    obtain ⟨⟨a, ha⟩, b, hb⟩ := h4.methods _ _ h2 _ _ _ g4
    have hs : full ≠ [] := hne' he rfl
    rw [← h1, h5] at ha hb
    simp only [Item.name] at g3
    rw [← g3] at ha hb
    obtain ⟨ka, ha, _⟩ := M.message_ok hs ha
    obtain ⟨kb, hb, _⟩ := M.message_ok hs hb
    exact ⟨fd, ka, kb, h3, ha, hb⟩
  | extension path full file parent i x =>
    simp only [Cnt.step] at hcs
    split at hcs
    case isFalse => cases hcs
    case isTrue hi =>
    obtain ⟨j, f, fd, h1, h2, h3, vis, h4, h5⟩ := visited_vis h M hpre hc I hi.2.1 hv
    obtain ⟨j', f', s, g1, g2, g3, g4⟩ := visited_has he rfl
    have : j' = j := by rw [hol] at g1; omega
    subst this
    rw [h2] at g2; cases g2
    have ev := h4.exts _ _ h2 _ _ _ g4
    have hs : full ≠ [] := hne' he rfl
    rw [← h1, h5] at ev
    simp only [Item.name] at g3
    rw [← g3] at ev
    obtain ⟨n, jn, m, e1, e2, e3⟩ := ev.extendee
    obtain ⟨k, k1, d, k2, k3⟩ := M.message_ok hs e1
    obtain ⟨ev', hev', path', hi', hdn⟩ := M.event_at e2 k2
    cases ev' <;> simp only [Event.item, Option.some.injEq, Prod.mk.injEq, reduceCtorEq, and_false,
      Item.message.injEq] at hi'
    obtain ⟨rfl, rfl, rfl, rfl⟩ := hi'
    simp only [Event.defn, Option.some.injEq, Prod.mk.injEq, true_and] at hdn
    subst hdn
    simp only [DefKind.message.injEq] at k3
    subst k3
    obtain ⟨kd, g, w, t1, t2⟩ := M.type_ok hs ev.type ev.default
    exact ⟨fd, _, kd, g, w, h3, k1, M.number_ok hev' e3, t1, t2⟩
  | field path full file k i x =>
    simp only [Cnt.step] at hcs
    split at hcs
    case isFalse => cases hcs
    case isTrue hi =>
    obtain ⟨j, f, fd, h1, h2, h3, vis, h4, h5⟩ := visited_vis h M hpre hc I hi.2.2 hv
    rcases visit_inner _ _ _ he with ⟨_, _, _, ht⟩ | ⟨qpath, qfull, qpar, qm, i1, i2, i3, i4⟩
    · exact ht.elim
    obtain ⟨j', f', s, g1, g2, g3, g4⟩ := visited_has i1 rfl
    have : j' = j := by rw [hol] at g1; omega
    subst this
    rw [h2] at g2; cases g2
    have mv := h4.messages _ _ h2 _ _ _ g4
    have hs : full ≠ [] := hne' he rfl
    rw [← h1, h5] at mv
    simp only [Item.name] at g3
    rw [← g3] at mv
    have fv := mv.fields x (List.mem_of_getElem? i4)
    have hfull : qualified qfull x.name = full := by rw [qualified_eq, i3]
    obtain ⟨kd, g, w, t1, t2⟩ := M.type_ok (env := env) hs (hfull ▸ fv.type) (hfull ▸ fv.default)
    obtain ⟨_, ⟨md, m1, _, _, m2⟩, _⟩ := I.evs1 _ i1
    obtain ⟨mo, ml⟩ := I.msgs k md hi.2.1.1 m1
    have hcount := count_oneofs hcE i1
    -- an earlier field of the message
    have earlier : ∀ {i' : Nat} {d : FieldD}, md.fields[i']? = some d → ∃ path' f',
        .field path' (pushScope qfull f'.name) file k i' f' ∈ visit p.offs fs ∧
        path' = qpath ++ [Tag.msgField, i'] ∧ qm.fields[i']? = some f' ∧ i' < i ∧
        (d.number : Int) = f'.number ∧ d.jsonName = jsonOf f' ∧ d.id.name = f'.name := by
      intro i' d hd
      have hlt := getElem?_lt hd
      rw [ml] at hlt
      obtain ⟨y, hy, hsel⟩ := (tally_field p.offs k).ex hc (i := i') (Nat.zero_le _) hlt
      cases y <;> simp only [selField, reduceCtorEq] at hsel
      split at hsel
      case isFalse => cases hsel
      case isTrue hk =>
      cases hsel
      subst hk
      rcases visit_inner _ _ _ (hpre _ hy) with ⟨_, _, _, ht⟩ | ⟨rpath, rfull, rpar, rm, r1, r2, r3, r4⟩
      · exact ht.elim
      have := (tally_message p.offs).uniq hcE i1 r1 rfl rfl
      simp only [Event.message.injEq] at this
      obtain ⟨rfl, rfl, rfl, rfl, _, rfl⟩ := this
      obtain ⟨_, md', d', _, _, e3, e4, _, e6⟩ := I.evs2 _ hy
      rw [m1] at e3; cases e3
      rw [hd] at e4; cases e4
      subst r3
      refine ⟨_, _, hpre _ hy, r2, r4, by rw [hi.1]; exact hlt, e6.number, e6.json, ?_⟩
      rw [e6.id, Ident.mk'_name]
    refine ⟨M.number_ok (hall _ i1) fv.number, fd, md, kd, g, w, h3, m1, t1, t2, ?_, ?_, ?_, ?_⟩
    · intro jo hjo
      have := fv.oneof jo hjo
      rw [m2, hcount]; exact this
    · cases hl : SMap.get? md.fieldNumbers (asU32 x.number) with
      | none => rfl
      | some i' =>
        obtain ⟨d, d1, d2⟩ := (mo.numbers _ _).1 hl
        obtain ⟨_, f', _, _, b1, b2, b3, _⟩ := earlier d1
        have : f'.number = x.number := by
          rw [← b3, d2]; exact asU32_of_ok fv.number.valid
        have := nodup_at mv.numbers b1 i4 this
        omega
    · cases hl : lookupN md.fieldNames x.name with
      | none => rfl
      | some i' =>
        obtain ⟨d, d1, d2⟩ := (mo.names _ _).1 hl
        obtain ⟨_, f', b0, b01, b1, b2, _, _, b3⟩ := earlier d1
        have hn : f'.name = x.name := b3.symm.trans d2
        have e1 := M.names.defs _ (hall _ b0) _ _ rfl
        have e2 := M.names.defs _ (hall _ he) _ _ rfl
        rw [hn, ← i3, e2] at e1
        simp only [Option.some.injEq, Def.mk.injEq, true_and, and_true] at e1
        rw [b01, i2] at e1
        simp only [List.append_cancel_left_eq, List.cons.injEq, and_true, true_and] at e1
        omega
    · cases hl : lookupN md.fieldJsonNames (jsonOf x) with
      | none => rfl
      | some i' =>
        obtain ⟨d, d1, d2⟩ := (mo.jsons _ _).1 hl
        obtain ⟨_, f', _, _, b1, b2, _, b3, _⟩ := earlier d1
        have := nodup_at mv.jsons b1 i4 (b3.symm.trans d2)
        omega
  | enumValue path full file k i x =>
    simp only [Cnt.step] at hcs
    split at hcs
    case isFalse => cases hcs
    case isTrue hi =>
    rcases visit_inner _ _ _ he with ⟨_, _, _, ht⟩ | ⟨scope, qpath, qpar, qe, i1, i2, i3, i4⟩
    · exact ht.elim
    obtain ⟨j, f, s, g1, g2, g3, g4⟩ := visited_has i1 rfl
    have ev := v0.enums f (List.mem_of_getElem? g2) _ _ _ g4
    obtain ⟨_, ⟨ed, m1, m2, _, m3, _⟩, _⟩ := I.evs1 _ i1
    have eo := I.enums k ed hi.2.1.1 m1
    have earlier : ∀ {i' : Nat} {d : ValueD}, (ed.values.take (c.values k))[i']? = some d → ∃ path' f',
        .enumValue path' (pushScope scope f'.name) file k i' f' ∈ visit p.offs fs ∧
        path' = qpath ++ [Tag.enumValue, i'] ∧ qe.values[i']? = some f' ∧ i' < i ∧
        d.number = f'.number ∧ d.id.name = f'.name := by
      intro i' d hd
      have hlt := getElem?_lt hd
      rw [List.length_take] at hlt
      have hlt : i' < c.values k := by omega
      rw [List.getElem?_take_of_lt hlt] at hd
      obtain ⟨y, hy, hsel⟩ := (tally_value p.offs k).ex hc (i := i') (Nat.zero_le _) hlt
      cases y <;> simp only [selValue, reduceCtorEq] at hsel
      split at hsel
      case isFalse => cases hsel
      case isTrue hk =>
      cases hsel
      subst hk
      rcases visit_inner _ _ _ (hpre _ hy) with ⟨_, _, _, ht⟩ | ⟨rscope, rpath, rpar, re, r1, r2, r3, r4⟩
      · exact ht.elim
      have := (tally_enum p.offs).uniq hcE i1 r1 rfl rfl
      simp only [Event.enum.injEq] at this
      obtain ⟨rfl, hsc, rfl, rfl, _, rfl⟩ := this
      have := pushScope_inj hsc
      subst this
      obtain ⟨_, ed', e3, e4⟩ := I.evs1 _ (hpre _ hy)
      rw [m1] at e3; cases e3
      rw [hd] at e4; cases e4
      subst r3
      exact ⟨_, _, hpre _ hy, r2, r4, by rw [hi.1]; exact hlt, rfl, Ident.mk'_name ..⟩
    have hf : (acc ++ fs)[file]? = some f := by
      rw [g1, hol, List.getElem?_append_right (by omega), Nat.add_sub_cancel_left]; exact g2
    obtain ⟨fd, a1, a2⟩ := M.files.at' hf
    refine ⟨ed, fd, qe, m1, by rw [m2]; exact a1, ?_, ev.reserved x (List.mem_of_getElem? i4), ?_, ?_⟩
    · rw [m2, findEnum_strip_mono a2]; exact g4.found
    · intro hb
      cases hal : ed.allowAlias with
      | true => rfl
      | false =>
        cases hr : env.search ed.valueNumbers x.number with
        | mk b idx =>
          rw [hr] at hb
          simp only at hb
          subst hb
          obtain ⟨i', hi'⟩ := hsr.hit _ _ _ eo.asc hr
          obtain ⟨d, d1, d2⟩ := (eo.numbers _).1 (List.mem_of_getElem? hi')
          obtain ⟨_, f', _, _, b1, b2, b3, _⟩ := earlier d1
          have := nodup_at (ev.numbers (by rw [← m3]; exact hal)) b1 i4 (b3.symm.trans d2)
          omega
    · cases hl : lookupN ed.valueNames x.name with
      | none => rfl
      | some i' =>
        obtain ⟨d, d1, d2⟩ := (eo.names _ _).1 hl
        obtain ⟨_, f', b0, b01, b1, b2, _, b3⟩ := earlier d1
        have hn : f'.name = x.name := b3.symm.trans d2
        have e1 := M.names.defs _ (hall _ b0) _ _ rfl
        have e2 := M.names.defs _ (hall _ he) _ _ rfl
        rw [hn, ← i3, e2] at e1
        simp only [Option.some.injEq, Def.mk.injEq, true_and, and_true] at e1
        rw [b01, i2] at e1
        simp only [List.append_cancel_left_eq, List.cons.injEq, and_true, true_and] at e1
        omega

end
end Verif.Pool
