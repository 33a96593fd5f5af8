import Verif.Pool.Located
/-!
Facts about numbers, tables and extension lists in terms of the declarations.
-/
set_option autoImplicit false
namespace Verif.Pool
open Verif.Wire Verif.Dyn

/-- Histories without failed additions. -/
inductive Accepts (env : Env) : List FileP → Pool → Prop where
  | empty : Accepts env [] Pool.empty
  | accept (acc : List FileP) (p : Pool) (fs : List FileP) (q : Pool) :
      Accepts env acc p → buildFiles env p fs = .ok ⟨q, []⟩ →
      Accepts env (acc ++ fs.filter fun f => (lookupN p.fileNames f.name).isNone) q

theorem Accepts.hist {env : Env} {acc : List FileP} {p : Pool} (h : Accepts env acc p) :
    Hist env acc p := by
  induction h with
  | empty => exact .empty
  | accept acc p fs q _ hb ih => exact .accept acc p fs q ih hb

/-- The extension list of a message is the ascending list of the extensions that extend it. -/
def ExtsExact (p : Pool) : Prop :=
  ∀ (k : Nat) m, p.messages[k]? = some m → m.extensions.Pairwise (· < ·) ∧
    ∀ e, e ∈ m.extensions ↔ ∃ d, p.extensions[e]? = some d ∧ d.extendee = k

theorem Accepts.exts {env : Env} (hsr : SearchOk env.search) {acc : List FileP} {p : Pool}
    (h : Accepts env acc p) : ExtsExact p := by
  induction h with
  | empty => intro k m hm; simp [Pool.empty] at hm
  | accept acc p fs q hp hb ih =>
    rcases buildFiles_accept hsr (hp.hist.desc hsr).ok hb with ⟨_, rfl⟩ | ha
    · exact ih
    · intro k m' hm'
      by_cases hlt : k < p.messages.length
      · have hm := List.getElem?_eq_getElem hlt
        obtain ⟨a1, a2⟩ := ih k _ hm
        obtain ⟨r, h1, h2, h3⟩ := ha.exts k _ m' hm hm'
        rw [h1]
        refine ⟨?_, ?_⟩
        · rw [List.pairwise_append]
          refine ⟨a1, h2, ?_⟩
          intro a ha' b hb'
          obtain ⟨d, hd, _⟩ := (a2 a).1 ha'
          have := getElem?_lt hd
          have := ((h3 b).1 hb').1
          omega
        · intro e
          rw [List.mem_append, a2, h3]
          constructor
          · rintro (⟨d, hd, hk⟩ | ⟨_, hd⟩)
            · exact ⟨d, ha.frame.keeps.extensions _ _ hd, hk⟩
            · exact hd
          · rintro ⟨d, hd, hk⟩
            by_cases he : e < p.extensions.length
            · left
              have h4 := List.getElem?_eq_getElem he
              have h5 := ha.frame.keeps.extensions _ _ h4
              rw [hd] at h5; cases h5
              exact ⟨_, h4, hk⟩
            · exact .inr ⟨by omega, d, hd, hk⟩
      · obtain ⟨r, h1, h2, h3⟩ := ha.newExts k m' (by omega) hm'
        rw [h1, List.nil_append]
        refine ⟨h2, fun e => ?_⟩
        rw [h3]
        constructor
        · exact fun x => x.2
        · rintro ⟨d, hd, hk⟩
          refine ⟨?_, d, hd, hk⟩
          refine Nat.le_of_not_lt fun he => ?_
          have h4 := List.getElem?_eq_getElem he
          have h5 := ha.frame.keeps.extensions _ _ h4
          rw [hd] at h5; cases h5
          obtain ⟨_, _, _, _, _, _, _, _, _, hE⟩ := (hp.hist.desc hsr).extension_at h4
          have := hE.extendee
          omega

/-- A list that covers a duplicate-free list of at least its length is a rearrangement of it. -/
theorem perm_of_cover {α : Type} [DecidableEq α] : ∀ (s l : List α), s.Nodup → (∀ x ∈ s, x ∈ l) →
    l.length ≤ s.length → l.Perm s
  | [], l, _, _, hl => by
    cases l with
    | nil => exact .nil
    | cons a l => simp at hl
  | a :: s, l, hn, hs, hl => by
    rw [List.nodup_cons] at hn
    have ha := hs a (List.mem_cons_self ..)
    refine (List.perm_cons_erase ha).trans (.cons a (perm_of_cover s _ hn.2 ?_ ?_))
    · intro x hx
      have : x ≠ a := fun h => hn.1 (h ▸ hx)
      exact (List.mem_erase_of_ne this).2 (hs x (List.mem_cons_of_mem _ hx))
    · rw [List.length_erase_of_mem ha]
      simp only [List.length_cons] at hl
      omega

theorem perm_of_mem_iff {α : Type} [DecidableEq α] : ∀ (s l : List α), s.Nodup → l.Nodup →
    (∀ x, x ∈ l ↔ x ∈ s) → l.Perm s
  | [], l, _, _, h => by
    cases l with
    | nil => exact .nil
    | cons a l => exact absurd ((h a).1 (List.mem_cons_self ..)) (List.not_mem_nil)
  | a :: s, l, hs, hl, h => by
    rw [List.nodup_cons] at hs
    have ha := (h a).2 (List.mem_cons_self ..)
    refine (List.perm_cons_erase ha).trans (.cons a (perm_of_mem_iff s _ hs.2 (hl.erase a) ?_))
    intro x
    rw [hl.mem_erase_iff, h x, List.mem_cons]
    constructor
    · rintro ⟨h1, h2 | h2⟩
      · exact absurd h2 h1
      · exact h2
    · exact fun hx => ⟨fun he => hs.1 (he ▸ hx), .inr hx⟩

theorem pairwise_get {α : Type} {R : α → α → Prop} {l : List α} (h : l.Pairwise R) {i j : Nat}
    {a b : α} (hij : i < j) (hi : l[i]? = some a) (hj : l[j]? = some b) : R a b := by
  obtain ⟨h1, rfl⟩ := List.getElem?_eq_some_iff.1 hi
  obtain ⟨h2, rfl⟩ := List.getElem?_eq_some_iff.1 hj
  exact List.pairwise_iff_getElem.1 h i j h1 h2 hij

theorem nodup_map_of_inj {α β : Type} {l : List α} {g : α → β}
    (h : ∀ (i j : Nat) a b, l[i]? = some a → l[j]? = some b → g a = g b → i = j) :
    (l.map g).Nodup := by
  rw [List.Nodup, List.pairwise_iff_getElem]
  intro i j hi hj hij heq
  rw [List.getElem_map, List.getElem_map] at heq
  rw [List.length_map] at hi hj
  have := h i j _ _ (List.getElem?_eq_getElem hi) (List.getElem?_eq_getElem hj) heq
  omega

theorem sortedFrom_keys {α : Type} : ∀ {m : List (Nat × α)} {lo : Nat},
    SMap.sortedFrom lo m = true → (m.map (·.1)).Pairwise (· < ·)
  | [], _, _ => .nil
  | (n, v) :: r, lo, h => by
    simp only [SMap.sortedFrom, Bool.and_eq_true] at h
    rw [List.map_cons, List.pairwise_cons]
    refine ⟨?_, sortedFrom_keys h.2⟩
    intro x hx
    obtain ⟨y, hy, rfl⟩ := List.mem_map.1 hx
    exact SMap.mem_gt h.2 y hy

section
variable {env : Env} {acc : List FileP} {p : Pool}

/-- The declared enum of a descriptor and its values. -/
theorem Desc.values_of (h : Desc env acc p) {k : Nat} {ed : EnumD} (hk : p.enums[k]? = some ed) :
    ∃ x, Stands acc p ed.id (.enum x) (.enum x) ∧ ed.allowAlias = x.allowAlias ∧
      EnumOk ed ed.values.length ∧ ed.values.length = x.values.length ∧
      (∃ fd, p.files[ed.id.file]? = some fd ∧ FirstOk fd.syn x.values) ∧
      ∀ (i : Nat) v, x.values[i]? = some v → (∃ d, ed.values[i]? = some d ∧ d.id.name = v.name ∧
        d.number = v.number) ∧ ∀ r ∈ x.reserved, ¬ (r.1 ≤ v.number ∧ v.number ≤ r.2) := by
  obtain ⟨path, full, fi, parent, m, he, hid, _, ha, hl, hok⟩ := h.enum_at hk
  obtain ⟨_, _, fd, hfd, hfirst⟩ := h.evs _ he
  obtain ⟨z, hz⟩ := h.stands he rfl hid
  have hz' := hz
  obtain ⟨f, fd', s, h1, h2, h3, h4, h5, h6⟩ := hz'
  cases z <;> simp only [Item.strip, reduceCtorEq, Item.enum.injEq] at h5
  cases h5
  have hfi : ed.id.file = fi := by rw [hid]; rfl
  refine ⟨m, hz, ha, hok, hl, ⟨fd, by rw [hfi]; exact hfd, hfirst⟩, ?_⟩
  intro i v hv
  obtain ⟨_, _, hfull⟩ := visit_full acc {} _ he
  obtain ⟨_, ed', fd'', ep, g1, g2, g3, g4, g5⟩ := h.evs _ (hfull i v hv)
  rw [hk] at g1; cases g1
  refine ⟨⟨_, g2, Ident.mk'_name _ _ _ _, rfl⟩, ?_⟩
  rw [h2] at g3; cases g3
  obtain ⟨_, _, _, _, hp, _⟩ := h.file_inv h2
  have : findEnum fd'.prost ed.id.path = some m := h4.found
  rw [hp, g4] at this
  cases this
  exact g5

/-- The message a number is checked against is the declared one. -/
theorem Desc.number_ok (h : Desc env acc p) {k : Nat} {f : FieldP} (hn : NumberOkIn p k f) :
    ∃ md x y, p.messages[k]? = some md ∧ Stands acc p md.id (.message x) (.message y) ∧
      NumberOk x f := by
  obtain ⟨md, fd, mp, h1, h2, h3, h4⟩ := hn
  obtain ⟨x, y, ⟨g, fd', s, g1, g2, g3, g4, g5, g6⟩, _⟩ := h.message_stands h1
  refine ⟨md, x, y, h1, ⟨g, fd', s, g1, g2, g3, g4, g5, g6⟩, ?_⟩
  rw [h2] at g2; cases g2
  obtain ⟨_, _, _, _, hp, _⟩ := h.file_inv h2
  have hy : findMsg fd.prost md.id.path = some y := g4.found.2
  rw [hp, h3] at hy
  cases hy
  have hs : stripMsg mp = stripMsg x := by simpa [Item.strip] using g5
  have hr : mp.reserved = x.reserved := by
    have := congrArg MsgP.reserved hs
    simpa only [stripMsg_eq] using this
  have he : mp.extRanges = x.extRanges := by
    have := congrArg MsgP.extRanges hs
    simpa only [stripMsg_eq] using this
  exact ⟨h4.valid, by rw [← hr]; exact h4.reserved, by rw [← he]; exact h4.ext⟩

theorem Idx.inj {κ α : Type} {t : κ → Option Nat} {l : List α} {key : α → κ} (h : Idx t l key)
    {i j : Nat} {a b : α} (hi : l[i]? = some a) (hj : l[j]? = some b) (hk : key a = key b) :
    i = j := by
  have h1 := (h (key a) i).2 ⟨a, hi, rfl⟩
  have h2 := (h (key a) j).2 ⟨b, hj, hk.symm⟩
  rw [h1] at h2
  exact Option.some.inj h2

/-- The declared message of a descriptor and its fields. -/
theorem Desc.fields_of (h : Desc env acc p) {k : Nat} {md : MsgD} (hk : p.messages[k]? = some md) :
    ∃ path full fi parent m, .message path full fi parent k m ∈ visit {} acc ∧
      md.id = Ident.mk' fi path full m.name ∧ md.fields.length = m.fields.length ∧ MsgOk md ∧
      ∀ (i : Nat) f, m.fields[i]? = some f → ∃ fd d, p.files[fi]? = some fd ∧
        md.fields[i]? = some d ∧ NumberOkIn p k f ∧
        FieldIs env p fd.syn fi (path ++ [2, i]) (pushScope full f.name) f md.oneofs.length d := by
  obtain ⟨path, full, fi, parent, m, he, hid, _, hl, _, hok⟩ := h.message_at hk
  refine ⟨path, full, fi, parent, m, he, hid, hl, hok, ?_⟩
  intro i f hf
  have hv := (visit_full acc {} _ he).1 i _ hf
  obtain ⟨_, fd, md', d, g1, g2, g3, g4, g5⟩ := h.evs _ hv
  rw [hk] at g2; cases g2
  exact ⟨fd, d, g1, g3, g4, g5⟩

/-- A field descriptor and its declaration. -/
theorem Desc.field_is (h : Desc env acc p) {k i : Nat} {md : MsgD} {d : FieldD}
    (hk : p.messages[k]? = some md) (hi : md.fields[i]? = some d) :
    ∃ x y fd, Stands acc p d.id (.field x) (.field y) ∧ p.files[d.id.file]? = some fd ∧
      NumberOkIn p k x ∧
      FieldIs env p fd.syn d.id.file d.id.path d.id.fullName x md.oneofs.length d := by
  obtain ⟨path, full, fi, f, fd, hv, hf, hN, hI⟩ := h.field_at hk hi
  obtain ⟨y, hy⟩ := h.stands hv rfl hI.id
  have hyy : ∃ y', y = .field y' := by
    obtain ⟨_, _, _, _, _, _, _, h5, _⟩ := hy
    cases y <;> simp only [Item.strip, reduceCtorEq, Item.field.injEq] at h5
    exact ⟨_, rfl⟩
  obtain ⟨y', rfl⟩ := hyy
  have h1 : d.id.file = fi := by rw [hI.id]; rfl
  have h2 : d.id.path = path := by rw [hI.id]; rfl
  have h3 : d.id.fullName = full := by rw [hI.id]; rfl
  rw [h1, h2, h3]
  exact ⟨f, y', fd, hy, hf, hN, hI⟩

/-- An extension descriptor and its declaration. -/
theorem Desc.extension_is (h : Desc env acc p) {k : Nat} {d : ExtD}
    (hk : p.extensions[k]? = some d) :
    ∃ x y fd, Stands acc p d.id (.extension x) (.extension y) ∧ p.files[d.id.file]? = some fd ∧
      NumberOkIn p d.extendee x ∧
      ExtIs env p fd.syn d.id.file d.id.path d.id.fullName d.parent x d := by
  obtain ⟨path, full, fi, parent, f, fd, hv, hf, hN, hI⟩ := h.extension_at hk
  obtain ⟨y, hy⟩ := h.stands hv rfl hI.id
  have hyy : ∃ y', y = .extension y' := by
    obtain ⟨_, _, _, _, _, _, _, h5, _⟩ := hy
    cases y <;> simp only [Item.strip, reduceCtorEq, Item.extension.injEq] at h5
    exact ⟨_, rfl⟩
  obtain ⟨y', rfl⟩ := hyy
  have h1 : d.id.file = fi := by rw [hI.id]; rfl
  have h2 : d.id.path = path := by rw [hI.id]; rfl
  have h3 : d.id.fullName = full := by rw [hI.id]; rfl
  have h4 := hI.parent
  rw [h1, h2, h3, h4]
  exact ⟨f, y', fd, hy, hf, hN, hI⟩

theorem findExtension_spec {p : Pool} {t : ExtD → Bool} : ∀ {l : List Nat},
    (∀ i ∈ l, i < p.extensions.length) → ∃ r, findExtension p t l = .ok r ∧
      (∀ e, r = some e → e ∈ l ∧ ∃ d, p.extensions[e]? = some d ∧ t d = true) ∧
      (r = none → ∀ e ∈ l, ∀ d, p.extensions[e]? = some d → t d = false)
  | [], _ => ⟨none, rfl, by simp, by simp⟩
  | i :: l, h => by
    have hi := List.getElem?_eq_getElem (h i (List.mem_cons_self ..))
    obtain ⟨r, h1, h2, h3⟩ := findExtension_spec (t := t) (l := l)
      fun j hj => h j (List.mem_cons_of_mem _ hj)
    simp only [findExtension, hi]
    cases ht : t (p.extensions[i]'(h i (List.mem_cons_self ..))) with
    | true =>
      simp only [if_true]
      exact ⟨some i, rfl, fun e he => by cases he; exact ⟨List.mem_cons_self .., _, hi, ht⟩, by simp⟩
    | false =>
      simp only [Bool.false_eq_true, if_false]
      refine ⟨r, h1, fun e he => ?_, fun hn e he d hd => ?_⟩
      · obtain ⟨g1, g2⟩ := h2 e he
        exact ⟨List.mem_cons_of_mem _ g1, g2⟩
      · rcases List.mem_cons.1 he with rfl | he
        · rw [hi] at hd; cases hd; exact ht
        · exact h3 hn e he d hd

end
end Verif.Pool
