import Verif.Pool.Entries
import Verif.Props.PoolScope
/-!
Two pools that were given the same files in the same order, in additions of different sizes.
-/
set_option autoImplicit false
namespace Verif.Pool
open Verif.Wire Verif.Dyn Verif.Props

/-! ### The sets of visible files -/

section
variable {fa fb : List FileD} {na nb : List (Name × Nat)} {N : Nat}

/-- The first `N` files have the same imports in both, all among the first `N`. -/
structure Level (fa fb : List FileD) (na nb : List (Name × Nat)) (N : Nat) : Prop where
  imports : ∀ i, i < N → (fa[i]?).map FileD.imports = (fb[i]?).map FileD.imports
  found : ∀ (i : Nat) f, i < N → fa[i]? = some f → ∀ n ∈ f.raw.deps,
    ∃ j, j < N ∧ lookupN na n = some j ∧ lookupN nb n = some j

theorem publicLoop_level {pub : List Int} {r r' : List Nat → Nat → Res (List Nat)}
    (hr : ∀ ds i, i < N → r ds i = r' ds i) : ∀ (ns : List Name) (i : Nat) (ds : List Nat),
      (∀ n ∈ ns, ∃ j, j < N ∧ lookupN na n = some j ∧ lookupN nb n = some j) →
      publicLoop na pub r i ns ds = publicLoop nb pub r' i ns ds
  | [], _, _, _ => rfl
  | n :: ns, i, ds, h => by
    obtain ⟨j, h1, h2, h3⟩ := h n (by simp)
    have ih := fun i ds => publicLoop_level (pub := pub) hr ns i ds fun m hm => h m (by simp [hm])
    simp only [publicLoop, h2, h3, hr _ _ h1, ih]

theorem resolvePublic_level (h : Level fa fb na nb N) : ∀ (n : Nat) (ds : List Nat) (i : Nat), i < N →
    resolvePublic fa na n ds i = resolvePublic fb nb n ds i
  | 0, _, _, _ => rfl
  | n + 1, ds, i, hi => by
    have ih := resolvePublic_level h n
    have hm := h.imports i hi
    simp only [resolvePublic]
    cases ha : fa[i]? with
    | none =>
      rw [ha] at hm
      cases hb : fb[i]? with
      | none => rfl
      | some g => rw [hb] at hm; cases hm
    | some f =>
      rw [ha] at hm
      cases hb : fb[i]? with
      | none => rw [hb] at hm; cases hm
      | some g =>
        rw [hb] at hm
        simp only [Option.map_some, FileD.imports, Option.some.injEq, Prod.mk.injEq] at hm
        simp only [← hm.1, ← hm.2]
        exact publicLoop_level (fun ds i hi => ih ds i hi) _ _ _ (h.found i f hi ha)

theorem visLoop_level (h : Level fa fb na nb N) (stack : Nat) : ∀ (l tr : List Nat), (∀ i ∈ l, i < N) →
    visLoop fa na stack l tr = visLoop fb nb stack l tr
  | [], _, _ => rfl
  | d :: l, tr, hl => by
    have ih := visLoop_level h stack l
    simp only [visLoop, resolvePublic_level h stack _ d (hl d (by simp))]
    split
    · rfl
    · exact ih _ fun i hi => hl i (by simp [hi])

end

/-- Every file carries the set its imports give. -/
def Seen (env : Env) (p : Pool) : Prop := ∀ (i : Nat) fd, p.files[i]? = some fd →
  visLoop p.files p.fileNames env.stack fd.deps [i] = .ok fd.trans

theorem map_some_get {α β : Type} {g : α → Option β} : ∀ {l : List α} {r : List β}, l.map g = r.map some →
    (∀ a ∈ l, ∃ b ∈ r, g a = some b) ∧ ∀ b ∈ r, ∃ a ∈ l, g a = some b
  | [], [], _ => ⟨by simp, by simp⟩
  | [], _ :: _, h => by cases h
  | _ :: _, [], h => by cases h
  | a :: l, b :: r, h => by
    simp only [List.map_cons, List.cons.injEq] at h
    obtain ⟨h1, h2⟩ := map_some_get h.2
    constructor
    · intro x hx
      rcases List.mem_cons.1 hx with rfl | hx
      · exact ⟨b, by simp, h.1⟩
      · obtain ⟨y, g1, g2⟩ := h1 x hx; exact ⟨y, by simp [g1], g2⟩
    · intro y hy
      rcases List.mem_cons.1 hy with rfl | hy
      · exact ⟨a, by simp, h.1⟩
      · obtain ⟨x, g1, g2⟩ := h2 y hy; exact ⟨x, by simp [g1], g2⟩

theorem map_some_inj {α : Type} : ∀ {l r : List α}, l.map some = r.map some → l = r
  | [], [], _ => rfl
  | [], _ :: _, h => by cases h
  | _ :: _, [], h => by cases h
  | a :: l, b :: r, h => by
    simp only [List.map_cons, List.cons.injEq, Option.some.injEq] at h
    rw [h.1, map_some_inj h.2]

section
variable {env : Env} {acc : List FileP} {p q : Pool}

/-- The imports of every file are files of the pool. -/
theorem Desc.deps_found (h : Desc env acc p) {i : Nat} {fd : FileD} (hf : p.files[i]? = some fd) :
    (∀ n ∈ fd.raw.deps, ∃ j, j < acc.length ∧ lookupN p.fileNames n = some j) ∧
    (∀ j ∈ fd.deps, j < acc.length) := by
  obtain ⟨f, h1, _, h3, _⟩ := h.file_inv hf
  obtain ⟨fd', g1, _, _, _, g2, _⟩ := h.file_at h1
  rw [hf] at g1; cases g1
  obtain ⟨m1, m2⟩ := map_some_get g2
  have lt : ∀ n j, lookupN p.fileNames n = some j → j < acc.length := by
    intro n j hl
    obtain ⟨g, hg, _⟩ := h.filesAre.name_iff.1 hl
    exact getElem?_lt hg
  refine ⟨fun n hn => ?_, fun j hj => ?_⟩
  · rw [(stripFile_deps h3).1] at hn
    obtain ⟨j, _, hl⟩ := m1 n hn
    exact ⟨j, lt n j hl, hl⟩
  · obtain ⟨n, _, hl⟩ := m2 j hj
    exact lt n j hl

/-- A pool and a later one are level on the files of the first. -/
theorem Desc.level (h : Desc env acc p) (hk : Keeps p q) :
    Level p.files q.files p.fileNames q.fileNames acc.length where
  imports i hi := by
    rw [← h.files_len] at hi
    have := hk.files _ _ (List.getElem?_eq_getElem hi)
    rw [this, List.getElem?_eq_getElem hi]
  found i f _ hf n hn := by
    obtain ⟨j, h1, h2⟩ := (h.deps_found hf).1 n hn
    exact ⟨j, h1, h2, hk.fileNames _ _ h2⟩

theorem Seen.keeps (h : Desc env acc p) (hs : Seen env p) (hk : Keeps p q) {i : Nat} {fd : FileD}
    (hf : p.files[i]? = some fd) : visLoop q.files q.fileNames env.stack fd.deps [i] = .ok fd.trans := by
  rw [← visLoop_level (h.level hk) env.stack _ _ (h.deps_found hf).2]
  exact hs i fd hf

end

section
variable {env : Env} (hsr : SearchOk env.search) {acc : List FileP} {p q : Pool}
include hsr

theorem Hist.seen (h : Hist env acc p) : Seen env p := by
  induction h with
  | empty => intro i fd hf; simp [Pool.empty] at hf
  | reject acc p fs q e es hp hb ih =>
    obtain ⟨r, _, _, hl⟩ := buildFiles_reject (hp.desc hsr).ok hb
    intro i fd hf
    rw [hl.files] at hf
    exact ih.keeps (hp.desc hsr) hl.keeps hf
  | accept acc p fs q hp hb ih =>
    have hD := hp.desc hsr
    have hD' := (Hist.accept acc p fs q hp hb).desc hsr
    rcases buildFiles_accept hsr hD.ok hb with ⟨_, rfl⟩ | ha
    · exact ih
    · intro i fd hf
      by_cases hlt : i < p.files.length
      · have h1 := List.getElem?_eq_getElem hlt
        have h2 := ha.frame.keeps.files _ _ h1
        rw [hf] at h2; cases h2
        exact ih.keeps hD ha.frame.keeps h1
      · obtain ⟨f, h1, _⟩ := hD'.file_inv hf
        have hlen := hD.files_len
        rw [List.getElem?_append_right (by omega)] at h1
        have hv := visit_files _ p.offs _ _ h1
        have ho : p.offs.file = acc.length := hlen
        rw [ho, show acc.length + (i - acc.length) = i by omega] at hv
        obtain ⟨fd', g1, _, _, g3, _⟩ := ha.resolved _ hv
        rw [hf] at g1; cases g1
        exact g3

omit hsr in
/-- Two pools of the same files have the same sets. -/
theorem Desc.same_trans (D : Desc env acc p) (D' : Desc env acc q) (hs : Seen env p) (hs' : Seen env q) {i : Nat}
    {fp fq : FileD} (hp : p.files[i]? = some fp) (hq : q.files[i]? = some fq) :
    fp.syn = fq.syn ∧ fp.deps = fq.deps ∧ fp.trans = fq.trans := by
  have names : ∀ n, lookupN p.fileNames n = lookupN q.fileNames n := by
    intro n
    apply Option.ext
    intro i
    rw [D.filesAre.name_iff, D'.filesAre.name_iff]
  obtain ⟨f, h1, h2, _⟩ := D.file_inv hp
  obtain ⟨f', g1, g2, _⟩ := D'.file_inv hq
  rw [h1] at g1; cases g1
  have hsyn : fp.syn = fq.syn := Option.some.inj (h2.symm.trans g2)
  obtain ⟨fd, a1, _, _, _, a2, _⟩ := D.file_at h1
  rw [hp] at a1; cases a1
  obtain ⟨fd, b1, _, _, _, b2, _⟩ := D'.file_at h1
  rw [hq] at b1; cases b1
  have hdeps : fp.deps = fq.deps := by
    have : fp.deps.map some = fq.deps.map some := by
      rw [← a2, ← b2]
      exact List.map_congr_left fun n _ => names n
    exact map_some_inj this
  have hL : Level p.files q.files p.fileNames q.fileNames acc.length :=
    { imports := by
        intro i hi
        obtain ⟨fd, c1, _, c2, _⟩ := D.file_at (List.getElem?_eq_getElem hi)
        obtain ⟨fd', d1, _, d2, _⟩ := D'.file_at (List.getElem?_eq_getElem hi)
        rw [c1, d1]
        obtain ⟨e1, e2⟩ := stripFile_deps (c2.trans d2.symm)
        simp only [Option.map_some, FileD.imports, e1, e2]
      found := by
        intro i f _ hf n hn
        obtain ⟨j, c1, c2⟩ := (D.deps_found hf).1 n hn
        exact ⟨j, c1, c2, (names n) ▸ c2⟩ }
  refine ⟨hsyn, hdeps, ?_⟩
  have e1 := hs _ _ hp
  have e2 := hs' _ _ hq
  rw [visLoop_level hL env.stack _ _ (D.deps_found hp).2, hdeps, e2] at e1
  exact (Except.ok.inj e1).symm

end

/-! ### What names refer to -/

/-- The names of declarations are not empty and have no dots. -/
def WellNamed (acc : List FileP) : Prop := ∀ f ∈ acc, ∀ path s x, Has f path s x → x.name ≠ [] ∧ '.' ∉ x.name

/-- `a` is a leading part of `s`, or `s` itself. -/
def Leads (a s : Name) : Prop := s = a ∨ ∃ r, s = a ++ '.' :: r

theorem leads_qualified {s n a r : Name} (hn : '.' ∉ n) (h : qualified s n = a ++ '.' :: r) : Leads a s := by
  unfold qualified at h
  split at h
  · exact absurd (by rw [h]; simp) hn
  · rcases List.append_eq_append_iff.1 h with ⟨l, h1, h2⟩ | ⟨l, h1, h2⟩
    · cases l with
      | nil => rw [List.append_nil] at h1; exact .inl h1.symm
      | cons c l =>
        simp only [List.cons_append, List.cons.injEq] at h2
        exact absurd (by rw [h2.2]; simp) hn
    · cases l with
      | nil => rw [List.append_nil] at h1; exact .inl h1
      | cons c l =>
        simp only [List.cons_append, List.cons.injEq] at h2
        exact .inr ⟨l, by rw [h1, ← h2.1]⟩

/-- The leading parts of the scope of a declaration have members. -/
theorem scope_leads {acc : List FileP} {i : Nat} {f : FileP} (hf : acc[i]? = some f) (hw : WellNamed acc)
    {path : Path} {s : Name} {x : Item} (h : Has f path s x) {a : Name} (ha : Leads a s) : ScopeAt acc a := by
  have hm := List.mem_of_getElem? hf
  have top : Leads a f.package → ScopeAt acc a := fun h => .inr (.inr (.inr ⟨f, hm, h⟩))
  have inner : ∀ {path : Path} {s : Name} {m : MsgP}, Has f path s (.message m) →
      (Leads a s → ScopeAt acc a) → Leads a (qualified s m.name) → ScopeAt acc a := by
    intro path s m hh ih hl
    rcases hl with rfl | ⟨r, hr⟩
    · exact .inl ⟨i, m, f, path, s, hf, hh, rfl⟩
    · exact ih (leads_qualified (hw f hm _ _ _ hh).2 hr)
  induction h with
  | message | enum | service | extension => exact top ha
  | nested _ _ _ _ _ hh _ ih | field _ _ _ _ _ hh _ ih | oneof _ _ _ _ _ hh _ ih
  | enumIn _ _ _ _ _ hh _ ih | extensionIn _ _ _ _ _ hh _ ih => exact inner hh ih ha
  | value _ _ _ _ _ _ _ ih => exact ih ha
  | method path s m _ _ hh _ ih =>
    rcases ha with rfl | ⟨r, hr⟩
    · exact .inr (.inr (.inl ⟨i, m, f, path, s, hf, hh, rfl⟩))
    · exact ih (leads_qualified (hw f hm _ _ _ hh).2 hr)

theorem declared_take {all : List FileP} {a i : Nat} {n : Name} {x : Item} :
    DeclaredAs (all.take a) i n x ↔ i < a ∧ DeclaredAs all i n x := by
  unfold DeclaredAs
  constructor
  · rintro ⟨f, path, s, h1, h2⟩
    rw [List.getElem?_take] at h1
    split at h1
    · next h => exact ⟨h, f, path, s, h1, h2⟩
    · cases h1
  · rintro ⟨h, f, path, s, h1, h2⟩
    exact ⟨f, path, s, by rw [List.getElem?_take, if_pos h]; exact h1, h2⟩

theorem typeAt_take {all : List FileP} {vis : Nat → Prop} {enums : Bool} {a : Nat} (hv : ∀ j, vis j → j < a)
    {n : Name} : TypeAt (all.take a) vis enums n ↔ TypeAt all vis enums n := by
  unfold TypeAt
  constructor
  · rintro ⟨j, h1, ⟨m, h2⟩ | ⟨he, m, h2⟩⟩
    · exact ⟨j, h1, .inl ⟨m, (declared_take.1 h2).2⟩⟩
    · exact ⟨j, h1, .inr ⟨he, m, (declared_take.1 h2).2⟩⟩
  · rintro ⟨j, h1, ⟨m, h2⟩ | ⟨he, m, h2⟩⟩
    · exact ⟨j, h1, .inl ⟨m, declared_take.2 ⟨hv j h1, h2⟩⟩⟩
    · exact ⟨j, h1, .inr ⟨he, m, declared_take.2 ⟨hv j h1, h2⟩⟩⟩

theorem scopeAt_take {all : List FileP} {a : Nat} {n : Name} (h : ScopeAt (all.take a) n) : ScopeAt all n := by
  rcases h with ⟨j, m, h⟩ | ⟨j, m, h⟩ | ⟨j, m, h⟩ | ⟨f, h1, h2⟩
  · exact .inl ⟨j, m, (declared_take.1 h).2⟩
  · exact .inr (.inl ⟨j, m, (declared_take.1 h).2⟩)
  · exact .inr (.inr (.inl ⟨j, m, (declared_take.1 h).2⟩))
  · exact .inr (.inr (.inr ⟨f, List.mem_of_mem_take h1, h2⟩))

/-- A reference that holds among more files holds among fewer, as long as the visible ones are left. -/
theorem Refers.fewer {all : List FileP} {vis : Nat → Prop} {enums : Bool} {a : Nat} (hw : WellNamed all)
    (hv : ∀ j, vis j → j < a) {scope name n : Name} (h : Refers all vis enums scope name n) :
    Refers (all.take a) vis enums scope name n := by
  have hw' : WellNamed (all.take a) := fun f hf => hw f (List.mem_of_mem_take hf)
  cases h with
  | full n h => exact .full _ ((typeAt_take hv).2 h)
  | simple name p h1 h2 =>
    exact .simple name p h1 ((Innermost.congr fun p => typeAt_take hv).2 h2)
  | dotted first rest p h1 h2 h3 h4 =>
    have h4' := (typeAt_take hv).2 h4
    refine .dotted first rest p h1 h2 ⟨h3.1, ?_, fun p' g1 g2 g3 => h3.2.2 p' g1 g2 (scopeAt_take g3)⟩ h4'
    have key : ∀ {j : Nat} {x : Item}, DeclaredAs (all.take a) j (qualified p (first ++ '.' :: rest)) x →
        ScopeAt (all.take a) (qualified p first) := by
      rintro j x ⟨f, path, s, g1, g2, g3⟩
      refine scope_leads g1 hw' g2 (leads_qualified (hw' f (List.mem_of_getElem? g1) _ _ _ g2).2 (r := rest) ?_)
      rw [← g3]
      unfold qualified
      split <;> simp
    obtain ⟨j, _, ⟨m, hm⟩ | ⟨_, m, hm⟩⟩ := h4'
    · exact key hm
    · exact key hm

/-- References among the first files and among all files lead to the same type, if both lead anywhere. -/
theorem Refers.level {all : List FileP} {vis : Nat → Prop} {enums : Bool} {a b : Nat} (hw : WellNamed all)
    (ha : ∀ j, vis j → j < a) (hb : ∀ j, vis j → j < b) {scope name n n' : Name}
    (h : Refers (all.take a) vis enums scope name n) (h' : Refers (all.take b) vis enums scope name n') :
    n = n' := by
  have aux : ∀ {a b : Nat} {n n' : Name}, a ≤ b → (∀ j, vis j → j < a) →
      Refers (all.take a) vis enums scope name n → Refers (all.take b) vis enums scope name n' → n = n' := by
    intro a b n n' hab ha h h'
    have hw' : WellNamed (all.take b) := fun f hf => hw f (List.mem_of_mem_take hf)
    have := h'.fewer hw' ha
    rw [List.take_take, Nat.min_eq_left hab] at this
    exact h.unique this
  rcases Nat.le_total a b with hab | hab
  · exact aux hab ha h h'
  · exact (aux hab hb h' h).symm

/-! ### References along histories -/

/-- The written name refers to the type named `n`, among the files there were when file `i` was added. -/
def Meant (acc : List FileP) (p : Pool) (i : Nat) (enums : Bool) (scope name n : Name) : Prop :=
  ∃ fd m, p.files[i]? = some fd ∧ m ≤ acc.length ∧ (∀ j ∈ fd.trans, j < m) ∧
    Refers (acc.take m) (· ∈ fd.trans) enums scope name n

/-- What a declaration refers to. -/
def Refs (acc : List FileP) (p : Pool) : Event → Prop
  | .field _ full fi k i f => ∃ md d, p.messages[k]? = some md ∧ md.fields[i]? = some d ∧
      (full ≠ [] → f.typeName ≠ [] → ∃ n, KindNamed p n d.kind ∧ Meant acc p fi true full f.typeName n)
  | .extension _ full fi _ i f => ∃ d, p.extensions[i]? = some d ∧
      (full ≠ [] → (∃ n, MessageNamed p n d.extendee ∧ Meant acc p fi false full f.extendeeName n) ∧
        (f.typeName ≠ [] → ∃ n, KindNamed p n d.kind ∧ Meant acc p fi true full f.typeName n))
  | .method _ full fi k i f => ∃ sd d, p.services[k]? = some sd ∧ sd.methods[i]? = some d ∧
      (full ≠ [] → (∃ n, MessageNamed p n d.input ∧ Meant acc p fi false full f.input n) ∧
        ∃ n, MessageNamed p n d.output ∧ Meant acc p fi false full f.output n)
  | _ => True

theorem kindNamed_keeps {p q : Pool} (hk : Keeps p q) {n : Name} {k : Kind} (h : KindNamed p n k) :
    KindNamed q n k := by
  cases k with
  | message t =>
    obtain ⟨d, h1, h2⟩ := h
    obtain ⟨d', g1, g2⟩ := hk.messages _ _ h1
    have : d'.forget.id = d.forget.id := congrArg MsgD.id g2
    exact ⟨d', g1, (congrArg Ident.fullName this).trans h2⟩
  | enum t =>
    obtain ⟨d, h1, h2⟩ := h
    exact ⟨d, hk.enums _ _ h1, h2⟩
  | _ => exact h

theorem messageNamed_keeps {p q : Pool} (hk : Keeps p q) {n : Name} {k : Nat} (h : MessageNamed p n k) :
    MessageNamed q n k := kindNamed_keeps (k := .message k) hk h

theorem Meant.keeps {acc fs : List FileP} {p q : Pool} (hk : Keeps p q) {i : Nat} {enums : Bool}
    {scope name n : Name} (h : Meant acc p i enums scope name n) : Meant (acc ++ fs) q i enums scope name n := by
  obtain ⟨fd, m, h1, h2, h3, h4⟩ := h
  refine ⟨fd, m, hk.files _ _ h1, by rw [List.length_append]; omega, h3, ?_⟩
  rw [List.take_append_of_le_length h2]
  exact h4

theorem Refs.keeps {acc fs : List FileP} {p q : Pool} (hk : Keeps p q) {e : Event} (h : Refs acc p e) :
    Refs (acc ++ fs) q e := by
  cases e with
  | field path full fi k i f =>
    obtain ⟨md, d, h1, h2, h3⟩ := h
    obtain ⟨md', g1, g2⟩ := hk.messages _ _ h1
    have : md'.forget.fields = md.forget.fields := congrArg MsgD.fields g2
    replace this : md'.fields = md.fields := this
    refine ⟨md', d, g1, by rw [this]; exact h2, fun a b => ?_⟩
    obtain ⟨n, c1, c2⟩ := h3 a b
    exact ⟨n, kindNamed_keeps hk c1, c2.keeps hk⟩
  | extension path full fi pa i f =>
    obtain ⟨d, h1, h3⟩ := h
    refine ⟨d, hk.extensions _ _ h1, fun a => ?_⟩
    obtain ⟨⟨n, c1, c2⟩, c3⟩ := h3 a
    refine ⟨⟨n, messageNamed_keeps hk c1, c2.keeps hk⟩, fun b => ?_⟩
    obtain ⟨n, c1, c2⟩ := c3 b
    exact ⟨n, kindNamed_keeps hk c1, c2.keeps hk⟩
  | method path full fi k i f =>
    obtain ⟨md, d, h1, h2, h3⟩ := h
    refine ⟨md, d, hk.services _ _ h1, h2, fun a => ?_⟩
    obtain ⟨⟨n, c1, c2⟩, n', c3, c4⟩ := h3 a
    exact ⟨⟨n, messageNamed_keeps hk c1, c2.keeps hk⟩, n', messageNamed_keeps hk c3, c4.keeps hk⟩
  | _ => trivial

theorem visible_lt {acc : List FileP} {i j : Nat} (hi : i < acc.length) (h : Visible acc i j) : j < acc.length := by
  rcases h with rfl | ⟨k, ⟨f, g, _, h1, _⟩, h2⟩
  · exact hi
  · have hk := getElem?_lt h1
    clear h1
    induction h2 with
    | refl => exact hk
    | step i j k hp _ ih =>
      obtain ⟨_, _, _, _, h3, _⟩ := hp
      exact ih (getElem?_lt h3)

/-- What new declarations refer to. -/
theorem Desc.refs_made {env : Env} {acc new : List FileP} {q : Pool} {o : Offs} {n : Nat} (hol : o.file = acc.length)
    (hD' : Desc env (acc ++ new) q) (hres : ∀ e ∈ visit o new, Ev2 env q n e) :
    ∀ e ∈ visit o new, Refs (acc ++ new) q e := by
  intro e he
  have bound : ∀ {fi : Nat} {fd : FileD}, q.files[fi]? = some fd → acc.length ≤ fi →
      ∀ j ∈ fd.trans, j < (acc ++ new).length := by
    intro fi fd hfd hge j hj
    obtain ⟨f, h1, _⟩ := hD'.file_inv hfd
    have h2 := h1
    rw [List.getElem?_append_right hge] at h1
    have hv := visit_files _ o _ _ h1
    rw [hol, show acc.length + (fi - acc.length) = fi by omega] at hv
    obtain ⟨fd', g1, _, g2, g3, _⟩ := hres _ hv
    rw [hfd] at g1; cases g1
    exact visible_lt (getElem?_lt h2) ((hD'.trans_of h2 g2 g3).1 j hj)
  have meant : ∀ {fi : Nat} {fd : FileD} {enums : Bool} {scope name n : Name}, q.files[fi]? = some fd →
      acc.length ≤ fi → Refers (acc ++ new) (· ∈ fd.trans) enums scope name n →
      Meant (acc ++ new) q fi enums scope name n := by
    intro fi fd enums scope name n hfd hge hr
    exact ⟨fd, (acc ++ new).length, hfd, Nat.le_refl _, bound hfd hge, by rw [List.take_length]; exact hr⟩
  have kindOf : ∀ {x : FieldP} {scope : Name} {k : Kind} {g : Bool} {fi : Nat} {fd : FileD},
      q.files[fi]? = some fd → acc.length ≤ fi → scope ≠ [] →
      TypeOk fd.trans q.names scope x k g → x.typeName ≠ [] → ∃ n, KindNamed q n k ∧
        Meant (acc ++ new) q fi true scope x.typeName n := by
    intro x scope k g fi fd hfd hge hs ht hne
    cases ht with
    | scalar k h0 => exact absurd h0 hne
    | message n d t _ hr hk =>
      refine ⟨n, ?_, meant hfd hge ((hD'.resolve_iff (enums := true) hs).1 ⟨d, hr⟩)⟩
      have := (resolveName_found hr).1
      refine (hD'.message_name n t).1 ⟨d.file, d.path, ?_⟩
      rw [this, ← hk]
    | enum n d t _ hr hk =>
      refine ⟨n, ?_, meant hfd hge ((hD'.resolve_iff (enums := true) hs).1 ⟨d, hr⟩)⟩
      have := (resolveName_found hr).1
      refine (hD'.enum_name n t).1 ⟨d.file, d.path, ?_⟩
      rw [this, ← hk]
  have msgOf : ∀ {name scope : Name} {k : Nat} {fi : Nat} {fd : FileD},
      q.files[fi]? = some fd → acc.length ≤ fi → scope ≠ [] →
      MessageOk fd.trans q.names scope name k → ∃ n, MessageNamed q n k ∧
        Meant (acc ++ new) q fi false scope name n := by
    rintro name scope k fi fd hfd hge hs ⟨n, d, hr, hk⟩
    refine ⟨n, ?_, meant hfd hge ((hD'.resolve_iff (enums := false) hs).1 ⟨d, hr⟩)⟩
    have := (resolveName_found hr).1
    refine (hD'.message_name n k).1 ⟨d.file, d.path, ?_⟩
    rw [this, ← hk]
  have ge : ∀ {fi : Nat} {path : Path} {full : Name} {x : Item}, e.item = some (fi, path, full, x) →
      acc.length ≤ fi := by
    intro fi path full x hx
    obtain ⟨j, _, _, h0, _⟩ := visited_has he hx
    omega
  have hres := hres _ he
  cases e with
  | field path full fi k i f =>
    obtain ⟨fd, md, d, g1, _, g2, g3, _, g4⟩ := hres
    exact ⟨md, d, g2, g3, fun a b => kindOf g1 (ge rfl) a g4.kind b⟩
  | extension path full fi pa i f =>
    obtain ⟨fd, d, g1, _, g2, _, g4⟩ := hres
    exact ⟨d, g2, fun a => ⟨msgOf g1 (ge rfl) a g4.extendee, fun b => kindOf g1 (ge rfl) a g4.kind b⟩⟩
  | method path full fi k i f =>
    obtain ⟨fd, sd, d, g1, _, g2, g3, _, g5, g6⟩ := hres
    exact ⟨sd, d, g2, g3, fun a => ⟨msgOf g1 (ge rfl) a g5, msgOf g1 (ge rfl) a g6⟩⟩
  | _ => trivial

section
variable {env : Env} (hsr : SearchOk env.search) {acc : List FileP} {p q : Pool}
include hsr

theorem Hist.refs (h : Hist env acc p) : ∀ e ∈ visit {} acc, Refs acc p e := by
  induction h with
  | empty => intro e he; cases he
  | reject acc p fs q e es hp hb ih =>
    obtain ⟨r, _, _, hl⟩ := buildFiles_reject (hp.desc hsr).ok hb
    intro e he
    have := (ih e he).keeps (fs := []) hl.keeps
    rwa [List.append_nil] at this
  | accept acc p fs q hp hb ih =>
    have hD := hp.desc hsr
    have hD' := (Hist.accept acc p fs q hp hb).desc hsr
    intro e he
    rcases buildFiles_accept hsr hD.ok hb with ⟨h1, rfl⟩ | ha
    · rw [h1, List.append_nil] at he ⊢; exact ih e he
    · rw [visit_append, List.mem_append] at he
      rcases he with he | he
      · exact (ih e he).keeps ha.frame.keeps
      · rw [← hD.offs] at he
        generalize (fs.filter fun f => (lookupN p.fileNames f.name).isNone) = new at *
        exact hD'.refs_made hD.files_len ha.resolved e he

omit hsr in
/-- What is known of a pool that holds the files `acc`. -/
structure Settled (env : Env) (acc : List FileP) (p : Pool) : Prop where
  desc : Desc env acc p
  refs : ∀ e ∈ visit {} acc, Refs acc p e
  seen : Seen env p

theorem Hist.settled (h : Hist env acc p) : Settled env acc p := ⟨h.desc hsr, h.refs hsr, h.seen hsr⟩

omit hsr in
theorem Settled.same_trans (h : Settled env acc p) (h' : Settled env acc q) {i : Nat} {fp fq : FileD}
    (hp : p.files[i]? = some fp) (hq : q.files[i]? = some fq) :
    fp.syn = fq.syn ∧ fp.deps = fq.deps ∧ fp.trans = fq.trans :=
  h.desc.same_trans h'.desc h.seen h'.seen hp hq

omit hsr in
/-- In both pools a written name means the same. -/
theorem Settled.same_meant (h : Settled env acc p) (h' : Settled env acc q) (hw : WellNamed acc) {i : Nat} {enums : Bool}
    {scope name n n' : Name} (hp : Meant acc p i enums scope name n) (hq : Meant acc q i enums scope name n') :
    n = n' := by
  obtain ⟨fp, a, h1, _, h2, h3⟩ := hp
  obtain ⟨fq, b, g1, _, g2, g3⟩ := hq
  have := (h.same_trans h' h1 g1).2.2
  rw [← this] at g2 g3
  exact h3.level hw h2 g2 g3

end

/-! ### The tables -/

section
variable {env : Env} {acc : List FileP} {p q : Pool}

/-- A name stands for the same message or enum in both. -/
theorem Desc.same_kind (D : Desc env acc p) (D' : Desc env acc q) {n : Name} {k k' : Kind}
    (h : KindNamed p n k) (h' : KindNamed q n k') : k = k' := by
  have look : ∀ {r : Pool} {k : Kind}, Desc env acc r → KindNamed r n k → ∃ e ∈ visit {} acc, ∃ fi path,
      (∃ t, k = .message t ∧ e.defn = some (n, ⟨fi, path, .message t⟩)) ∨
      ∃ t, k = .enum t ∧ e.defn = some (n, ⟨fi, path, .enum t⟩) := by
    intro r k D h
    cases k with
    | message t =>
      obtain ⟨d, h1, rfl⟩ := h
      obtain ⟨path, full, fi, parent, m, he, hid, _⟩ := D.message_at h1
      exact ⟨_, he, fi, path, .inl ⟨t, rfl, by rw [hid]; rfl⟩⟩
    | enum t =>
      obtain ⟨d, h1, rfl⟩ := h
      obtain ⟨path, full, fi, parent, m, he, hid, _⟩ := D.enum_at h1
      exact ⟨_, he, fi, path, .inr ⟨t, rfl, by rw [hid]; rfl⟩⟩
    | _ => exact h.elim
  obtain ⟨e, he, fi, path, h1⟩ := look D h
  obtain ⟨e', he', fi', path', h1'⟩ := look D' h'
  rcases h1 with ⟨t, rfl, h1⟩ | ⟨t, rfl, h1⟩ <;> rcases h1' with ⟨t', rfl, h1'⟩ | ⟨t', rfl, h1'⟩ <;>
    (have := D.unique he he' h1 h1'; simp only [Def.mk.injEq, DefKind.message.injEq, DefKind.enum.injEq,
      reduceCtorEq, and_false] at this) <;> (obtain ⟨_, _, rfl⟩ := this; rfl)

theorem Desc.lens (D : Desc env acc p) (D' : Desc env acc q) : p.messages.length = q.messages.length ∧
    p.enums.length = q.enums.length ∧ p.extensions.length = q.extensions.length ∧
    p.services.length = q.services.length := by
  have h : p.offs = q.offs := D.offs.trans D'.offs.symm
  refine ⟨congrArg Offs.message h, congrArg Offs.enum h, congrArg Offs.extension h, congrArg Offs.service h⟩

end

end Verif.Pool
