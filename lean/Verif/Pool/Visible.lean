import Verif.Pool.ScopeSpec
/-!
Which files the builder lets a file refer to, compared with the imports it declares.
-/
set_option autoImplicit false
namespace Verif.Pool
open Verif.Wire Verif.Dyn

/-- File `i` imports file `j`. -/
def Imports (acc : List FileP) (i j : Nat) : Prop :=
  ∃ f g, acc[i]? = some f ∧ acc[j]? = some g ∧ g.name ∈ f.deps

/-- File `i` imports file `j` publicly. -/
def PublicImports (acc : List FileP) (i j : Nat) : Prop :=
  ∃ f g, ∃ k : Nat, acc[i]? = some f ∧ acc[j]? = some g ∧ f.deps[k]? = some g.name ∧
    (k : Int) ∈ f.publicDeps

/-- A chain of public imports, possibly empty, leads from file `i` to file `j`. -/
inductive PublicChain (acc : List FileP) : Nat → Nat → Prop where
  | refl (i : Nat) : PublicChain acc i i
  | step (i j k : Nat) : PublicImports acc i j → PublicChain acc j k → PublicChain acc i k

/-- What file `i` may refer to according to the language: itself, its imports, and what those
import publicly, through any number of steps. -/
def Visible (acc : List FileP) (i j : Nat) : Prop :=
  i = j ∨ ∃ h, Imports acc i h ∧ PublicChain acc h j

/-- The same with at most one public step. -/
def NearlyVisible (acc : List FileP) (i j : Nat) : Prop :=
  i = j ∨ Imports acc i j ∨ ∃ h, Imports acc i h ∧ PublicImports acc h j

theorem NearlyVisible.visible {acc : List FileP} {i j : Nat} (h : NearlyVisible acc i j) :
    Visible acc i j := by
  rcases h with h | h | ⟨k, h1, h2⟩
  · exact .inl h
  · exact .inr ⟨j, h, .refl j⟩
  · exact .inr ⟨k, h1, .step k j j h2 (.refl j)⟩

/-! On pools. -/

def PubP (files : List FileD) (fileNames : List (Name × Nat)) (a b : Nat) : Prop :=
  ∃ f n, ∃ k : Nat, files[a]? = some f ∧ f.raw.deps[k]? = some n ∧ (k : Int) ∈ f.raw.publicDeps ∧
    lookupN fileNames n = some b

inductive ChainP (files : List FileD) (fileNames : List (Name × Nat)) : Nat → Nat → Prop where
  | refl (i : Nat) : ChainP files fileNames i i
  | step (i j k : Nat) : PubP files fileNames i j → ChainP files fileNames j k →
      ChainP files fileNames i k

section
variable {files : List FileD} {fileNames : List (Name × Nat)}

theorem publicLoop_spec {pub : List Int} {rec : List Nat → Nat → Res (List Nat)} {a : Nat}
    {f : FileD} (hf : files[a]? = some f) (hpub : f.raw.publicDeps = pub)
    (hrec : ∀ ds i ds', rec ds i = .ok ds' →
      (∀ x ∈ ds, x ∈ ds') ∧ ∀ x ∈ ds', x ∈ ds ∨ ChainP files fileNames i x) :
    ∀ (r : List Name) (i : Nat) (ds ds' : List Nat), f.raw.deps.drop i = r →
      publicLoop fileNames pub rec i r ds = .ok ds' →
      (∀ x ∈ ds, x ∈ ds') ∧ (∀ x ∈ ds', x ∈ ds ∨ ChainP files fileNames a x) ∧
      ∀ (k : Nat) n b, i ≤ k → f.raw.deps[k]? = some n → (k : Int) ∈ pub →
        lookupN fileNames n = some b → b ∈ ds'
  | [], i, ds, ds', hr, h => by
    simp only [publicLoop, Except.ok.injEq] at h
    subst h
    refine ⟨fun x h => h, fun x h => .inl h, fun k n b hk hn => ?_⟩
    have h1 := getElem?_lt hn
    have h2 := congrArg List.length hr
    simp only [List.length_drop, List.length_nil] at h2
    omega
  | d :: r, i, ds, ds', hr, h => by
    have hd : f.raw.deps[i]? = some d := by
      have := congrArg (·[0]?) hr
      simpa using this
    have hr' : f.raw.deps.drop (i + 1) = r := by
      have := congrArg (List.drop 1) hr
      simpa [List.drop_drop, Nat.add_comm] using this
    simp only [publicLoop] at h
    have next : ∀ ds1, publicLoop fileNames pub rec (i + 1) r ds1 = .ok ds' →
        (∀ x ∈ ds, x ∈ ds1) → (∀ x ∈ ds1, x ∈ ds ∨ ChainP files fileNames a x) →
        (∀ b, (i : Int) ∈ pub → lookupN fileNames d = some b → b ∈ ds1) →
        (∀ x ∈ ds, x ∈ ds') ∧ (∀ x ∈ ds', x ∈ ds ∨ ChainP files fileNames a x) ∧
        ∀ (k : Nat) n b, i ≤ k → f.raw.deps[k]? = some n → (k : Int) ∈ pub →
          lookupN fileNames n = some b → b ∈ ds' := by
      intro ds1 h1 m1 m2 m3
      obtain ⟨g1, g2, g3⟩ := publicLoop_spec hf hpub hrec r (i + 1) ds1 ds' hr' h1
      refine ⟨fun x hx => g1 x (m1 x hx), fun x hx => ?_, fun k n b hk hn hp hl => ?_⟩
      · rcases g2 x hx with h | h
        · exact m2 x h
        · exact .inr h
      · rcases Nat.lt_or_eq_of_le hk with hlt | rfl
        · exact g3 k n b hlt hn hp hl
        · rw [hd] at hn; cases hn
          exact g1 b (m3 b hp hl)
    split at h
    · next di hl =>
      split at h
      · next hp =>
        rw [List.contains_iff_mem] at hp
        have hPub : PubP files fileNames a di := ⟨f, d, i, hf, hd, hpub ▸ hp, hl⟩
        split at h
        · next hc =>
          split at h
          · next ds1 hr1 =>
            obtain ⟨m1, m2⟩ := hrec _ _ _ hr1
            refine next ds1 h m1 (fun x hx => ?_) (fun b _ hb => ?_)
            · rcases m2 x hx with h | h
              · exact .inl h
              · exact .inr (.step _ _ _ hPub h)
            · rw [hl] at hb; cases hb
              exact m1 _ (List.contains_iff_mem.1 hc)
          · cases h
        · refine next (di :: ds) h (fun x hx => List.mem_cons_of_mem _ hx) (fun x hx => ?_)
            (fun b _ hb => ?_)
          · rcases List.mem_cons.1 hx with rfl | hx
            · exact .inr (.step _ _ _ hPub (.refl _))
            · exact .inl hx
          · rw [hl] at hb; cases hb
            exact List.mem_cons_self ..
      · next hp =>
        rw [List.contains_iff_mem] at hp
        exact next ds h (fun x h => h) (fun x h => .inl h) fun b hb _ => absurd hb hp
    · next hl =>
      exact next ds h (fun x h => h) (fun x h => .inl h) fun b _ hb => by rw [hl] at hb; cases hb

theorem resolvePublic_spec : ∀ (fuel : Nat) (ds : List Nat) (a : Nat) (ds' : List Nat),
    resolvePublic files fileNames fuel ds a = .ok ds' →
      (∀ x ∈ ds, x ∈ ds') ∧ (∀ x ∈ ds', x ∈ ds ∨ ChainP files fileNames a x) ∧
      ∀ b, PubP files fileNames a b → b ∈ ds'
  | 0, _, _, _, h => by cases h
  | fuel + 1, ds, a, ds', h => by
    rw [resolvePublic] at h
    split at h
    · next f hf =>
      obtain ⟨g1, g2, g3⟩ := publicLoop_spec hf rfl
        (fun ds i ds' h =>
          let ⟨h1, h2, _⟩ := resolvePublic_spec fuel ds i ds' h
          ⟨h1, h2⟩) _ 0 ds ds' (by simp) h
      refine ⟨g1, g2, ?_⟩
      rintro b ⟨f', n, k, h1, h2, h3, h4⟩
      rw [hf] at h1; cases h1
      exact g3 k n b (Nat.zero_le _) h2 h3 h4
    · cases h

theorem visLoop_spec {stack : Nat} : ∀ (ds tr tr' : List Nat),
    visLoop files fileNames stack ds tr = .ok tr' →
      (∀ x ∈ tr, x ∈ tr') ∧
      (∀ x ∈ tr', x ∈ tr ∨ ∃ d ∈ ds, ChainP files fileNames d x) ∧
      ∀ d ∈ ds, d ∈ tr' ∧ ∀ b, PubP files fileNames d b → b ∈ tr'
  | [], tr, tr', h => by
    simp only [visLoop, Except.ok.injEq] at h
    subst h
    exact ⟨fun x h => h, fun x h => .inl h, by simp⟩
  | d :: ds, tr, tr', h => by
    rw [visLoop] at h
    split at h
    · cases h
    · next tr1 h1 =>
      obtain ⟨a1, a2, a3⟩ := resolvePublic_spec _ _ _ _ h1
      obtain ⟨b1, b2, b3⟩ := visLoop_spec ds tr1 tr' h
      have hm : ∀ x, x ∈ (if tr.contains d then tr else d :: tr) ↔ x ∈ tr ∨ x = d := by
        intro x
        split
        · next hc =>
          rw [List.contains_iff_mem] at hc
          exact ⟨.inl, fun h => h.elim id fun h => h ▸ hc⟩
        · simp only [List.mem_cons]
          exact ⟨fun h => h.symm, fun h => h.symm⟩
      refine ⟨fun x hx => b1 x (a1 x ((hm x).2 (.inl hx))), fun x hx => ?_, fun e he => ?_⟩
      · rcases b2 x hx with h | ⟨e, he, hc⟩
        · rcases a2 x h with h | h
          · rcases (hm x).1 h with h | rfl
            · exact .inl h
            · exact .inr ⟨_, List.mem_cons_self .., .refl _⟩
          · exact .inr ⟨_, List.mem_cons_self .., h⟩
        · exact .inr ⟨e, List.mem_cons_of_mem _ he, hc⟩
      · rcases List.mem_cons.1 he with rfl | he
        · exact ⟨b1 _ (a1 _ ((hm _).2 (.inr rfl))), fun b hb => b1 _ (a3 b hb)⟩
        · exact b3 e he

end

section
variable {env : Env} {acc : List FileP} {p : Pool}

theorem stripFile_deps {a b : FileP} (h : stripFile a = stripFile b) :
    a.deps = b.deps ∧ a.publicDeps = b.publicDeps := by
  have h1 := congrArg FileP.deps h
  have h2 := congrArg FileP.publicDeps h
  simp only [stripFile] at h1 h2
  exact ⟨h1, h2⟩

/-- The files of a pool are those of `acc`, and are found by their names. -/
structure FilesAre (acc : List FileP) (files : List FileD) (fileNames : List (Name × Nat)) : Prop where
  at' : ∀ {i : Nat} {f : FileP}, acc[i]? = some f →
    ∃ fd, files[i]? = some fd ∧ stripFile fd.raw = stripFile f
  inv : ∀ {i : Nat} {fd : FileD}, files[i]? = some fd →
    ∃ f, acc[i]? = some f ∧ stripFile fd.raw = stripFile f
  name_iff : ∀ {n : Name} {i : Nat}, lookupN fileNames n = some i ↔ ∃ f, acc[i]? = some f ∧ f.name = n

theorem Desc.filesAre (h : Desc env acc p) : FilesAre acc p.files p.fileNames where
  at' hf := by
    obtain ⟨fd, h1, _, hs, _⟩ := h.file_at hf
    exact ⟨fd, h1, hs⟩
  inv hf := by
    obtain ⟨f, hf, _, hs, _⟩ := h.file_inv hf
    exact ⟨f, hf, hs⟩
  name_iff := by
    intro n i
    constructor
    · intro hl
      exact h.fileNames _ (lookupN_mem hl)
    · rintro ⟨f, hf, rfl⟩
      obtain ⟨_, _, _, _, _, _, _, h1⟩ := h.file_at hf
      exact h1

section
variable {files : List FileD} {fileNames : List (Name × Nat)}

theorem FilesAre.pub_iff (h : FilesAre acc files fileNames) {i j : Nat} :
    PubP files fileNames i j ↔ PublicImports acc i j := by
  constructor
  · rintro ⟨fd, n, k, h1, h2, h3, h4⟩
    obtain ⟨f, hf, hs⟩ := h.inv h1
    obtain ⟨g, hg, rfl⟩ := h.name_iff.1 h4
    obtain ⟨e1, e2⟩ := stripFile_deps hs
    exact ⟨f, g, k, hf, hg, e1 ▸ h2, e2 ▸ h3⟩
  · rintro ⟨f, g, k, hf, hg, h2, h3⟩
    obtain ⟨fd, h1, hs⟩ := h.at' hf
    obtain ⟨e1, e2⟩ := stripFile_deps hs
    exact ⟨fd, g.name, k, h1, e1 ▸ h2, e2 ▸ h3, h.name_iff.2 ⟨g, hg, rfl⟩⟩

theorem FilesAre.chain (h : FilesAre acc files fileNames) {i j : Nat}
    (hc : ChainP files fileNames i j) : PublicChain acc i j := by
  induction hc with
  | refl i => exact .refl i
  | step i j k h1 _ ih => exact .step i j k (h.pub_iff.1 h1) ih

theorem FilesAre.imports_iff (h : FilesAre acc files fileNames) {i j : Nat} {f : FileP}
    (hf : acc[i]? = some f) {deps : List Nat} (hd : f.deps.map (lookupN fileNames) = deps.map some) :
    j ∈ deps ↔ Imports acc i j := by
  have hm : some j ∈ f.deps.map (lookupN fileNames) ↔ j ∈ deps := by
    rw [hd, List.mem_map]
    exact ⟨fun ⟨x, h1, h2⟩ => by cases h2; exact h1, fun h => ⟨j, h, rfl⟩⟩
  rw [← hm, List.mem_map]
  constructor
  · rintro ⟨n, hn, hl⟩
    obtain ⟨g, hg, rfl⟩ := h.name_iff.1 hl
    exact ⟨f, g, hf, hg, hn⟩
  · rintro ⟨f', g, hf', hg, hn⟩
    rw [hf] at hf'; cases hf'
    exact ⟨g.name, hn, h.name_iff.2 ⟨g, hg, rfl⟩⟩

theorem FilesAre.trans_of (h : FilesAre acc files fileNames) {stack i : Nat} {f : FileP}
    {deps trans : List Nat} (hf : acc[i]? = some f)
    (hd : f.deps.map (lookupN fileNames) = deps.map some)
    (hv : visLoop files fileNames stack deps [i] = .ok trans) :
    (∀ j ∈ trans, Visible acc i j) ∧ ∀ j, NearlyVisible acc i j → j ∈ trans := by
  obtain ⟨h1, h2, h3⟩ := visLoop_spec _ _ _ hv
  refine ⟨fun j hj => ?_, fun j hj => ?_⟩
  · rcases h2 j hj with h0 | ⟨d, hd', hc⟩
    · exact .inl (List.mem_singleton.1 h0).symm
    · exact .inr ⟨d, (h.imports_iff hf hd).1 hd', h.chain hc⟩
  · rcases hj with rfl | hj | ⟨k, hk, hj⟩
    · exact h1 _ (List.mem_cons_self ..)
    · exact (h3 j ((h.imports_iff hf hd).2 hj)).1
    · exact (h3 k ((h.imports_iff hf hd).2 hk)).2 j (h.pub_iff.2 hj)

end

/-- The files a new file may refer to lie between the two notions of visibility. -/
theorem Desc.trans_of (h : Desc env acc p) {i : Nat} {f : FileP} {fd : FileD}
    (hf : acc[i]? = some f) (hd : f.deps.map (lookupN p.fileNames) = fd.deps.map some)
    (hv : visLoop p.files p.fileNames env.stack fd.deps [i] = .ok fd.trans) :
    (∀ j ∈ fd.trans, Visible acc i j) ∧ ∀ j, NearlyVisible acc i j → j ∈ fd.trans :=
  h.filesAre.trans_of hf hd hv

end
end Verif.Pool
