import Verif.Pool.Rebuild3
import Verif.Props.PoolAccept
/-!
The descriptors a pool hands out are accepted by an empty pool.
-/
set_option autoImplicit false
namespace Verif.Pool
open Verif.Wire Verif.Dyn Verif.Props

theorem Event.strip_full (e : Event) : e.strip.full = e.full := by cases e <;> rfl

theorem decls_alike {fs gs : List FileP} (h : fs.map stripFile = gs.map stripFile) :
    fs.flatMap fileDecls = gs.flatMap fileDecls := by
  have key : ∀ l : List FileP, l.flatMap fileDecls = (visit {} (l.map stripFile)).filterMap Event.full := by
    intro l
    rw [visit_strip, List.filterMap_map, ← visit_full_names l {}]
    congr 1
    funext e
    exact (Event.strip_full e).symm
  rw [key, key, h]

theorem publicImports_alike {fs gs : List FileP} (h : fs.map stripFile = gs.map stripFile) {i j : Nat}
    (hp : PublicImports fs i j) : PublicImports gs i j := by
  obtain ⟨f, g, k, hf, hg, h2, h3⟩ := hp
  obtain ⟨f', hf', e1⟩ := file_alike h hf
  obtain ⟨g', hg', e2⟩ := file_alike h hg
  obtain ⟨e3, e4⟩ := stripFile_deps e1
  refine ⟨f', g', k, hf', hg', ?_, ?_⟩
  · rw [e3, (stripFile_rest e2).1]; exact h2
  · rw [e4]; exact h3

theorem publicPlus_alike {fs gs : List FileP} (h : fs.map stripFile = gs.map stripFile) {i j : Nat}
    (hp : PublicPlus fs i j) : PublicPlus gs i j := by
  obtain ⟨k, h1, h2⟩ := hp
  refine ⟨k, publicImports_alike h h1, ?_⟩
  clear h1
  induction h2 with
  | refl => exact .refl _
  | step i j k h1 _ ih => exact .step _ _ _ (publicImports_alike h h1) ih

theorem wellNamed_alike {fs gs : List FileP} (h : fs.map stripFile = gs.map stripFile) (hw : WellNamed gs) :
    WellNamed fs := by
  intro f hf path s x hx
  obtain ⟨i, hi⟩ := List.getElem?_of_mem hf
  obtain ⟨g, hg, e⟩ := file_alike h hi
  obtain ⟨y, hy, hs⟩ := Has.strip e hx
  have := hw g (List.mem_of_getElem? hg) _ _ _ hy
  rwa [← Item.strip_name y, hs, Item.strip_name] at this

theorem wellNamed_decls {fs : List FileP} (hw : WellNamed fs) : [] ∉ fs.flatMap fileDecls := by
  intro hm
  obtain ⟨f, hf, hm⟩ := List.mem_flatMap.1 hm
  obtain ⟨path, s, x, hx, h0⟩ := mem_fileDecls.1 hm
  exact qualified_ne_nil (hw f hf _ _ _ hx).1 h0.symm

section
variable {env : Env} {st : List FileP} {p q : Pool}

/-- The set of a file does not depend on the pool it is computed in. -/
theorem Settled.trans_as (S : Settled env st p) (M : FilesAre st q.files q.fileNames) {j : Nat} {f : FileP}
    {fd : FileD} {deps tr : List Nat} (hf : st[j]? = some f) (hfd : p.files[j]? = some fd)
    (hd : f.deps.map (lookupN q.fileNames) = deps.map some)
    (hv : visLoop q.files q.fileNames env.stack deps [j] = .ok tr) : tr = fd.trans := by
  have D := S.desc
  have names : ∀ n, lookupN p.fileNames n = lookupN q.fileNames n := by
    intro n
    apply Option.ext
    intro i
    rw [D.filesAre.name_iff, M.name_iff]
  obtain ⟨fd', a1, _, _, _, a2, _⟩ := D.file_at hf
  rw [hfd] at a1; cases a1
  have hdeps : fd.deps = deps := by
    have : fd.deps.map some = deps.map some := by
      rw [← a2, ← hd]
      exact List.map_congr_left fun n _ => names n
    exact map_some_inj this
  have hL : Level p.files q.files p.fileNames q.fileNames st.length :=
    { imports := by
        intro i hi
        obtain ⟨fd, c1, _, c2, _⟩ := D.file_at (List.getElem?_eq_getElem hi)
        obtain ⟨fd', d1, d2⟩ := M.at' (List.getElem?_eq_getElem hi)
        rw [c1, d1]
        obtain ⟨e1, e2⟩ := stripFile_deps (c2.trans d2.symm)
        simp only [Option.map_some, FileD.imports, e1, e2]
      found := by
        intro i f _ hf n hn
        obtain ⟨j, c1, c2⟩ := (D.deps_found hf).1 n hn
        exact ⟨j, c1, c2, (names n) ▸ c2⟩ }
  have h1 := S.seen _ _ hfd
  rw [visLoop_level hL env.stack _ _ (D.deps_found hfd).2, hdeps, hv] at h1
  exact Except.ok.inj h1

end

section
variable {env : Env} (hsr : SearchOk env.search) {acc : List FileP} {p : Pool}
include hsr

theorem Hist.resettled (h : Hist env acc p) (hkp : KeepsPacked env) (hw : WellNamed acc) :
    Settled env p.protos p where
  desc := h.redesc hsr hkp hw
  refs := Desc.refs_made (acc := []) (new := p.protos) rfl (h.redesc hsr hkp hw) (h.remade hsr hkp hw)
  seen := h.seen hsr

theorem Hist.revalid (h : Hist env acc p) (hkp : KeepsPacked env) (hw : WellNamed acc) :
    ValidAs env [] p.protos := by
  have S := h.resettled hsr hkp hw
  have hst := (h.desc hsr).protos
  have M : Made env Pool.empty.offs p.protos p := ⟨S.desc.evs, h.remade hsr hkp hw⟩
  have hw' := wellNamed_alike hst hw
  have hnd : (p.protos.flatMap fileDecls).Nodup := by rw [decls_alike hst]; exact h.nodup hsr
  have hv := added_valid (Desc.empty env) M S.desc hnd (wellNamed_decls hw')
  refine ⟨⟨_, hv⟩, fun {q} F {j f deps tr} hf hd ht => ⟨_, hv, ?_⟩⟩
  obtain ⟨fd, h1, _, _, h2⟩ := new_file (Desc.empty env) M S.desc hf
  rw [h2]
  have e : ([] : List FileP).length + j = j := Nat.zero_add j
  rw [e] at h1 ht
  rw [S.trans_as F hf h1 hd ht]

/-- The descriptors of a pool make up an equal pool. -/
theorem Hist.rebuild (h : Hist env acc p) (hkp : KeepsPacked env) (hw : WellNamed acc)
    (hcyc : ∀ i, ¬ PublicPlus acc i i) (hstack : acc.length ≤ env.stack)
    (hopt : ∀ q, ∀ e ∈ visit {} p.protos, env.optErr q e = .ok false) :
    ∃ q, buildFiles env Pool.empty p.protos = .ok ⟨q, []⟩ ∧ Hist env p.protos q := by
  have hst := (h.desc hsr).protos
  have hlen : p.protos.length = acc.length := by
    have := congrArg List.length hst
    rwa [List.length_map, List.length_map] at this
  have hfil : (p.protos.filter fun f => (lookupN Pool.empty.fileNames f.name).isNone) = p.protos :=
    List.filter_eq_self.2 fun f _ => rfl
  obtain ⟨q, hq⟩ := valid_accepted hsr (Desc.empty env) (fun x hx => by cases hx) (h.revalid hsr hkp hw)
    (wellNamed_decls (wellNamed_alike hst hw)) (fun f _ => rfl)
    (rankedP_of_acyclic (fun i hp => hcyc i (publicPlus_alike hst hp)) (by rw [List.nil_append, hlen]; exact hstack))
    hopt
  have hb : ∃ q, buildFiles env Pool.empty p.protos = .ok ⟨q, []⟩ := by
    unfold buildFiles
    simp only [hfil, hq, ne_eq, not_true, if_false]
    split
    · exact ⟨_, rfl⟩
    · exact ⟨_, rfl⟩
  obtain ⟨q', hb⟩ := hb
  have := Hist.accept [] Pool.empty p.protos q' .empty hb
  rw [hfil] at this
  exact ⟨q', hb, this⟩

end
end Verif.Pool
