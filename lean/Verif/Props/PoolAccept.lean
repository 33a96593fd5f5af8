import Verif.Pool.Accept5
import Verif.Props.PoolTotal
/-!
C88: which files are accepted.

`Valid env acc fs vis` (`Verif.Pool.Valid`) spells out, over the files alone, the rules that new files
`fs` must keep after the files `acc`.  `vis i j` says that file `i` may refer to file `j`; the sets the
library computes lie between imports with one public step and imports with any number of them
(`Between`, see C23).
-/
set_option autoImplicit false
namespace Verif.Props
open Verif.Wire Verif.Dyn Verif.Pool

section
variable {env : Env} (hsr : SearchOk env.search) {given acc : List FileP} {p q : Pool} {fs : List FileP}
include hsr

/-- **C88, valid files are accepted.** After any history of additions, adding a batch succeeds if its new
files are valid, whichever of the two readings of visibility is taken, and nothing is declared with an
empty full name.  The other hypotheses are those under which additions return at all (C24), and that
no option is wrong. -/
theorem C88_accepted_partial (h : Given env given acc p) (hdot : ∀ f ∈ given, f.package.head? ≠ some '.')
    (hcyc : ∀ i, ¬ PublicPlus (acc ++ newFiles p fs) i i)
    (hstack : (acc ++ newFiles p fs).length ≤ env.stack)
    (hopt : ∀ q, ∀ e ∈ visit p.offs (newFiles p fs), env.optErr q e = .ok false)
    (hne : ∀ f ∈ newFiles p fs, ∀ path s x, Has f path s x → qualified s x.name ≠ [])
    (hv : ∀ vis, Between (acc ++ newFiles p fs) vis → Valid env acc (newFiles p fs) vis) :
    ∃ q, buildFiles env p fs = .ok ⟨q, []⟩ := by
  have hd : ∀ f ∈ given, NoDot f := by
    intro f hf r hr
    exact hdot f hf (by rw [hr]; rfl)
  have hne' : [] ∉ (newFiles p fs).flatMap fileDecls := by
    intro hm
    obtain ⟨f, hf, hm⟩ := List.mem_flatMap.1 hm
    obtain ⟨path, s, x, hx, h0⟩ := mem_fileDecls.1 hm
    exact hne f hf path s x hx h0.symm
  obtain ⟨q, hq⟩ := valid_accepted hsr (h.hist.desc hsr) (h.namesIn hsr hd) (.of_between hv) hne' mem_fresh
    (rankedP_of_acyclic hcyc hstack) hopt
  have hq' : buildDeduped env p.offs p (fs.filter fun f => (lookupN p.fileNames f.name).isNone) =
      .ok ⟨q, []⟩ := hq
  unfold buildFiles
  simp only [hq', ne_eq, not_true, if_false]
  split
  · exact ⟨_, rfl⟩
  · exact ⟨_, rfl⟩

/-- **C88, accepted files are valid.** If an addition succeeds, after any history, then its new files keep
every rule, for visible files between the two readings. -/
theorem C88_only (h : Hist env acc p) (hb : buildFiles env p fs = .ok ⟨q, []⟩)
    (hne : ∀ f ∈ newFiles p fs, ∀ path s x, Has f path s x → qualified s x.name ≠ []) :
    ∃ vis, Between (acc ++ newFiles p fs) vis ∧ Valid env acc (newFiles p fs) vis := by
  have hD := h.desc hsr
  have h' := Hist.accept acc p fs q h hb
  have hne' : [] ∉ (newFiles p fs).flatMap fileDecls := by
    intro hm
    obtain ⟨f, hf, hm⟩ := List.mem_flatMap.1 hm
    obtain ⟨path, s, x, hx, h0⟩ := mem_fileDecls.1 hm
    exact hne f hf path s x hx h0.symm
  rcases buildFiles_accept hsr hD.ok hb with ⟨h1, _⟩ | ha
  · rw [show newFiles p fs = [] from h1]
    exact ⟨NearlyVisible _, fun i j => ⟨id, fun h => h.visible⟩, valid_nil hD (h.nodup hsr)⟩
  · exact ⟨_, seen_between hD ha.made (h'.desc hsr), added_valid hD ha.made (h'.desc hsr) (h'.nodup hsr) hne'⟩

/-- **C88, both directions.** Where no chain of public imports has a second step, the two readings agree
and an addition succeeds exactly if the new files are valid. -/
theorem C88_iff_partial (h : Given env given acc p) (hdot : ∀ f ∈ given, f.package.head? ≠ some '.')
    (hcyc : ∀ i, ¬ PublicPlus (acc ++ newFiles p fs) i i)
    (hstack : (acc ++ newFiles p fs).length ≤ env.stack)
    (hopt : ∀ q, ∀ e ∈ visit p.offs (newFiles p fs), env.optErr q e = .ok false)
    (hne : ∀ f ∈ newFiles p fs, ∀ path s x, Has f path s x → qualified s x.name ≠ [])
    (hone : ∀ i j, Visible (acc ++ newFiles p fs) i j → NearlyVisible (acc ++ newFiles p fs) i j) :
    (∃ q, buildFiles env p fs = .ok ⟨q, []⟩) ↔
      Valid env acc (newFiles p fs) (Visible (acc ++ newFiles p fs)) := by
  have huniq : ∀ vis, Between (acc ++ newFiles p fs) vis → vis = Visible (acc ++ newFiles p fs) := by
    intro vis hb
    funext i j
    exact propext ⟨(hb i j).2, fun hv => (hb i j).1 (hone i j hv)⟩
  constructor
  · rintro ⟨q, hb⟩
    obtain ⟨vis, h1, h2⟩ := C88_only hsr h.hist hb hne
    rwa [huniq vis h1] at h2
  · intro hv
    refine C88_accepted_partial hsr h hdot hcyc hstack hopt hne fun vis hb => ?_
    rw [huniq vis hb]
    exact hv

/-- **C88, invalid files are rejected.** An addition whose new files break a rule in either reading, and
that returns, returns an error. -/
theorem C88_rejected (h : Hist env acc p)
    (hne : ∀ f ∈ newFiles p fs, ∀ path s x, Has f path s x → qualified s x.name ≠ [])
    (hv : ∀ vis, Between (acc ++ newFiles p fs) vis → ¬ Valid env acc (newFiles p fs) vis) {b : Built}
    (hb : buildFiles env p fs = .ok b) : b.errors ≠ [] := by
  obtain ⟨q, es⟩ := b
  rintro rfl
  obtain ⟨vis, h1, h2⟩ := C88_only hsr h hb hne
  exact hv vis h1 h2

end

/-! ### Examples -/

theorem no_empty {fs : List FileP} (h : [] ∉ fs.flatMap fileDecls) :
    ∀ f ∈ fs, ∀ path s x, Has f path s x → qualified s x.name ≠ [] := by
  intro f hf path s x hx h0
  exact h (List.mem_flatMap.2 ⟨f, hf, mem_fileDecls.2 ⟨path, s, x, hx, h0.symm⟩⟩)

theorem no_public {all : List FileP} (h : ∀ f ∈ all, f.publicDeps = []) (i j : Nat) :
    ¬ PublicImports all i j := by
  rintro ⟨f, g, k, h1, _, _, h2⟩
  rw [h f (List.mem_of_getElem? h1)] at h2
  cases h2

theorem no_public_plus {all : List FileP} (h : ∀ f ∈ all, f.publicDeps = []) (i : Nat) :
    ¬ PublicPlus all i i := fun ⟨_, h1, _⟩ => no_public h _ _ h1

theorem no_public_visible {all : List FileP} (h : ∀ f ∈ all, f.publicDeps = []) (i j : Nat)
    (hv : Visible all i j) : NearlyVisible all i j := by
  rcases hv with hv | ⟨k, h1, h2⟩
  · exact .inl hv
  · cases h2 with
    | refl => exact .inr (.inl h1)
    | step _ _ _ h3 _ => exact absurd h3 (no_public h _ _)

/-- `import "a.proto"; package c; message P { Missing m = 1; }` -/
def fileMissing : FileP where
  name := nm "m.proto"
  package := nm "c"
  deps := [nm "a.proto"]
  messages := [{
    name := nm "P"
    fields := [{ name := nm "m", number := 1, ty := .message, typeName := nm "Missing" }] }]

/-- After `a.proto` the hypotheses of `C88_iff_partial` hold of `b.proto` and of `m.proto`; the first is
valid and is accepted, the second is not and is not. -/
example : ∃ p, Given env0 ([] ++ [fileA]) [fileA] p ∧
    (Valid env0 [fileA] [fileB] (Visible [fileA, fileB]) ∧ ∃ q, buildFiles env0 p [fileB] = .ok ⟨q, []⟩) ∧
    (¬ Valid env0 [fileA] [fileMissing] (Visible [fileA, fileMissing]) ∧
      ¬ ∃ q, buildFiles env0 p [fileMissing] = .ok ⟨q, []⟩) := by
  have h : (match buildFiles env0 Pool.empty [fileA] with
      | .ok ⟨p, []⟩ => (lookupN p.fileNames (nm "b.proto")).isNone &&
          (lookupN p.fileNames (nm "m.proto")).isNone &&
          (match buildFiles env0 p [fileB], buildFiles env0 p [fileMissing] with
            | .ok ⟨_, []⟩, .ok ⟨_, _ :: _⟩ => true
            | _, _ => false)
      | _ => false) = true := by decide +kernel
  split at h
  · next p hb =>
    simp only [Bool.and_eq_true] at h
    obtain ⟨⟨hn1, hn2⟩, h⟩ := h
    have hg : Given env0 ([] ++ [fileA]) [fileA] p := .accept [] [] _ _ _ .empty hb
    have hdot : ∀ f ∈ [] ++ [fileA], f.package.head? ≠ some '.' := fun f hf => by
      simp only [List.nil_append, List.mem_singleton] at hf; subst hf; decide
    have h1 : newFiles p [fileB] = [fileB] := by
      have h1 : (lookupN p.fileNames fileB.name).isNone = true := hn1
      simp [newFiles, h1]
    have h2 : newFiles p [fileMissing] = [fileMissing] := by
      have h1 : (lookupN p.fileNames fileMissing.name).isNone = true := hn2
      simp [newFiles, h1]
    have p1 : ∀ f ∈ [fileA] ++ newFiles p [fileB], f.publicDeps = [] := by
      rw [h1]
      intro f hf
      simp only [List.singleton_append, List.mem_cons, List.not_mem_nil, or_false] at hf
      rcases hf with rfl | rfl <;> rfl
    have p2 : ∀ f ∈ [fileA] ++ newFiles p [fileMissing], f.publicDeps = [] := by
      rw [h2]
      intro f hf
      simp only [List.singleton_append, List.mem_cons, List.not_mem_nil, or_false] at hf
      rcases hf with rfl | rfl <;> rfl
    have i1 := C88_iff_partial (fs := [fileB]) linearSearch_ok hg hdot (no_public_plus p1)
      (by rw [h1]; decide) (fun _ _ _ => rfl) (no_empty (by rw [h1]; decide +kernel)) (no_public_visible p1)
    have i2 := C88_iff_partial (fs := [fileMissing]) linearSearch_ok hg hdot (no_public_plus p2)
      (by rw [h2]; decide) (fun _ _ _ => rfl) (no_empty (by rw [h2]; decide +kernel)) (no_public_visible p2)
    rw [h1] at i1
    rw [h2] at i2
    split at h
    · next q r e es hq hr =>
      refine ⟨p, hg, ⟨i1.1 ⟨q, hq⟩, q, hq⟩, ?_⟩
      have hno : ¬ ∃ q, buildFiles env0 p [fileMissing] = .ok ⟨q, []⟩ := by
        rintro ⟨q', hq'⟩
        rw [hr] at hq'
        cases hq'
      exact ⟨fun hv => hno (i2.2 hv), hno⟩
    · cases h
  · cases h

end Verif.Props
