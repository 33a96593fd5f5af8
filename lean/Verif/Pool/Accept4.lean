import Verif.Pool.Accept3
/-!
Valid files are accepted.
-/
set_option autoImplicit false
namespace Verif.Pool
open Verif.Wire Verif.Dyn

section
variable {env : Env} {acc fs : List FileP} {p q q0 : Pool} {vis : Nat → Nat → Prop}

/-- Default values that can be read can be read without a panic. -/
theorem DefaultValid.safe {all : List FileP} {vis : Nat → Prop} {scope : Name} {f : FieldP}
    (h : DefaultValid env all vis scope f) : DefaultSafe env.checks f := by
  intro h0 hty s hs
  obtain ⟨k, v, hk, hp⟩ := (h s hs).1 h0
  rw [hty] at hk
  cases hk
  simp only [parseSimple] at hp
  cases hu : unescape env.checks (utf8Encode s) with
  | ok r => exact ⟨r, rfl⟩
  | error x => simp [hu] at hp

theorem Valid.fileSafe (v : Valid env acc fs vis) : ∀ f ∈ fs, FileSafe env.checks f := by
  intro f hf path s x hx
  obtain ⟨i, hi⟩ := List.getElem?_of_mem hf
  rcases hx with hx | hx
  · cases hx with
    | field path s m i x h hx =>
      exact ((v.messages _ f hi _ _ m h).fields x (List.mem_of_getElem? hx)).default.safe
  · exact (v.exts _ f hi _ _ x hx).default.safe

theorem optErrs_none : ∀ {evs : List Event}, (∀ e ∈ evs, env.optErr q e = .ok false) →
    optErrs env q evs = .ok []
  | [], _ => rfl
  | e :: es, h => by
    have ih := optErrs_none (evs := es) fun e he => h e (List.mem_cons_of_mem _ he)
    simp only [optErrs, h e (by simp), ih]
    rfl

/-- The second pass reports nothing. -/
theorem resolve_pass_silent (hsr : SearchOk env.search)
    (hv : ValidAs env acc fs) (h : Desc env acc p)
    (hne : [] ∉ fs.flatMap fileDecls) {c : Cnt}
    (hc : Cnt.run p.offs (Cnt.start p.offs) (visit p.offs fs) = some c)
    (hN : Names1 p (visit p.offs fs) c q0)
    (hcf : c.file = p.files.length + fs.length) (hfr : Frame p q0) {st : St}
    (hs : runPass (resolveStep env) ⟨q0, []⟩ (visit p.offs fs) = .ok st) : st.errors = [] := by
  refine pass_inv_at (o := p.offs) (evs := visit p.offs fs)
    (fun pre c' st => st.errors = [] ∧ Pass2 env p.offs q0 (visit p.offs fs) c pre c' st.pool ∧
      Frame p st.pool) ?_ (visit p.offs fs) [] _ c _ st rfl rfl hc
    ⟨rfl, Pass2.start hc hN, hfr⟩ hs |>.1
  rintro pre e post c1 st1 c2 st2 hev hcs hrun ⟨he, I, hf⟩ hs1
  have hmem : e ∈ visit p.offs fs := by rw [← hev]; simp
  have fine := resolveFine hsr hv h hne hc (mid_of h hN hcf hf I) hev hrun hcs I
  have he2 : st2.errors = [] := by rw [resolve_silent fine hs1]; exact he
  obtain ⟨_, eff⟩ := resolve_eff hs1 he2
  exact ⟨he2, I.step hsr hmem (visit_scoped hmem) hcs eff, resolve_frame I.above.all hcs hf hs1⟩

/-- Valid files are accepted. -/
theorem valid_accepted (hsr : SearchOk env.search) (h : Desc env acc p) (hn : NamesIn p)
    (hv : ValidAs env acc fs)
    (hne : [] ∉ fs.flatMap fileDecls) (hfresh : ∀ f ∈ fs, lookupN p.fileNames f.name = none)
    (hr : RankedP env.stack (acc ++ fs))
    (hopt : ∀ q, ∀ e ∈ visit p.offs fs, env.optErr q e = .ok false) :
    ∃ q, buildDeduped env p.offs p fs = .ok ⟨q, []⟩ := by
  obtain ⟨_, v⟩ := hv.any
  obtain ⟨q0, c, h1, hc, ha, hN⟩ := v.names_pass h hn hne hfresh
  have hcf : c.file = p.files.length + fs.length := by rw [ha.file, offsAfter_file]; rfl
  have hfr : Frame p q0 := names_pass_frame hfresh h1
  have hin : ∀ e ∈ visit p.offs fs, EvIn q0 e := fun e he => hN.evIn hc he
  obtain ⟨st2, h2, s2⟩ := resolve_runs hsr hc (hN.ready h hn hc hcf hfr hr) (hN.tab hc) hin
    (fun e he => evSafe v.fileSafe he)
  have he2 := resolve_pass_silent hsr hv h hne hc hN hcf hfr h2
  obtain ⟨st3, h4⟩ := apply_runs (env := env) (p := st2.pool) (visit p.offs fs) ⟨st2.pool, []⟩ s2 hin
  refine ⟨{ st3.pool with files := sealFiles p.offs.file st3.pool.files }, ?_⟩
  unfold buildDeduped
  simp only [h1, bind, Except.bind, ne_eq, not_true, if_false, h2, he2, optErrs_none (hopt st2.pool), h4]

end
end Verif.Pool
