import Verif.Props.PoolExample
import Verif.Props.PoolDefaults
import Verif.Pool.Runs3
/-!
C24: whether adding files always returns.
-/
set_option autoImplicit false
namespace Verif.Props
open Verif.Wire Verif.Dyn Verif.Pool

/-! ### Inputs that do not return -/

/-- **C24 is false: unknown syntax.** Adding a new file whose `syntax` is neither absent, `proto2` nor
`proto3` panics, on every pool: the error report looks at a file that has not been stored yet. -/
theorem C24_syntax_false (env : Env) (p : Pool) (f : FileP) (hn : lookupN p.fileNames f.name = none)
    (hs : parseSyn f.syn = none) : buildFiles env p [f] = .error .index := by
  have hfr : ([f].filter fun f => (lookupN p.fileNames f.name).isNone) = [f] := by
    simp [hn]
  have hev : ∃ es, visit p.offs [f] = .file [] p.files.length f :: es := ⟨_, rfl⟩
  obtain ⟨es, hes⟩ := hev
  have hrun : runPass namesStep ⟨p, []⟩ (visit p.offs [f]) = .error .index := by
    rw [hes]
    simp only [runPass, namesStep, hs, St.report, label, Nat.lt_irrefl, if_false]
    rfl
  unfold buildFiles
  simp only [hfr, List.cons_ne_nil, if_false]
  unfold buildDeduped
  simp only [hrun]
  rfl

/-- `edition = "2023"` files carry `syntax = "editions"`. -/
example : buildFiles env0 Pool.empty [{ name := nm "e.proto", syn := some (nm "editions") }] =
    .error .index :=
  C24_syntax_false _ _ _ rfl (by decide)

/-- A file that publicly imports itself. -/
def selfFile : FileP where
  name := nm "self.proto"
  deps := [nm "self.proto"]
  publicDeps := [0]

theorem self_public {fd : FileD} (h1 : fd.raw = selfFile) :
    ∀ fuel, resolvePublic [fd] [(nm "self.proto", 0)] fuel [0] 0 = .error .stack
  | 0 => rfl
  | fuel + 1 => by
    have ih := self_public h1 fuel
    simp only [resolvePublic, List.getElem?_cons_zero, h1]
    have : selfFile.deps = [nm "self.proto"] := rfl
    rw [this, show selfFile.publicDeps = [0] from rfl]
    simp only [publicLoop, lookupN, if_true]
    rw [if_pos (by decide), if_pos (by decide), ih]

/-- The pool after the first pass over `selfFile`. -/
def selfPool : Pool :=
  ⟨[], [(nm "self.proto", 0)], [{ syn := .proto2, raw := selfFile, prost := {}, deps := [], trans := [] }],
    [], [], [], []⟩

/-- **C24 is false: public import cycles.** Adding one file that publicly imports itself to an empty pool
overflows the stack, whatever its size. -/
theorem C24_cycle_false (env : Env) : buildFiles env Pool.empty [selfFile] = .error .stack := by
  have hev : visit Pool.empty.offs [selfFile] = [.file [] 0 selfFile] := rfl
  have h1 : runPass namesStep ⟨Pool.empty, []⟩ [.file [] 0 selfFile] = .ok ⟨selfPool, []⟩ := rfl
  have h2 : runPass (resolveStep env) ⟨selfPool, []⟩ [.file [] 0 selfFile] = .error .stack := by
    simp only [runPass, resolveStep, resolveFile]
    rw [show selfFile.deps = [nm "self.proto"] from rfl]
    simp only [depLoop, show lookupN selfPool.fileNames (nm "self.proto") = some 0 from rfl]
    rw [show modR selfPool.files 0 (fun f => { f with deps := f.deps ++ [0] }) =
      .ok [{ syn := .proto2, raw := selfFile, prost := {}, deps := [0], trans := [] }] from rfl]
    have := self_public (fd := { syn := .proto2, raw := selfFile, prost := {}, deps := [0], trans := [] })
      rfl env.stack
    simp only [bind, Except.bind, show [0].contains 0 = true from rfl, if_true,
      show selfPool.fileNames = [(nm "self.proto", 0)] from rfl, this]
  have hd : buildDeduped env Pool.empty.offs Pool.empty [selfFile] = .error .stack := by
    unfold buildDeduped
    simp only [hev, h1, bind, Except.bind]
    simp [h2]
  unfold buildFiles
  rw [show ([selfFile].filter fun f => (lookupN Pool.empty.fileNames f.name).isNone) = [selfFile] from rfl]
  simp only [List.cons_ne_nil, if_false, hd]

/-- A field with default value `\777`, an octal escape above 255. -/
def octalFile : FileP where
  name := nm "oct.proto"
  messages := [{
    name := nm "M"
    fields := [{ name := nm "b", number := 1, ty := .bytes, default := some (nm "\\777") }] }]

/-- **C24 is false: octal escapes.** With overflow checks on, a bytes field whose default value has an
octal escape above `\377` makes the addition panic. -/
theorem C24_octal_false : buildFiles env0 Pool.empty [octalFile] = .error .overflow := by rfl

/-- `b.proto` and `c.proto`, of package `.c`, whose import is unknown. -/
def dotFiles : List FileP :=
  [{ name := nm "b.proto" }, { name := nm "c.proto", package := nm ".c", deps := [nm "missing.proto"] }]

/-- A field of type `.`. -/
def dotUser : FileP where
  name := nm "d.proto"
  messages := [{
    name := nm "M"
    fields := [{ name := nm "x", number := 1, ty := .message, typeName := nm "." }] }]

/-- The three additions, run. -/
def dotRun : Bool :=
  match buildFiles env0 Pool.empty [{ name := nm "a.proto" }] with
  | .ok ⟨p, []⟩ =>
    match buildFiles env0 p dotFiles, buildFiles env0 p [dotUser] with
    | .ok ⟨q, _ :: _⟩, .ok ⟨_, _ :: _⟩ =>
      match buildFiles env0 q [dotUser] with
      | .error .index => true
      | _ => false
    | _, _ => false
  | _ => false

/-- **C24 is false: after a failed addition.** To a pool with one empty file add two files; the addition
fails because an import is unknown. A third file now makes the library panic, although adding it
without the failed addition in between returns an error: the roll-back keeps the package `""` that `.c`
introduced, which is attributed to a file that is gone. -/
theorem C24_rollback_false : ∃ p q e es, Reach env0 p ∧ buildFiles env0 p dotFiles = .ok ⟨q, e :: es⟩ ∧
    buildFiles env0 q [dotUser] = .error .index ∧
    ∃ b, buildFiles env0 p [dotUser] = .ok b ∧ b.errors ≠ [] := by
  have h : dotRun = true := by decide +kernel
  unfold dotRun at h
  split at h
  · next p h1 =>
    split at h
    · next q e es r e' es' h2 h3 =>
      split at h
      · next h4 => exact ⟨p, q, e, es, .add _ _ _ .empty h1, h2, h4, _, h3, by simp⟩
      · cases h
    · cases h
  · cases h

/-! ### Inputs that return -/

/-- A chain of at least one public import leads from file `i` to file `j`. -/
def PublicPlus (acc : List FileP) (i j : Nat) : Prop := ∃ k, PublicImports acc i k ∧ PublicChain acc k j

theorem PublicChain.trans' {acc : List FileP} {i j k : Nat} (h : PublicChain acc i j)
    (h' : PublicChain acc j k) : PublicChain acc i k := by
  induction h with
  | refl => exact h'
  | step i j _ h1 _ ih => exact .step i j k h1 (ih h')

theorem filter_lt {α : Type} {p q : α → Bool} (hpq : ∀ x, p x = true → q x = true) {a : α}
    (hq : q a = true) (hp : p a = false) :
    ∀ {l : List α}, a ∈ l → (l.filter p).length < (l.filter q).length
  | x :: l, h => by
    have hle : (l.filter p).length ≤ (l.filter q).length := by
      clear h
      induction l with
      | nil => simp
      | cons y l ih =>
        by_cases h1 : p y = true
        · simp [h1, hpq y h1, ih]
        · by_cases h2 : q y = true <;> simp [h1, h2] <;> omega
    rcases List.mem_cons.1 h with rfl | h
    · simp [hq, hp]; omega
    · have := filter_lt hpq hq hp h
      by_cases h1 : p x = true
      · simp [h1, hpq x h1, this]
      · by_cases h2 : q x = true <;> simp [h1, h2] <;> omega

theorem public_in {acc : List FileP} {i j : Nat} (h : PublicImports acc i j) : j < acc.length := by
  obtain ⟨_, _, _, _, h, _⟩ := h
  exact getElem?_lt h

theorem chain_in {acc : List FileP} {i j : Nat} (h : PublicChain acc i j) (hi : i < acc.length) :
    j < acc.length := by
  induction h with
  | refl => exact hi
  | step i j _ h1 _ ih => exact ih (public_in h1)

/-- Without cycles of public imports, counting what can be reached bounds the depth. -/
theorem rankedP_of_acyclic {acc : List FileP} {stack : Nat} (h : ∀ i, ¬ PublicPlus acc i i)
    (hs : acc.length ≤ stack) : RankedP stack acc := by
  classical
  refine ⟨fun i => ((List.range acc.length).filter fun k => decide (PublicPlus acc i k)).length, ?_, ?_⟩
  · intro i hi
    have := filter_lt (p := fun k => decide (PublicPlus acc i k)) (q := fun _ => true) (a := i)
      (fun _ _ => rfl) rfl (by simpa using h i) (List.mem_range.2 hi)
    rw [List.filter_eq_self.2 (fun _ _ => rfl), List.length_range] at this
    exact Nat.lt_of_lt_of_le this hs
  · intro i j hij
    refine filter_lt (a := j) ?_ (by simpa using ⟨j, hij, .refl j⟩) (by simpa using h j)
      (List.mem_range.2 (public_in hij))
    intro x hx
    simp only [decide_eq_true_eq] at hx ⊢
    obtain ⟨k, h1, h2⟩ := hx
    exact ⟨j, hij, .step j k x h1 h2⟩

/-- The files of a batch whose names are new to the pool. -/
def newFiles (p : Pool) (fs : List FileP) : List FileP :=
  fs.filter fun f => (lookupN p.fileNames f.name).isNone

/-- **C24, what holds.** After any history of additions, accepted or rejected, adding a batch returns,
with success or with errors, provided that

* no file given so far has a package beginning with a dot (`C24_rollback_false`);
* every new file has syntax `proto2`, `proto3` or none (`C24_syntax_false`);
* the default values of bytes fields are ASCII and, with overflow checks, contain no octal escape above
  `\377` (`C24_octal_false`, `C35_false_slice`);
* public imports, among the files accepted before and the new ones, form no cycle (`C24_cycle_false`),
  and the stack has room for one frame per file;
* resolving options returns.

Nothing else is assumed: names, numbers, types, imports, extension ranges, labels and nesting may be
anything. -/
theorem C24_returns_partial (env : Env) (hsr : SearchOk env.search) {given acc : List FileP} {p : Pool}
    (h : Given env given acc p) (hdot : ∀ f ∈ given, f.package.head? ≠ some '.') (fs : List FileP)
    (hsyn : ∀ f ∈ newFiles p fs, f.syn = none ∨ f.syn = some (nm "proto2") ∨ f.syn = some (nm "proto3"))
    (hdef : ∀ f ∈ newFiles p fs, ∀ path s x str, (Has f path s (.field x) ∨ Has f path s (.extension x)) →
      x.ty = .bytes → x.default = some str →
      (∀ b ∈ utf8Encode str, b.toNat < 128) ∧ (env.checks = false ∨ OctalsFit (utf8Encode str)))
    (hcyc : ∀ i, ¬ PublicPlus (acc ++ newFiles p fs) i i)
    (hstack : (acc ++ newFiles p fs).length ≤ env.stack)
    (hopt : ∀ q e, ∃ b, env.optErr q e = .ok b) : ∃ b, buildFiles env p fs = .ok b := by
  have hd : ∀ f ∈ given, NoDot f := by
    intro f hf r hr
    exact hdot f hf (by rw [hr]; rfl)
  have hm : ∀ f ∈ fs, lookupN p.fileNames f.name = none → f ∈ newFiles p fs := fun f h1 h2 =>
    List.mem_filter.2 ⟨h1, by rw [h2]; rfl⟩
  refine buildFiles_runs hsr (h.hist.desc hsr) (h.namesIn hsr hd) hopt ?_ ?_
    (rankedP_of_acyclic hcyc hstack)
  · intro f h1 h2
    rcases hsyn f (hm f h1 h2) with h | h | h <;> rw [h] <;> decide
  · intro f h1 h2 path s x hx ht hty str hs
    obtain ⟨g1, g2⟩ := hdef f (hm f h1 h2) path s x str hx hty hs
    exact C35_no_panic_partial _ _ g1 g2

/-- `import public "a.proto"; message B { optional bytes b = 1 [default = "\101"]; Missing m = 2; }`:
its second field has an unknown type, so the addition ends with an error. -/
def bytesFile : FileP where
  name := nm "bytes.proto"
  deps := [nm "a.proto"]
  publicDeps := [0]
  messages := [{
    name := nm "B"
    fields := [
      { name := nm "b", number := 1, ty := .bytes, default := some (nm "\\101") },
      { name := nm "m", number := 2, ty := .message, typeName := nm "Missing" }] }]

theorem bytesFile_field {path : Path} {s : Name} {x : FieldP} (h : Has bytesFile path s (.field x)) :
    x ∈ (bytesFile.messages.flatMap MsgP.fields) := by
  have hm : ∀ {path s m}, Has bytesFile path s (.message m) → m ∈ bytesFile.messages := by
    intro path s m h
    generalize hi : Item.message m = it at h
    induction h generalizing m with
    | message i n hn => cases hi; exact List.mem_of_getElem? hn
    | nested path s n i k hn hk ih =>
      cases hi
      have := ih rfl
      simp only [bytesFile, List.mem_singleton] at this
      subst this
      simp at hk
    | _ => cases hi
  cases h with
  | field path s m i x h hx => exact List.mem_flatMap.2 ⟨m, hm h, List.mem_of_getElem? hx⟩

theorem bytesFile_ext {path : Path} {s : Name} {x : FieldP} (h : Has bytesFile path s (.extension x)) :
    False := by
  have hm : ∀ {path s m}, Has bytesFile path s (.message m) → m ∈ bytesFile.messages := by
    intro path s m h
    generalize hi : Item.message m = it at h
    induction h generalizing m with
    | message i n hn => cases hi; exact List.mem_of_getElem? hn
    | nested path s n i k hn hk ih =>
      cases hi
      have := ih rfl
      simp only [bytesFile, List.mem_singleton] at this
      subst this
      simp at hk
    | _ => cases hi
  cases h with
  | extension i x h => simp [bytesFile] at h
  | extensionIn path s m i x h hx =>
    have := hm h
    simp only [bytesFile, List.mem_singleton] at this
    subst this
    simp at hx

theorem bytes_octals : (∀ b ∈ utf8Encode (nm "\\101"), b.toNat < 128) ∧ OctalsFit (utf8Encode (nm "\\101")) := by
  have he : utf8Encode (nm "\\101") = [92, 49, 48, 49] := by decide +kernel
  rw [he]
  refine ⟨by decide, ?_⟩
  intro i a b d h1 h2 h3 h4 _ _ _
  have hi := getElem?_lt h4
  simp only [List.length_cons, List.length_nil] at hi
  have : i = 0 := by omega
  subst this
  cases h2
  decide

/-- The hypotheses of `C24_returns_partial` hold of `bytesFile`, given together with a known file, after
one accepted file. -/
example : ∃ p b, Given env0 ([] ++ [fileA]) [fileA] p ∧ buildFiles env0 p [bytesFile, fileA] = .ok b := by
  have h : (match buildFiles env0 Pool.empty [fileA] with
      | .ok ⟨p, []⟩ => (lookupN p.fileNames (nm "bytes.proto")).isNone &&
          (lookupN p.fileNames (nm "a.proto")).isSome
      | _ => false) = true := by decide +kernel
  split at h
  · next p hb =>
    simp only [Bool.and_eq_true] at h
    have hg : Given env0 ([] ++ [fileA]) [fileA] p := .accept [] [] _ _ _ .empty hb
    have hnew : newFiles p [bytesFile, fileA] = [bytesFile] := by
      have h1 : (lookupN p.fileNames bytesFile.name).isNone = true := h.1
      have h2 : (lookupN p.fileNames fileA.name).isNone = false := by
        have := h.2
        rw [show fileA.name = nm "a.proto" from rfl]
        cases hx : lookupN p.fileNames (nm "a.proto") with
        | none => rw [hx] at this; cases this
        | some _ => rfl
      simp [newFiles, h1, h2]
    obtain ⟨b, hb'⟩ := C24_returns_partial env0 linearSearch_ok hg
      (fun f hf => by simp only [List.nil_append, List.mem_singleton] at hf; subst hf; decide)
      [bytesFile, fileA]
      (fun f hf => by rw [hnew, List.mem_singleton] at hf; subst hf; exact .inl rfl)
      (fun f hf path s x str hx hty hd => by
        rw [hnew, List.mem_singleton] at hf
        subst hf
        rcases hx with hx | hx
        · have := bytesFile_field hx
          simp only [bytesFile, List.flatMap_cons, List.flatMap_nil, List.append_nil, List.mem_cons,
            List.not_mem_nil, or_false] at this
          rcases this with rfl | rfl
          · simp only [Option.some.injEq] at hd
            subst hd
            exact ⟨bytes_octals.1, .inr bytes_octals.2⟩
          · cases hty
        · exact (bytesFile_ext hx).elim)
      (by
        rw [hnew]
        have step : ∀ i j, PublicImports ([fileA] ++ [bytesFile]) i j → i = 1 ∧ j = 0 := by
          rintro i j ⟨f, g, k, h1, h2, h3, h4⟩
          match i, h1 with
          | 0, h1 => cases h1; cases h4
          | 1, h1 =>
            cases h1
            refine ⟨rfl, ?_⟩
            match k, h3 with
            | 0, h3 =>
              match j, h2 with
              | 0, _ => rfl
              | 1, h2 => cases h2; exact absurd h3 (by decide)
        rintro i ⟨k, h1, h2⟩
        obtain ⟨rfl, rfl⟩ := step _ _ h1
        cases h2 with
        | step _ j _ h3 _ => exact absurd (step _ _ h3).1 (by decide))
      (by rw [hnew]; decide) (fun q e => ⟨false, rfl⟩)
    exact ⟨p, b, hg, hb'⟩
  · cases h

end Verif.Props
