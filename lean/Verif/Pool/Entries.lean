import Verif.Pool.Hist
import Verif.Pool.Located
/-!
What a pool says about map entries: building leaves the declared `map_entry` alone, unless resolving the
options of a message changes it.
-/
set_option autoImplicit false
namespace Verif.Pool
open Verif.Wire Verif.Dyn

/-! ### The options of messages -/

mutual
/-- The message with its nested messages, their names and options. -/
def bareMsg : MsgP → MsgP
  | ⟨name, _, _, nested, _, _, _, options, _, _⟩ =>
    ⟨name, [], [], bareMsgs nested, [], [], [], options, [], []⟩
termination_by structural m => m
@[inherit_doc bareMsg] def bareMsgs : List MsgP → List MsgP
  | [] => []
  | m :: ms => bareMsg m :: bareMsgs ms
termination_by structural ms => ms
end

/-- The file with its messages, their names and options. -/
def bareFile (f : FileP) : FileP := { messages := bareMsgs f.messages }

theorem bareMsgs_eq (ms : List MsgP) : bareMsgs ms = ms.map bareMsg := by
  induction ms with
  | nil => rfl
  | cons m ms ih => simp only [bareMsgs, List.map_cons, ih]

theorem bareMsg_eq (m : MsgP) :
    bareMsg m = { name := m.name, nested := m.nested.map bareMsg, options := m.options } := by
  cases m; simp only [bareMsg, bareMsgs_eq]

theorem bareFile_eq (f : FileP) : bareFile f = { messages := f.messages.map bareMsg } := by
  simp only [bareFile, bareMsgs_eq]

theorem modFieldMsg_bare (g : FieldP → FieldP) :
    ∀ (p : Path) (m m' : MsgP), modFieldMsg g p m = some m' → bareMsg m' = bareMsg m
  | [], _, _, h => by simp [modFieldMsg] at h
  | [_], _, _, h => by simp [modFieldMsg] at h
  | t :: i :: rest, m, m', h => by
    have ih := modFieldMsg_bare g rest
    simp only [modFieldMsg] at h
    split at h
    · split at h
      · cases h; simp only [bareMsg_eq]
      · cases h
    · split at h
      · split at h
        · cases h; simp only [bareMsg_eq]
        · cases h
      · split at h
        · split at h
          · next n hn =>
            split at h
            · next n' hn' =>
              cases h
              simp only [bareMsg_eq m, bareMsg_eq { m with nested := m.nested.set i n' }]
              rw [map_set_of bareMsg m.nested i n n' hn (ih n n' hn')]
            · cases h
          · cases h
        · cases h

theorem modField_bare (g : FieldP → FieldP) (p : Path) (f f' : FileP) (h : modField g f p = some f') :
    bareFile f' = bareFile f := by
  match p, h with
  | [], h => simp [modField] at h
  | [_], h => simp [modField] at h
  | t :: i :: rest, h =>
    simp only [modField] at h
    split at h
    · split at h
      · next m hm =>
        split at h
        · next m' hm' =>
          cases h
          simp only [bareFile_eq]
          rw [map_set_of bareMsg f.messages i m m' hm (modFieldMsg_bare g _ _ _ hm')]
        · cases h
      · cases h
    · split at h
      · split at h
        · cases h; simp only [bareFile_eq]
        · cases h
      · cases h

theorem modMethod_bare (g : MethodP → MethodP) (p : Path) (f f' : FileP) (h : modMethod g f p = some f') :
    bareFile f' = bareFile f := by
  unfold modMethod at h
  split at h
  · split at h
    · split at h
      · cases h; simp only [bareFile_eq]
      · cases h
    · cases h
  · cases h

theorem modMsgIn_bare (g : MsgP → MsgP) (f : FileP) :
    ∀ (p : Path) (m m' : MsgP), modMsgIn g p m = some m' → ∃ x, findMsgFrom f (some m) p = some x ∧
      (bareMsg (g x) = bareMsg x → bareMsg m' = bareMsg m)
  | [], m, m', h => by
    simp only [modMsgIn, Option.some.injEq] at h
    exact ⟨m, rfl, fun h1 => by rw [← h, h1]⟩
  | [_], _, _, h => by simp [modMsgIn] at h
  | t :: i :: rest, m, m', h => by
    have ih := modMsgIn_bare g f rest
    simp only [modMsgIn] at h
    split at h
    · next ht =>
      split at h
      · next n hn =>
        split at h
        · next n' hn' =>
          cases h
          obtain ⟨x, h1, h2⟩ := ih n n' hn'
          refine ⟨x, ?_, fun hx => ?_⟩
          · subst ht
            simp only [findMsgFrom, hn, Tag.msgNested, Tag.fileMessage, if_true]
            rw [if_neg (by decide)]
            exact h1
          · simp only [bareMsg_eq m, bareMsg_eq { m with nested := m.nested.set i n' }]
            rw [map_set_of bareMsg m.nested i n n' hn (h2 hx)]
        · cases h
      · cases h
    · cases h

theorem modMsg_bare (g : MsgP → MsgP) (p : Path) (f f' : FileP) (h : modMsg g f p = some f') :
    ∃ x, findMsg f p = some x ∧ (bareMsg (g x) = bareMsg x → bareFile f' = bareFile f) := by
  match p, h with
  | [], h => simp [modMsg] at h
  | [_], h => simp [modMsg] at h
  | t :: i :: rest, h =>
    simp only [modMsg] at h
    split at h
    · next ht =>
      split at h
      · next m hm =>
        split at h
        · next m' hm' =>
          cases h
          obtain ⟨x, h1, h2⟩ := modMsgIn_bare g f _ _ _ hm'
          refine ⟨x, ?_, fun hx => ?_⟩
          · subst ht
            simp only [findMsg, findMsgFrom, hm, if_true]
            exact h1
          · simp only [bareFile_eq]
            rw [map_set_of bareMsg f.messages i m m' hm (h2 hx)]
        · cases h
      · cases h
    · cases h

theorem findMsgFrom_bare (f : FileP) : ∀ (p : Path) (cur : Option MsgP),
    findMsgFrom (bareFile f) (cur.map bareMsg) p = (findMsgFrom f cur p).map bareMsg
  | [], cur => rfl
  | [_], cur => rfl
  | t :: i :: rest, cur => by
    have ih := findMsgFrom_bare f rest
    simp only [findMsgFrom]
    split
    · simp only [bareFile_eq, List.getElem?_map]
      cases f.messages[i]? with
      | none => rfl
      | some m =>
        have := ih (some m)
        simpa only [bareFile_eq, Option.map_some] using this
    · split
      · cases cur with
        | none => rfl
        | some m =>
          simp only [Option.map_some, bareMsg_eq, List.getElem?_map]
          cases m.nested[i]? with
          | none => rfl
          | some n => simpa only [Option.map_some, bareMsg_eq] using ih (some n)
      · rfl

theorem findMsg_bare (f : FileP) (p : Path) :
    findMsg (bareFile f) p = (findMsg f p).map bareMsg := findMsgFrom_bare f p none

/-- Files that are the same as to the options of messages. -/
theorem find_options {f g : FileP} (h : bareFile f = bareFile g) {p : Path} {m : MsgP}
    (hm : findMsg g p = some m) : ∃ m', findMsg f p = some m' ∧ m'.options = m.options := by
  have := findMsg_bare f p
  rw [h, findMsg_bare, hm] at this
  cases hf : findMsg f p with
  | none => rw [hf] at this; simp at this
  | some m' =>
    rw [hf] at this
    simp only [Option.map_some, Option.some.injEq] at this
    refine ⟨m', rfl, ?_⟩
    rw [bareMsg_eq, bareMsg_eq] at this
    injection this with _ _ _ _ _ _ _ h8
    exact h8.symm

/-! ### The second pass -/

/-- The files of the second state are those of the first, as to the options of messages. -/
def Bare (a b : Pool) : Prop := ∀ (i : Nat) fd, b.files[i]? = some fd →
  ∃ fd', a.files[i]? = some fd' ∧ bareFile fd.raw = bareFile fd'.raw

theorem Bare.of_eq {a b : Pool} (h : b.files = a.files) : Bare a b :=
  fun i fd hfd => ⟨fd, by rw [← h]; exact hfd, rfl⟩

theorem Bare.of_quiet {a b : St} (h : Quiet a b) : Bare a.pool b.pool := .of_eq (by rw [h.pool])

theorem Bare.trans {a b c : Pool} (h : Bare a b) (g : Bare b c) : Bare a c := by
  intro i fd hfd
  obtain ⟨x, h1, h2⟩ := g i fd hfd
  obtain ⟨y, h3, h4⟩ := h i x h1
  exact ⟨y, h3, h2.trans h4⟩

theorem Bare.modify {a b : Pool} {i : Nat} {g : FileD → FileD}
    (h : b.files = a.files.modify i g) (hg : ∀ fd, (g fd).raw = fd.raw) : Bare a b := by
  intro j fd hfd
  rw [h] at hfd
  by_cases hij : i = j
  · subst hij
    rw [getElem?_modify_eq, Option.map_eq_some_iff] at hfd
    obtain ⟨x, h1, rfl⟩ := hfd
    exact ⟨x, h1, by rw [hg]⟩
  · rw [getElem?_modify_ne _ _ hij] at hfd
    exact ⟨fd, hfd, rfl⟩

theorem setRaw_bare {st st' : St} {file : Nat} {g : FileP → Option FileP}
    (hg : ∀ f f', g f = some f' → bareFile f' = bareFile f)
    (h : setRaw st file g = .ok st') : Bare st.pool st'.pool := by
  simp only [setRaw, bind_ok, getR_ok, unwrapR_ok, Except.ok.injEq] at h
  obtain ⟨fd, h1, raw, h2, h3⟩ := h
  subst h3
  intro i x hx
  simp only [List.getElem?_set] at hx
  split at hx
  · next he =>
    subst he
    split at hx
    · cases hx; exact ⟨fd, h1, hg _ _ h2⟩
    · cases hx
  · exact ⟨x, hx, rfl⟩

theorem resolveIn_bare {st st' : St} {scope name : Name} {file : Nat} {path : Path} {t : Target}
    {fl : Filter} {d : Option Def} (h : resolveIn st scope name file path t fl = .ok (st', d)) :
    Bare st.pool st'.pool := by
  simp only [resolveIn, bind_ok, getR_ok] at h
  obtain ⟨fd, _, h⟩ := h
  split at h
  · simp only [bind_ok, Except.ok.injEq, Prod.mk.injEq] at h
    obtain ⟨st1, h1, h2, _⟩ := h
    subst h2
    refine setRaw_bare (fun f f' hf => ?_) h1
    cases t <;> simp only [setTypeName] at hf
    · exact modField_bare _ _ _ _ hf
    · exact modField_bare _ _ _ _ hf
    · exact modMethod_bare _ _ _ _ hf
    · exact modMethod_bare _ _ _ _ hf
  · simp only [bind_ok, Except.ok.injEq, Prod.mk.injEq] at h
    obtain ⟨st1, h1, h2, _⟩ := h
    subst h2
    exact .of_quiet (RR.report_quiet h1)

theorem findMessage_bare {st st' : St} {scope name : Name} {file : Nat} {path : Path} {t : Target}
    {r : Option Nat} (h : findMessage st scope name file path t = .ok (st', r)) :
    Bare st.pool st'.pool := by
  simp only [findMessage, bind_ok] at h
  obtain ⟨⟨st1, d⟩, h1, h⟩ := h
  have := resolveIn_bare h1
  simp only at h
  split at h
  · simp only [Except.ok.injEq, Prod.mk.injEq] at h; rw [← h.1]; exact this
  · split at h
    · simp only [Except.ok.injEq, Prod.mk.injEq] at h; rw [← h.1]; exact this
    · cases h

theorem resolveType_bare {st st' : St} {f : FieldP} {scope : Name} {file : Nat} {path : Path}
    {r : Option (Kind × Bool)} (h : resolveType st f scope file path = .ok (st', r)) :
    Bare st.pool st'.pool := by
  unfold resolveType at h
  split at h
  · split at h
    · simp only [Except.ok.injEq, Prod.mk.injEq] at h; rw [← h.1]; exact .of_eq rfl
    · simp only [bind_ok, Except.ok.injEq, Prod.mk.injEq] at h
      obtain ⟨st1, h1, h2, _⟩ := h
      subst h2
      exact .of_quiet (Quiet.report h1)
  · simp only [bind_ok] at h
    obtain ⟨⟨st1, d⟩, h1, h⟩ := h
    have := resolveIn_bare h1
    simp only at h
    split at h
    · simp only [Except.ok.injEq, Prod.mk.injEq] at h; rw [← h.1]; exact this
    · split at h
      · simp only [Except.ok.injEq, Prod.mk.injEq] at h; rw [← h.1]; exact this
      · simp only [Except.ok.injEq, Prod.mk.injEq] at h; rw [← h.1]; exact this
      · cases h

theorem resolveJsonName_bare {st st' : St} {f : FieldP} {file : Nat} {path : Path}
    {j : Name} (h : resolveJsonName st f file path = .ok (st', j)) : Bare st.pool st'.pool := by
  unfold resolveJsonName at h
  split at h
  · simp only [Except.ok.injEq, Prod.mk.injEq] at h
    rw [← h.1]; exact .of_eq rfl
  · simp only [bind_ok, Except.ok.injEq, Prod.mk.injEq] at h
    obtain ⟨st1, h1, h2, h3⟩ := h
    subst h2
    exact setRaw_bare (fun f' f'' hf => modField_bare _ _ _ _ hf) h1

theorem depLoop_bare {env : Env} {index : Nat} :
    ∀ {ds : List Name} {st st' : St} {tr tr' : List Nat},
      depLoop env index ds st tr = .ok (st', tr') → Bare st.pool st'.pool
  | [], st, st', tr, tr', hs => by
    simp only [depLoop, Except.ok.injEq, Prod.mk.injEq] at hs; rw [← hs.1]; exact .of_eq rfl
  | d :: ds, st, st', tr, tr', hs => by
    simp only [depLoop] at hs
    split at hs
    · simp only [bind_ok, modR_ok] at hs
      obtain ⟨fs, ⟨_, h1⟩, tr1, _, hs⟩ := hs
      have : Bare st.pool { st.pool with files := fs } := Bare.modify h1 fun _ => rfl
      exact this.trans (depLoop_bare (st := ⟨{ st.pool with files := fs }, st.errors⟩) hs)
    · simp only [bind_ok] at hs
      obtain ⟨st1, h1, hs⟩ := hs
      exact (Bare.of_quiet (Quiet.report h1)).trans (depLoop_bare hs)

theorem resolve_bare {env : Env} {st st' : St} {e : Event} (hs : resolveStep env st e = .ok st') :
    Bare st.pool st'.pool := by
  cases e with
  | file path i f =>
    simp only [resolveStep, resolveFile, bind_ok, modR_ok, Except.ok.injEq] at hs
    obtain ⟨⟨st1, tr⟩, h1, fs, ⟨_, h2⟩, h3⟩ := hs
    have f2 : Bare st1.pool { st1.pool with files := fs } := Bare.modify h2 fun _ => rfl
    rw [← h3]
    exact ((depLoop_bare h1).trans f2).trans (Bare.of_quiet (a := ⟨{ st1.pool with files := fs }, st1.errors⟩)
      ((checkImports_quiet _ _ _).trans (checkImports_quiet _ _ _)))
  | message path full file parent i m =>
    simp only [resolveStep, Except.ok.injEq] at hs; rw [← hs]; exact .of_eq rfl
  | oneof path full file msg i o =>
    simp only [resolveStep, Except.ok.injEq] at hs; rw [← hs]; exact .of_eq rfl
  | enum path full file parent i en =>
    simp only [resolveStep, Except.ok.injEq] at hs; rw [← hs]; exact .of_eq rfl
  | field path full file msg i f =>
    simp only [resolveStep, resolveField, bind_ok, getR_ok] at hs
    obtain ⟨fd, hfd, st1, h1, ⟨st2, kind⟩, h2, ⟨st3, json⟩, h3, ⟨st4, dflt⟩, h4, m, hm,
      st5, h5, st6, h6, st7, h7, h8⟩ := hs
    simp only [Except.ok.injEq] at h8
    have f4 := (((Bare.of_quiet (checkNumber_quiet h1)).trans (resolveType_bare h2)).trans
      (resolveJsonName_bare h3)).trans (.of_quiet (parseDefaultOpt_quiet h4))
    have f7 := (((f4.trans (.of_quiet (oneofStep_quiet st4 m f.oneofIndex i))).trans
      (.of_quiet (reportDup_quiet h5))).trans (.of_quiet (reportDup_quiet h6))).trans (.of_quiet (reportDup_quiet h7))
    rw [← h8]
    exact f7.trans (.of_eq rfl)
  | service path full file i s =>
    simp only [resolveStep, Except.ok.injEq] at hs
    rw [← hs]
    exact .of_eq rfl
  | method path full file svc i m =>
    simp only [resolveStep, resolveMethod, bind_ok, modR_ok, Except.ok.injEq] at hs
    obtain ⟨⟨st1, a⟩, h1, ⟨st2, b⟩, h2, ss, ⟨_, h3⟩, h4⟩ := hs
    rw [← h4]
    exact ((findMessage_bare h1).trans (findMessage_bare h2)).trans (.of_eq rfl)
  | enumValue path full file enum i v =>
    simp only [resolveStep, resolveEnumValue, bind_ok, getR_ok, Except.ok.injEq] at hs
    obtain ⟨st1, h1, e, he, st2, h2, st3, h3, h4⟩ := hs
    rw [← h4]
    exact (((Bare.of_quiet (checkEnumNumber_quiet h1)).trans (.of_quiet (reportAlias_quiet h2))).trans
      (.of_quiet (reportValueName_quiet h3))).trans (.of_eq rfl)
  | extension path full file parent i f =>
    simp only [resolveStep, resolveExtension, bind_ok, getR_ok, Except.ok.injEq] at hs
    obtain ⟨⟨st1, ext⟩, h1, st2, h2, fd, hfd, ⟨st3, kind⟩, h3, ⟨st4, json⟩, h4, ⟨st5, dflt⟩, h5,
      h6⟩ := hs
    have f2 : Bare st1.pool st2.pool := by
      unfold extendeeStep at h2
      split at h2
      · simp only [Except.ok.injEq] at h2; rw [← h2]; exact .of_eq rfl
      · next k hk =>
        simp only [bind_ok, modR_ok] at h2
        obtain ⟨ms, ⟨_, h7⟩, h8⟩ := h2
        exact Bare.of_quiet (a := ⟨{ st1.pool with messages := ms }, st1.errors⟩) (checkNumber_quiet h8)
    have f5 := ((((findMessage_bare h1).trans f2).trans (resolveType_bare h3)).trans (resolveJsonName_bare h4)).trans
      (.of_quiet (parseDefaultOpt_quiet h5))
    rw [← h6]
    exact f5.trans (.of_eq rfl)

theorem resolvePass_bare {env : Env} : ∀ {es : List Event} {st st' : St}, runPass (resolveStep env) st es = .ok st' →
    Bare st.pool st'.pool
  | [], st, st', h => by simp only [runPass, Except.ok.injEq] at h; rw [← h]; exact .of_eq rfl
  | e :: es, st, st', h => by
    simp only [runPass] at h
    split at h
    · next st1 h1 => exact (resolve_bare h1).trans (resolvePass_bare h)
    · cases h

/-! ### The first and the third pass -/

theorem names_bare {p : Pool} {fs : List FileP} {st : St}
    (h : runPass namesStep ⟨p, []⟩ (visit p.offs fs) = .ok st) (he : st.errors = []) {i : Nat} {fd : FileD}
    (hfd : st.pool.files[i]? = some fd) : p.files[i]? = some fd ∨ ∃ j, i = p.files.length + j ∧ fs[j]? = some fd.raw := by
  obtain ⟨c, hc, _⟩ := run_start p.offs fs
  have := pass_inv (o := p.offs)
    (fun pre c st => st.errors = [] → st.pool.files.length = c.file ∧ ∀ (i : Nat) fd, st.pool.files[i]? = some fd →
      p.files[i]? = some fd ∨ ∃ path, .file path i fd.raw ∈ pre)
    ?_ _ [] _ _ _ _ hc ?_ h
  · rcases (this he).2 i fd hfd with h1 | ⟨path, h1⟩
    · exact .inl h1
    · rw [List.nil_append] at h1
      obtain ⟨_, j, h2, h3⟩ := file_mem_visit h1
      exact .inr ⟨j, h2, h3⟩
  · intro pre c st e c' st' hcs hI hs he
    obtain ⟨e0, eff⟩ := names_eff hs he
    obtain ⟨h1, h2⟩ := hI e0
    have same : st'.pool.files = st.pool.files → c'.file = c.file → st'.pool.files.length = c'.file ∧
        ∀ (i : Nat) fd, st'.pool.files[i]? = some fd → p.files[i]? = some fd ∨ ∃ path, .file path i fd.raw ∈ pre ++ [e] := by
      intro g1 g2
      rw [g1, g2]
      refine ⟨h1, fun i fd hfd => ?_⟩
      rcases h2 i fd hfd with h3 | ⟨path, h3⟩
      · exact .inl h3
      · exact .inr ⟨path, by simp [h3]⟩
    cases e with
    | file path k f =>
      obtain ⟨syn, l, _, _, hq, _⟩ := eff
      simp only [Cnt.step] at hcs
      split at hcs
      · next hk =>
        cases hcs
        rw [hq]
        refine ⟨by simp [h1], fun i fd hfd => ?_⟩
        rw [List.getElem?_append] at hfd
        split at hfd
        · rcases h2 i fd hfd with h3 | ⟨path, h3⟩
          · exact .inl h3
          · exact .inr ⟨path, by simp [h3]⟩
        · next hlt =>
          have hi := getElem?_lt hfd
          simp only [List.length_cons, List.length_nil] at hi
          have : i = k := by omega
          subst this
          have h0 : i - st.pool.files.length = 0 := by omega
          rw [h0] at hfd
          cases hfd
          exact .inr ⟨path, by simp⟩
      · cases hcs
    | message path full file parent k m =>
      obtain ⟨_, hq, _⟩ := eff
      refine same (by rw [hq]) ?_
      simp only [Cnt.step] at hcs
      split at hcs <;> cases hcs
      rfl
    | field path full file k i f =>
      obtain ⟨_, hq⟩ := eff
      refine same (by rw [hq]) ?_
      simp only [Cnt.step] at hcs
      split at hcs <;> cases hcs
      rfl
    | oneof path full file k i o =>
      obtain ⟨_, _, hq⟩ := eff
      refine same (by rw [hq]) ?_
      simp only [Cnt.step] at hcs
      split at hcs <;> cases hcs
      rfl
    | service path full file k s =>
      obtain ⟨_, hq⟩ := eff
      refine same (by rw [hq]) ?_
      simp only [Cnt.step] at hcs
      split at hcs <;> cases hcs
      rfl
    | method path full file k i m =>
      obtain ⟨_, hq⟩ := eff
      refine same (by rw [hq]) ?_
      simp only [Cnt.step] at hcs
      split at hcs <;> cases hcs
      rfl
    | enum path full file parent k en =>
      obtain ⟨_, hq, _⟩ := eff
      refine same (by rw [hq]) ?_
      simp only [Cnt.step] at hcs
      split at hcs <;> cases hcs
      rfl
    | enumValue path full file k i v =>
      obtain ⟨_, _, hq⟩ := eff
      refine same (by rw [hq]) ?_
      simp only [Cnt.step] at hcs
      split at hcs <;> cases hcs
      rfl
    | extension path full file parent k f =>
      obtain ⟨_, hq⟩ := eff
      refine same (by rw [hq]) ?_
      simp only [Cnt.step] at hcs
      split at hcs <;> cases hcs
      rfl
  · intro _
    exact ⟨rfl, fun i fd h => .inl h⟩

/-- Resolving the options of a message leaves `map_entry` as it is. -/
def KeepsEntry (env : Env) : Prop := ∀ p path full file parent k m o, m.options = some o →
  env.msgOpt p (.message path full file parent k m) = o

/-- The files are the given ones, as to the options of messages. -/
def BareIs (all : List FileP) (p : Pool) : Prop := ∀ (i : Nat) fd, p.files[i]? = some fd →
  ∃ f, all[i]? = some f ∧ bareFile fd.raw = bareFile f

theorem Bare.is {all : List FileP} {a b : Pool} (h : Bare a b) (ha : BareIs all a) : BareIs all b := by
  intro i fd hfd
  obtain ⟨x, h1, h2⟩ := h i fd hfd
  obtain ⟨f, h3, h4⟩ := ha i x h1
  exact ⟨f, h3, h2.trans h4⟩

theorem apply_bare {env : Env} (hk : KeepsEntry env) {p : Pool} {all : List FileP} {st st' : St} {e : Event}
    (hm : ∀ path full file parent k m, e = .message path full file parent k m →
      ∃ f, all[file]? = some f ∧ findMsg f path = some m)
    (h : applyOpt env p st e = .ok st') (hI : BareIs all st.pool) : BareIs all st'.pool := by
  cases e with
  | message path full file parent k m =>
    simp only [applyOpt] at h
    split at h
    · simp only [Except.ok.injEq] at h; rw [← h]; exact hI
    · next o ho =>
      obtain ⟨f, hf, hfm⟩ := hm _ _ _ _ _ _ rfl
      rw [hk p path full file parent k m o ho] at h
      simp only [setRaw, bind_ok, getR_ok, unwrapR_ok, Except.ok.injEq] at h
      obtain ⟨fd, h1, raw, h2, h3⟩ := h
      subst h3
      obtain ⟨f', g1, g2⟩ := hI file fd h1
      rw [hf] at g1; cases g1
      obtain ⟨x, k1, k2⟩ := modMsg_bare _ _ _ _ h2
      obtain ⟨m', k3, k4⟩ := find_options g2 hfm
      rw [k1] at k3; cases k3
      have hx : x.options = some o := k4.trans ho
      have hb := k2 (by simp only [bareMsg_eq]; rw [hx])
      intro i y hy
      simp only [List.getElem?_set] at hy
      split at hy
      · next he =>
        subst he
        split at hy
        · cases hy; exact ⟨f, hf, hb.trans g2⟩
        · cases hy
      · exact hI i y hy
  | field path full file msg i f =>
    simp only [applyOpt] at h
    split at h
    · simp only [Except.ok.injEq] at h; rw [← h]; exact hI
    · exact (setRaw_bare (fun f' f'' hf => modField_bare _ _ _ _ hf) h).is hI
  | extension path full file msg i f =>
    simp only [applyOpt] at h
    split at h
    · simp only [Except.ok.injEq] at h; rw [← h]; exact hI
    · exact (setRaw_bare (fun f' f'' hf => modField_bare _ _ _ _ hf) h).is hI
  | _ => simp only [applyOpt, Except.ok.injEq] at h; rw [← h]; exact hI

theorem applyPass_bare {env : Env} (hk : KeepsEntry env) {p : Pool} {all : List FileP} :
    ∀ {es : List Event} {st st' : St}, (∀ e ∈ es, ∀ path full file parent k m, e = .message path full file parent k m →
      ∃ f, all[file]? = some f ∧ findMsg f path = some m) → runPass (applyOpt env p) st es = .ok st' →
    BareIs all st.pool → BareIs all st'.pool
  | [], st, st', _, h, hI => by simp only [runPass, Except.ok.injEq] at h; rw [← h]; exact hI
  | e :: es, st, st', hm, h, hI => by
    simp only [runPass] at h
    split at h
    · next st1 h1 =>
      exact applyPass_bare hk (fun x hx => hm x (by simp [hx])) h (apply_bare hk (hm e (by simp)) h1 hI)
    · cases h

/-! ### Histories -/

section
variable {env : Env} (hsr : SearchOk env.search) {acc : List FileP} {p : Pool}
include hsr

theorem Hist.bare (hk : KeepsEntry env) (h : Hist env acc p) : BareIs acc p := by
  induction h with
  | empty => intro i fd hfd; simp [Pool.empty] at hfd
  | reject acc p fs q e es hp hb ih =>
    obtain ⟨_, _, _, hl⟩ := buildFiles_reject (hp.desc hsr).ok hb
    intro i fd hfd
    rw [hl.files] at hfd
    exact ih i fd hfd
  | accept acc p fs q hp hb ih =>
    have hlen : p.files.length = acc.length := (hp.desc hsr).files_len
    unfold buildFiles at hb
    simp only at hb
    split at hb
    · next h0 => cases hb; rw [h0, List.append_nil]; exact ih
    · split at hb
      · cases hb
      · next b hbd =>
        split at hb
        · next hne =>
          simp only [Except.ok.injEq, Built.mk.injEq] at hb
          exact absurd hb.2 hne
        · simp only [Except.ok.injEq] at hb
          subst hb
          generalize hB : Built.mk q [] = B at hbd
          cases buildDeduped_outcome hbd with
          | names st _ hne => injection hB with _ h0; exact absurd h0.symm hne
          | resolve st st' _ _ _ hne => injection hB with _ h0; exact absurd h0.symm hne
          | options st st' errs _ _ _ _ hne => injection hB with _ h0; exact absurd h0.symm hne
          | done st st' st'' h1 h2 h3 h4 h5 =>
            cases hB
            have i1 : BareIs (acc ++ fs.filter fun f => (lookupN p.fileNames f.name).isNone) st.pool := by
              intro i fd hfd
              rcases names_bare h1 h2 hfd with g | ⟨j, rfl, g⟩
              · obtain ⟨f, g1, g2⟩ := ih i fd g
                exact ⟨f, getElem?_append_of_some _ g1, g2⟩
              · exact ⟨fd.raw, by rw [List.getElem?_append_right (by omega), hlen, Nat.add_sub_cancel_left]; exact g, rfl⟩
            have i2 := (resolvePass_bare h3).is i1
            have i3 := applyPass_bare hk (fun e he path full file parent k m hem => ?_) h5 i2
            · intro i fd hfd
              simp only [sealFiles] at hfd
              rw [List.getElem?_append] at hfd
              split at hfd
              · rw [List.getElem?_take] at hfd
                split at hfd
                · exact i3 i fd hfd
                · cases hfd
              · rw [List.getElem?_map, Option.map_eq_some_iff] at hfd
                obtain ⟨x, g1, rfl⟩ := hfd
                rw [List.getElem?_drop] at g1
                next hlt =>
                rw [List.length_take] at hlt
                have hx := getElem?_lt g1
                have : p.offs.file + (i - (List.take p.offs.file st''.pool.files).length) = i := by
                  rw [List.length_take]; omega
                rw [this] at g1
                exact i3 i x g1
            · subst hem
              obtain ⟨j, f, s, rfl, g1, _, g2⟩ := visited_message _ path rfl he
              refine ⟨f, ?_, g2.found.2⟩
              show (acc ++ _)[p.files.length + j]? = some f
              rw [List.getElem?_append_right (by omega), hlen, Nat.add_sub_cancel_left]
              exact g1

/-- A message is a map entry exactly if it is declared as one. -/
theorem Hist.entry (hk : KeepsEntry env) (h : Hist env acc p) {k : Nat} {md : MsgD}
    (hm : p.messages[k]? = some md) {x y : MsgP} (hs : Stands acc p md.id (.message x) (.message y)) :
    p.isMapEntry k = .ok (x.options == some (some true)) := by
  obtain ⟨f, fd, s, h1, h2, h3, h4, _⟩ := hs
  obtain ⟨f', g1, g2⟩ := h.bare hsr hk _ _ h2
  rw [h1] at g1; cases g1
  obtain ⟨m', g3, g4⟩ := find_options g2 h3.found.2
  simp only [Pool.isMapEntry, getR_ok.2 hm, getR_ok.2 h2, unwrapR_ok.2 g3, bind, Except.bind]
  rw [g4]
  cases x.options with
  | none => rfl
  | some o => cases o with
    | none => rfl
    | some b => cases b <;> rfl

end

end Verif.Pool
