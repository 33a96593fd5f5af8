import Verif.Pool.Visible
/-!
Additions that return: no callback of the three passes panics as long as the imports allow
the recursion to end and the default values can be unescaped.
-/
set_option autoImplicit false
namespace Verif.Pool
open Verif.Wire Verif.Dyn

/-! Combinators. -/

theorem bind_runs {α β : Type} {x : Res α} {f : α → Res β} {P : β → Prop}
    (h : ∃ a, x = .ok a ∧ ∃ b, f a = .ok b ∧ P b) : ∃ b, (x >>= f) = .ok b ∧ P b := by
  obtain ⟨a, rfl, b, h1, h2⟩ := h
  exact ⟨b, h1, h2⟩

theorem getR_of {α : Type} {l : List α} {i : Nat} (h : i < l.length) : getR l i = .ok l[i] := by
  rw [getR_ok]; simp [h]

theorem modR_of {α : Type} {l : List α} {i : Nat} (h : i < l.length) (f : α → α) :
    modR l i f = .ok (l.modify i f) := modR_ok.2 ⟨h, rfl⟩

theorem report_of {st : St} {file : Nat} (e : ErrKind) (h : file < st.pool.files.length) :
    st.report file e = .ok (st.push e) := report_ok.2 ⟨h, rfl⟩

theorem label_of {st : St} {file : Nat} (h : file < st.pool.files.length) : label st file = .ok () :=
  label_ok.2 h

/-- A pass runs to its end if every callback returns and keeps an invariant. -/
theorem pass_runs {step : St → Event → Res St} {o : Offs} (P : Event → Prop) (I : Cnt → St → Prop)
    (hstep : ∀ c st e c', P e → c.step o e = some c' → I c st → ∃ st', step st e = .ok st' ∧ I c' st') :
    ∀ (es : List Event) (c c' : Cnt) (st : St), (∀ e ∈ es, P e) → Cnt.run o c es = some c' → I c st →
      ∃ st', runPass step st es = .ok st' ∧ I c' st'
  | [], c, c', st, _, hc, h => by
    simp only [Cnt.run, Option.some.injEq] at hc
    subst hc
    exact ⟨st, rfl, h⟩
  | e :: es, c, c', st, hP, hc, h => by
    simp only [Cnt.run] at hc
    cases hs : c.step o e with
    | none => rw [hs] at hc; cases hc
    | some c1 =>
      rw [hs] at hc
      obtain ⟨st1, h1, h2⟩ := hstep c st e c1 (hP e (by simp)) hs h
      obtain ⟨st2, h3, h4⟩ := pass_runs P I hstep es c1 c' st1 (fun e he => hP e (by simp [he])) hc h2
      exact ⟨st2, by simp only [runPass, h1]; exact h3, h4⟩

/-! The first pass. -/

/-- The state of the first pass, errors or not. -/
structure Safe1 (c : Cnt) (st : St) : Prop where
  len : Len1 st.pool c
  names : ∀ x ∈ st.pool.names, x.2.file < st.pool.files.length

theorem addName_runs {c : Cnt} {st : St} (h : Safe1 c st) {file : Nat} (hf : file < c.file)
    (n : Name) (path : Path) (k : DefKind) :
    ∃ st', addName st file n path k = .ok st' ∧ Safe1 c st' ∧ st'.pool.files = st.pool.files ∧
      st'.pool.messages = st.pool.messages ∧ st'.pool.enums = st.pool.enums := by
  have hf' : file < st.pool.files.length := by rw [h.len.files]; exact hf
  unfold addName
  cases hl : lookupN st.pool.names n with
  | none =>
    refine ⟨_, rfl, ⟨⟨h.len.files, h.len.messages, h.len.enums⟩, ?_⟩, rfl, rfl, rfl⟩
    intro x hx
    rcases List.mem_append.1 hx with hx | hx
    · exact h.names x hx
    · simp only [List.mem_singleton] at hx
      subst hx; exact hf'
  | some d =>
    simp only
    by_cases hp : k = .package ∧ d.kind = .package
    · rw [if_pos hp]; exact ⟨_, rfl, h, rfl, rfl, rfl⟩
    · rw [if_neg hp, label_of (h.names _ (lookupN_mem hl))]
      refine ⟨st.push (.duplicateName n), ?_, ⟨h.len, h.names⟩, rfl, rfl, rfl⟩
      exact report_of _ hf'

theorem addPackages_runs {c : Cnt} {file : Nat} (hf : file < c.file) (path : Path) :
    ∀ (ns : List Name) (st : St), Safe1 c st → ∃ st', addPackages file path st ns = .ok st' ∧ Safe1 c st'
  | [], st, h => ⟨st, rfl, h⟩
  | n :: ns, st, h => by
    obtain ⟨st1, h1, h2, _⟩ := addName_runs h hf n path .package
    obtain ⟨st2, h3, h4⟩ := addPackages_runs hf path ns st1 h2
    exact ⟨st2, by simp only [addPackages, h1]; exact h3, h4⟩

theorem Safe1.push {c : Cnt} {st : St} (h : Safe1 c st) (e : ErrKind) : Safe1 c (st.push e) :=
  ⟨h.len, h.names⟩

theorem checkCamelCase_runs {c : Cnt} {file : Nat} (hf : file < c.file) :
    ∀ (fs : List FieldP) (seen : List Name) (st : St), Safe1 c st →
      ∃ st', checkCamelCase file st seen fs = .ok st' ∧ Safe1 c st'
  | [], _, st, h => ⟨st, rfl, h⟩
  | f :: fs, seen, st, h => by
    simp only [checkCamelCase]
    split
    · rw [report_of _ (by rw [h.len.files]; exact hf)]
      exact checkCamelCase_runs hf fs seen _ (h.push _)
    · exact checkCamelCase_runs hf fs _ st h

theorem checkFirst_runs {c : Cnt} {st : St} (h : Safe1 c st) {file : Nat} (hf : file < c.file)
    (vs : List EnumValueP) : ∃ st', checkFirst st file vs = .ok st' ∧ Safe1 c st' ∧
      st'.pool = st.pool := by
  have hf' : file < st.pool.files.length := by rw [h.len.files]; exact hf
  cases vs with
  | nil => exact ⟨_, report_of _ hf', h.push _, rfl⟩
  | cons v r =>
    simp only [checkFirst, getR_of hf', bind, Except.bind]
    split
    · exact ⟨_, report_of _ hf', h.push _, rfl⟩
    · exact ⟨_, rfl, h, rfl⟩

/-- Callbacks of the first pass return. -/
theorem namesStep_runs {o : Offs} {c c' : Cnt} {st : St} {e : Event}
    (hsyn : ∀ path i f, e = .file path i f → parseSyn f.syn ≠ none) (hs : c.step o e = some c')
    (h : Safe1 c st) : ∃ st', namesStep st e = .ok st' ∧ Safe1 c' st' := by
  cases e with
  | file path i f =>
    simp only [Cnt.step] at hs; split at hs
    · next hi =>
      cases hs
      cases hp : parseSyn f.syn with
      | none => exact absurd hp (hsyn _ _ _ rfl)
      | some syn =>
        simp only [namesStep, hp]
        apply addPackages_runs (c := { c with file := c.file + 1 }) (by show i < c.file + 1; omega)
        refine ⟨⟨?_, ?_, ?_⟩, ?_⟩
        · show (_ ++ [_]).length = c.file + 1
          split <;> simp [St.push, h.len.files]
        · show List.length (St.pool _).messages = c.message
          split <;> exact h.len.messages
        · show List.length (St.pool _).enums = c.enum
          split <;> exact h.len.enums
        · intro x hx
          have : x ∈ st.pool.names := by split at hx <;> exact hx
          have := h.names x this
          show x.2.file < (_ ++ [_]).length
          split <;> simp [St.push] <;> omega
    · cases hs
  | message path full file parent k m =>
    simp only [Cnt.step] at hs; split at hs
    · next hi =>
      cases hs
      obtain ⟨st1, h1, h2, h3, h4, h5⟩ := addName_runs h hi.2.1.2 full path (.message k)
      simp only [namesStep, h1, bind, Except.bind]
      have hf' : file < st1.pool.files.length := by rw [h2.len.files]; exact hi.2.1.2
      have hS : Safe1 { c with message := c.message + 1 } { st1 with pool := { st1.pool with
          messages := st1.pool.messages ++ [MsgD.fresh (Ident.mk' file path full m.name) parent] } } :=
        ⟨⟨h2.len.files, by simp [h2.len.messages], h2.len.enums⟩, h2.names⟩
      rw [getR_of hf']
      simp only
      split
      · exact ⟨_, rfl, hS⟩
      · exact checkCamelCase_runs (c := { c with message := c.message + 1 }) hi.2.1.2 _ _ _ hS
    · cases hs
  | field path full file msg i f =>
    simp only [Cnt.step] at hs; split at hs
    · next hi =>
      cases hs
      obtain ⟨st1, h1, h2, _⟩ := addName_runs h hi.2.2.2 full path (.field msg)
      exact ⟨st1, h1, ⟨⟨h2.len.files, h2.len.messages, h2.len.enums⟩, h2.names⟩⟩
    · cases hs
  | oneof path full file msg i x =>
    simp only [Cnt.step] at hs; split at hs
    · next hi =>
      cases hs
      obtain ⟨st1, h1, h2, _⟩ := addName_runs h hi.2.2.2 full path (.oneof msg)
      have hm : msg < st1.pool.messages.length := by rw [h2.len.messages]; exact hi.2.1.2
      simp only [namesStep, h1, bind, Except.bind, modR_of hm]
      exact ⟨_, rfl, ⟨⟨h2.len.files, by simp [h2.len.messages], h2.len.enums⟩, h2.names⟩⟩
    · cases hs
  | service path full file i s =>
    simp only [Cnt.step] at hs; split at hs
    · next hi =>
      cases hs
      obtain ⟨st1, h1, h2, _⟩ := addName_runs h hi.2.2 full path (.service i)
      exact ⟨st1, h1, ⟨⟨h2.len.files, h2.len.messages, h2.len.enums⟩, h2.names⟩⟩
    · cases hs
  | method path full file svc i m =>
    simp only [Cnt.step] at hs; split at hs
    · next hi =>
      cases hs
      obtain ⟨st1, h1, h2, _⟩ := addName_runs h hi.2.2.2 full path (.method svc)
      exact ⟨st1, h1, ⟨⟨h2.len.files, h2.len.messages, h2.len.enums⟩, h2.names⟩⟩
    · cases hs
  | enum path full file parent i en =>
    simp only [Cnt.step] at hs; split at hs
    · next hi =>
      cases hs
      obtain ⟨st1, h1, h2, _⟩ := addName_runs h hi.2.1.2 full path (.enum i)
      obtain ⟨st2, h3, h4, h5⟩ := checkFirst_runs h2 hi.2.1.2 en.values
      simp only [namesStep, h1, h3, bind, Except.bind]
      exact ⟨_, rfl, ⟨⟨h4.len.files, h4.len.messages, by simp [h4.len.enums]⟩, h4.names⟩⟩
    · cases hs
  | enumValue path full file enum i v =>
    simp only [Cnt.step] at hs; split at hs
    · next hi =>
      cases hs
      obtain ⟨st1, h1, h2, _⟩ := addName_runs h hi.2.2.2 full path (.enumValue enum)
      have hm : enum < st1.pool.enums.length := by rw [h2.len.enums]; exact hi.2.1.2
      simp only [namesStep, h1, bind, Except.bind, modR_of hm]
      exact ⟨_, rfl, ⟨⟨h2.len.files, h2.len.messages, by simp [h2.len.enums]⟩, h2.names⟩⟩
    · cases hs
  | extension path full file parent i f =>
    simp only [Cnt.step] at hs; split at hs
    · next hi =>
      cases hs
      obtain ⟨st1, h1, h2, _⟩ := addName_runs h hi.2.1.2 full path (.extension i)
      exact ⟨st1, h1, ⟨⟨h2.len.files, h2.len.messages, h2.len.enums⟩, h2.names⟩⟩
    · cases hs

/-! Updating a declaration at its path. -/

theorem Has.modFieldMsg {g : FieldP → FieldP} {f : FileP} {path : Path} {s : Name} {x : Item}
    (h : Has f path s x) : ∀ m, x = .message m → ∀ tail m', modFieldMsg g tail m = some m' →
      ∃ f', modField g f (path ++ tail) = some f' := by
  induction h with
  | message i m hi =>
    intro m1 hm tail m' ht
    cases hm
    exact ⟨_, by simp only [List.cons_append, List.nil_append, modField, Tag.fileMessage, if_true, hi, ht]; rfl⟩
  | nested path s m i n _ hi ih =>
    intro m1 hm tail m' ht
    cases hm
    rw [List.append_assoc]
    refine ih m rfl ([3, i] ++ tail) { m with nested := m.nested.set i m' } ?_
    simp [Pool.modFieldMsg, Tag.msgField, Tag.msgExtension, Tag.msgNested, hi, ht]
  | _ => intro m1 hm; cases hm

/-- A field or an extension is declared at this path. -/
def FieldAt (f : FileP) (path : Path) : Prop :=
  (∃ s x, Has f path s (.field x)) ∨ ∃ s x, Has f path s (.extension x)

theorem FieldAt.strip {a b : FileP} (h : stripFile a = stripFile b) {path : Path}
    (hx : FieldAt b path) : FieldAt a path := by
  rcases hx with ⟨s, x, hx⟩ | ⟨s, x, hx⟩
  · obtain ⟨y, h1, h2⟩ := hx.strip h
    cases y <;> simp only [Item.strip, reduceCtorEq] at h2
    exact .inl ⟨_, _, h1⟩
  · obtain ⟨y, h1, h2⟩ := hx.strip h
    cases y <;> simp only [Item.strip, reduceCtorEq] at h2
    exact .inr ⟨_, _, h1⟩

theorem FieldAt.mod {f : FileP} {path : Path} (h : FieldAt f path) (g : FieldP → FieldP) :
    ∃ f', modField g f path = some f' := by
  rcases h with ⟨s, x, h⟩ | ⟨s, x, h⟩
  · cases h with
    | field path s m i x hm hi =>
      refine hm.modFieldMsg m rfl [2, i] { m with fields := m.fields.modify i g } ?_
      simp [Pool.modFieldMsg, Tag.msgField, getElem?_lt hi]
  · cases h with
    | extension i x hi =>
      exact ⟨_, by simp only [modField, Tag.fileMessage, Tag.fileExtension, getElem?_lt hi, if_true]; rfl⟩
    | extensionIn path s m i x hm hi =>
      refine hm.modFieldMsg m rfl [6, i] { m with exts := m.exts.modify i g } ?_
      simp [Pool.modFieldMsg, Tag.msgField, Tag.msgExtension, getElem?_lt hi]

theorem Has.modMsgIn {g : MsgP → MsgP} {f : FileP} {path : Path} {s : Name} {x : Item}
    (h : Has f path s x) : ∀ m, x = .message m → ∀ tail m', modMsgIn g tail m = some m' →
      ∃ f', modMsg g f (path ++ tail) = some f' := by
  induction h with
  | message i m hi =>
    intro m1 hm tail m' ht
    cases hm
    exact ⟨_, by simp only [List.cons_append, List.nil_append, modMsg, Tag.fileMessage, if_true, hi, ht]; rfl⟩
  | nested path s m i n _ hi ih =>
    intro m1 hm tail m' ht
    cases hm
    rw [List.append_assoc]
    refine ih m rfl ([3, i] ++ tail) { m with nested := m.nested.set i m' } ?_
    simp [Pool.modMsgIn, Tag.msgNested, hi, ht]
  | _ => intro m1 hm; cases hm

/-- A message is declared at this path. -/
def MsgAt (f : FileP) (path : Path) : Prop := ∃ s m, Has f path s (.message m)

theorem MsgAt.strip {a b : FileP} (h : stripFile a = stripFile b) {path : Path}
    (hx : MsgAt b path) : MsgAt a path := by
  obtain ⟨s, x, hx⟩ := hx
  obtain ⟨y, h1, h2⟩ := hx.strip h
  cases y <;> simp only [Item.strip, reduceCtorEq] at h2
  exact ⟨_, _, h1⟩

theorem MsgAt.mod {f : FileP} {path : Path} (h : MsgAt f path) (g : MsgP → MsgP) :
    ∃ f', modMsg g f path = some f' := by
  obtain ⟨s, m, h⟩ := h
  have := h.modMsgIn m rfl [] (g m) rfl
  rwa [List.append_nil] at this

theorem MsgAt.find {f : FileP} {path : Path} (h : MsgAt f path) : ∃ m, findMsg f path = some m := by
  obtain ⟨s, m, h⟩ := h
  exact ⟨m, h.found.2⟩

/-- A method is declared at this path. -/
def MethodAt (f : FileP) (path : Path) : Prop := ∃ s m, Has f path s (.method m)

theorem MethodAt.strip {a b : FileP} (h : stripFile a = stripFile b) {path : Path}
    (hx : MethodAt b path) : MethodAt a path := by
  obtain ⟨s, x, hx⟩ := hx
  obtain ⟨y, h1, h2⟩ := hx.strip h
  cases y <;> simp only [Item.strip, reduceCtorEq] at h2
  exact ⟨_, _, h1⟩

theorem MethodAt.mod {f : FileP} {path : Path} (h : MethodAt f path) (g : MethodP → MethodP) :
    ∃ f', modMethod g f path = some f' := by
  obtain ⟨s, m, h⟩ := h
  obtain ⟨j, i, sv, rfl, h1, h2⟩ := h.found
  exact ⟨_, by simp only [modMethod, h1, getElem?_lt h2, if_true]; rfl⟩

/-- An enum is declared at this path. -/
def EnumAt (f : FileP) (path : Path) : Prop := ∃ s e, Has f path s (.enum e)

theorem EnumAt.strip {a b : FileP} (h : stripFile a = stripFile b) {path : Path}
    (hx : EnumAt b path) : EnumAt a path := by
  obtain ⟨s, x, hx⟩ := hx
  obtain ⟨y, h1, h2⟩ := hx.strip h
  cases y <;> simp only [Item.strip, reduceCtorEq] at h2
  exact ⟨_, _, h1⟩

theorem EnumAt.find {f : FileP} {path : Path} (h : EnumAt f path) : ∃ m, findEnum f path = some m := by
  obtain ⟨s, m, h⟩ := h
  exact ⟨m, h.found⟩

/-! Public imports. -/

/-- Public imports lead down a rank that stays below the size of the stack. -/
def Ranked (stack : Nat) (files : List FileD) (fileNames : List (Name × Nat)) : Prop :=
  ∃ rank : Nat → Nat, (∀ i, i < files.length → rank i < stack) ∧
    ∀ i j, PubP files fileNames i j → rank j < rank i

theorem publicLoop_runs {fileNames : List (Name × Nat)} {pub : List Int}
    {rec : List Nat → Nat → Res (List Nat)} {deps : List Name}
    (hrec : ∀ (k : Nat) d di ds, deps[k]? = some d → (k : Int) ∈ pub → lookupN fileNames d = some di →
      ∃ ds', rec ds di = .ok ds') :
    ∀ (r : List Name) (i : Nat) (ds : List Nat), deps.drop i = r →
      ∃ ds', publicLoop fileNames pub rec i r ds = .ok ds'
  | [], i, ds, _ => ⟨ds, rfl⟩
  | d :: r, i, ds, hr => by
    have hd : deps[i]? = some d := by
      have := congrArg (·[0]?) hr
      simpa using this
    have hr' : deps.drop (i + 1) = r := by
      have := congrArg (List.drop 1) hr
      simpa [List.drop_drop, Nat.add_comm] using this
    have next := fun ds1 => publicLoop_runs hrec r (i + 1) ds1 hr'
    simp only [publicLoop]
    cases hl : lookupN fileNames d with
    | none => exact next ds
    | some di =>
      simp only
      by_cases hp : pub.contains (i : Int) = true
      · rw [if_pos hp]
        split
        · obtain ⟨ds1, h1⟩ := hrec i d di ds hd (by simpa using hp) hl
          rw [h1]
          exact next ds1
        · exact next _
      · rw [if_neg hp]
        exact next ds

theorem resolvePublic_runs {files : List FileD} {fileNames : List (Name × Nat)} {rank : Nat → Nat}
    (hin : ∀ x ∈ fileNames, x.2 < files.length)
    (hrank : ∀ i j, PubP files fileNames i j → rank j < rank i) :
    ∀ (fuel : Nat) (ds : List Nat) (i : Nat), i < files.length → rank i < fuel →
      ∃ ds', resolvePublic files fileNames fuel ds i = .ok ds'
  | 0, _, _, _, h => by omega
  | fuel + 1, ds, i, hi, h => by
    simp only [resolvePublic, List.getElem?_eq_getElem hi]
    refine publicLoop_runs ?_ _ 0 ds rfl
    intro k d di ds' hd hp hl
    have hlt : di < files.length := hin _ (lookupN_mem hl)
    have := hrank i di ⟨files[i], d, k, List.getElem?_eq_getElem hi, hd, hp, hl⟩
    exact resolvePublic_runs hin hrank fuel ds' di hlt (by omega)

/-! What the second pass relies on. -/

structure Ready (stack : Nat) (q : Pool) : Prop where
  names : ∀ x ∈ q.names, x.2.file < q.files.length ∧
    (∀ i, x.2.kind = .message i → i < q.messages.length) ∧
    (∀ i, x.2.kind = .enum i → i < q.enums.length)
  msgs : ∀ (k : Nat) md, q.messages[k]? = some md →
    ∃ fd, q.files[md.id.file]? = some fd ∧ MsgAt fd.raw md.id.path
  enums : ∀ (k : Nat) ed, q.enums[k]? = some ed →
    ∃ fd, q.files[ed.id.file]? = some fd ∧ EnumAt fd.raw ed.id.path
  fileNames : ∀ x ∈ q.fileNames, x.2 < q.files.length
  rank : Ranked stack q.files q.fileNames

/-- The pools agree in what `Ready` looks at. -/
structure Sim (p q : Pool) : Prop where
  names : q.names = p.names
  fileNames : q.fileNames = p.fileNames
  filesLen : q.files.length = p.files.length
  files : ∀ (i : Nat) fd, p.files[i]? = some fd →
    ∃ fd', q.files[i]? = some fd' ∧ stripFile fd'.raw = stripFile fd.raw
  msgsLen : q.messages.length = p.messages.length
  messages : ∀ (i : Nat) m, p.messages[i]? = some m → ∃ m', q.messages[i]? = some m' ∧ m'.id = m.id
  enumsLen : q.enums.length = p.enums.length
  enums : ∀ (i : Nat) e, p.enums[i]? = some e →
    ∃ e', q.enums[i]? = some e' ∧ e'.id = e.id ∧ e'.values = e.values

theorem Sim.refl (p : Pool) : Sim p p :=
  ⟨rfl, rfl, rfl, fun _ fd h => ⟨fd, h, rfl⟩, rfl, fun _ m h => ⟨m, h, rfl⟩, rfl,
    fun _ e h => ⟨e, h, rfl, rfl⟩⟩

theorem Sim.trans {p q r : Pool} (h : Sim p q) (g : Sim q r) : Sim p r where
  names := g.names.trans h.names
  fileNames := g.fileNames.trans h.fileNames
  filesLen := g.filesLen.trans h.filesLen
  files i fd hf := by
    obtain ⟨a, h1, h2⟩ := h.files i fd hf
    obtain ⟨b, g1, g2⟩ := g.files i a h1
    exact ⟨b, g1, g2.trans h2⟩
  msgsLen := g.msgsLen.trans h.msgsLen
  messages i fd hf := by
    obtain ⟨a, h1, h2⟩ := h.messages i fd hf
    obtain ⟨b, g1, g2⟩ := g.messages i a h1
    exact ⟨b, g1, g2.trans h2⟩
  enumsLen := g.enumsLen.trans h.enumsLen
  enums i fd hf := by
    obtain ⟨a, h1, h2, h3⟩ := h.enums i fd hf
    obtain ⟨b, g1, g2, g3⟩ := g.enums i a h1
    exact ⟨b, g1, g2.trans h2, g3.trans h3⟩

theorem getElem?_back {α : Type} {a b : List α} (hl : b.length = a.length) {i : Nat} {y : α}
    (h : b[i]? = some y) : ∃ x, a[i]? = some x :=
  ⟨a[i]'(by rw [← hl]; exact getElem?_lt h), List.getElem?_eq_getElem _⟩

theorem strip_imports {a b : FileP} (h : stripFile a = stripFile b) :
    a.deps = b.deps ∧ a.publicDeps = b.publicDeps := by
  rw [stripFile_eq, stripFile_eq] at h
  have h1 := congrArg FileP.deps h
  have h2 := congrArg FileP.publicDeps h
  exact ⟨h1, h2⟩

theorem Sim.pub {p q : Pool} (h : Sim p q) {i j : Nat} (hp : PubP q.files q.fileNames i j) :
    PubP p.files p.fileNames i j := by
  obtain ⟨f, n, k, h1, h2, h3, h4⟩ := hp
  obtain ⟨g, hg⟩ := getElem?_back h.filesLen h1
  obtain ⟨f', g1, g2⟩ := h.files i g hg
  rw [h1] at g1; cases g1
  obtain ⟨e1, e2⟩ := strip_imports g2
  exact ⟨g, n, k, hg, by rw [← e1]; exact h2, by rw [← e2]; exact h3, by rw [← h.fileNames]; exact h4⟩

theorem Ready.sim {stack : Nat} {p q : Pool} (h : Ready stack p) (s : Sim p q) : Ready stack q where
  names x hx := by
    rw [s.names] at hx
    rw [s.filesLen, s.msgsLen, s.enumsLen]
    exact h.names x hx
  msgs k md hm := by
    obtain ⟨m0, h0⟩ := getElem?_back s.msgsLen hm
    obtain ⟨m', h1, h2⟩ := s.messages k m0 h0
    rw [hm] at h1; cases h1
    obtain ⟨fd, h3, h4⟩ := h.msgs k m0 h0
    obtain ⟨fd', h5, h6⟩ := s.files _ _ h3
    rw [h2]
    exact ⟨fd', h5, h4.strip h6⟩
  enums k md hm := by
    obtain ⟨m0, h0⟩ := getElem?_back s.enumsLen hm
    obtain ⟨m', h1, h2, _⟩ := s.enums k m0 h0
    rw [hm] at h1; cases h1
    obtain ⟨fd, h3, h4⟩ := h.enums k m0 h0
    obtain ⟨fd', h5, h6⟩ := s.files _ _ h3
    rw [h2]
    exact ⟨fd', h5, h4.strip h6⟩
  fileNames x hx := by
    rw [s.fileNames] at hx
    rw [s.filesLen]
    exact h.fileNames x hx
  rank := by
    obtain ⟨r, h1, h2⟩ := h.rank
    exact ⟨r, by rw [s.filesLen]; exact h1, fun i j hp => h2 i j (s.pub hp)⟩

theorem Raw.sim {file : Nat} {st st' : St} (h : Raw file st st') : Sim st.pool st'.pool where
  names := h.names
  fileNames := h.fileNames
  filesLen := h.len
  files i fd hf := by
    by_cases hi : i = file
    · subst hi
      obtain ⟨y, h1, h2⟩ := h.alike fd hf
      exact ⟨y, h1, h2.raw⟩
    · exact ⟨fd, by rw [h.other i hi]; exact hf, rfl⟩
  msgsLen := by rw [h.messages]
  messages i m hm := ⟨m, by rw [h.messages]; exact hm, rfl⟩
  enumsLen := by rw [h.enums]
  enums i m hm := ⟨m, by rw [h.enums]; exact hm, rfl, rfl⟩

/-- What a pool knows about the declaration a callback is about. -/
def EvIn (q : Pool) : Event → Prop
  | .file _ i _ => i < q.files.length
  | .message path _ file _ _ _ => ∃ fd, q.files[file]? = some fd ∧ MsgAt fd.raw path
  | .field path _ file msg _ _ => (∃ fd, q.files[file]? = some fd ∧ FieldAt fd.raw path) ∧
      msg < q.messages.length
  | .method path _ file _ _ _ => ∃ fd, q.files[file]? = some fd ∧ MethodAt fd.raw path
  | .enumValue _ _ file enum i _ => file < q.files.length ∧
      ∃ ed, q.enums[enum]? = some ed ∧ i < ed.values.length
  | .extension path _ file _ _ _ => ∃ fd, q.files[file]? = some fd ∧ FieldAt fd.raw path
  | _ => True

theorem EvIn.sim {p q : Pool} {e : Event} (h : EvIn p e) (s : Sim p q) : EvIn q e := by
  cases e with
  | file path i f => exact (by rw [EvIn, s.filesLen]; exact h)
  | message path full file parent k m =>
    obtain ⟨fd, h1, h2⟩ := h
    obtain ⟨fd', g1, g2⟩ := s.files _ _ h1
    exact ⟨fd', g1, h2.strip g2⟩
  | field path full file msg i f =>
    obtain ⟨⟨fd, h1, h2⟩, h3⟩ := h
    obtain ⟨fd', g1, g2⟩ := s.files _ _ h1
    exact ⟨⟨fd', g1, h2.strip g2⟩, by rw [s.msgsLen]; exact h3⟩
  | method path full file k i m =>
    obtain ⟨fd, h1, h2⟩ := h
    obtain ⟨fd', g1, g2⟩ := s.files _ _ h1
    exact ⟨fd', g1, h2.strip g2⟩
  | extension path full file k i m =>
    obtain ⟨fd, h1, h2⟩ := h
    obtain ⟨fd', g1, g2⟩ := s.files _ _ h1
    exact ⟨fd', g1, h2.strip g2⟩
  | enumValue path full file k i v =>
    obtain ⟨h0, ed, h1, h2⟩ := h
    obtain ⟨ed', g1, _, g2⟩ := s.enums _ _ h1
    exact ⟨by rw [s.filesLen]; exact h0, ed', g1, by rw [g2]; exact h2⟩
  | oneof path full file k i o => trivial
  | service path full file i s => trivial
  | enum path full file parent i en => trivial

/-! The helpers of the second pass return. -/

/-- Results of resolving a name mention entries of the table only. -/
def RR.From (names : List (Name × Def)) (filter : Filter) : RR → Prop
  | .found _ d => (∃ n, (n, d) ∈ names) ∧ filter.isMatch d.kind = true
  | .invalidType _ d => ∃ n, (n, d) ∈ names
  | .notImported _ f => ∃ n d, (n, d) ∈ names ∧ d.file = f
  | .shadowed _ => True
  | .notFound => True

theorem RR.new_from (deps : List Nat) (names : List (Name × Def)) (n : Name) (filter : Filter) :
    (RR.new deps names n filter).From names filter := by
  unfold RR.new
  cases hl : lookupN names n with
  | none => trivial
  | some d =>
    have := lookupN_mem hl
    simp only
    split
    · exact ⟨n, d, this, rfl⟩
    · split
      · exact ⟨n, this⟩
      · next hm => exact ⟨⟨n, this⟩, by simpa using hm⟩

theorem relLoop_from (deps : List Nat) (names : List (Name × Def)) (rel : Name) (filter : Filter) :
    ∀ (ps : List Name) (err : RR), err.From names filter →
      (relLoop deps names rel filter err ps).From names filter
  | [], err, h => h
  | p :: ps, err, h => by
    simp only [relLoop]
    split
    · have hn := RR.new_from deps names (pushScope p (firstPart rel)) filter
      cases hr : RR.new deps names (pushScope p (firstPart rel)) filter <;> rw [hr] at hn <;>
        first
          | exact hn
          | (refine relLoop_from deps names rel filter ps _ ?_
             split
             · exact hn
             · exact h)
    · split
      · split
        · have hn := RR.new_from deps names (pushScope p rel) filter
          cases hr : RR.new deps names (pushScope p rel) filter <;> rw [hr] at hn <;>
            first
              | exact hn
              | trivial
        · exact relLoop_from deps names rel filter ps err h
      · exact relLoop_from deps names rel filter ps err h

theorem resolveName_from (deps : List Nat) (names : List (Name × Def)) (scope name : Name)
    (filter : Filter) : (resolveName deps names scope name filter).From names filter := by
  unfold resolveName
  split
  · exact RR.new_from _ _ _ _
  · split
    · exact RR.new_from _ _ _ _
    · exact relLoop_from _ _ _ _ _ _ trivial

section
variable {stack : Nat}

theorem report_runs {st : St} (hg : Ready stack st.pool) {file : Nat} (hf : file < st.pool.files.length)
    (name : Name) {filter : Filter} {r : RR} (hr : r.From st.pool.names filter) :
    ∃ st', r.report st file name = .ok st' := by
  cases r with
  | found n d => exact ⟨_, rfl⟩
  | invalidType n d =>
    obtain ⟨m, hm⟩ := hr
    exact ⟨_, by simp only [RR.report, label_of hf, label_of (hg.names _ hm).1, bind, Except.bind]; rfl⟩
  | notImported n f =>
    obtain ⟨m, d, hm, rfl⟩ := hr
    exact ⟨_, by
      simp only [RR.report, label_of (hg.names _ hm).1, bind, Except.bind]
      exact report_of _ hf⟩
  | shadowed n => exact ⟨_, report_of _ hf⟩
  | notFound => exact ⟨_, report_of _ hf⟩

theorem setRaw_runs {st : St} {file : Nat} {fd : FileD} (hf : st.pool.files[file]? = some fd)
    {g : FileP → Option FileP} (hg : ∃ f', g fd.raw = some f') : ∃ st', setRaw st file g = .ok st' := by
  obtain ⟨f', hf'⟩ := hg
  exact ⟨_, by simp only [setRaw, getR_ok.2 hf, unwrapR_ok.2 hf', bind, Except.bind]; rfl⟩

/-- Where a resolved name can be written to. -/
def Target.At (f : FileP) (path : Path) : Target → Prop
  | .typeName | .extendee => FieldAt f path
  | .input | .output => MethodAt f path

theorem setTypeName_runs {f : FileP} {path : Path} {t : Target} (h : t.At f path) (n : Name) (b : Bool) :
    ∃ f', setTypeName path t n b f = some f' := by
  cases t <;> simp only [setTypeName]
  · exact FieldAt.mod h _
  · exact FieldAt.mod h _
  · exact MethodAt.mod h _
  · exact MethodAt.mod h _

theorem resolveIn_runs {st : St} (hg : Ready stack st.pool) {file : Nat} {fd : FileD}
    (hf : st.pool.files[file]? = some fd) {path : Path} {t : Target} (ht : t.At fd.raw path)
    (scope name : Name) (filter : Filter) :
    ∃ st' d, resolveIn st scope name file path t filter = .ok (st', d) ∧
      ∀ d', d = some d' → (∃ n, (n, d') ∈ st.pool.names) ∧ filter.isMatch d'.kind = true := by
  have hfr := resolveName_from fd.trans st.pool.names scope name filter
  simp only [resolveIn, getR_ok.2 hf, bind, Except.bind]
  cases hr : resolveName fd.trans st.pool.names scope name filter with
  | found n d =>
    rw [hr] at hfr
    obtain ⟨st', h1⟩ := setRaw_runs hf (setTypeName_runs ht ('.' :: n) d.kind.isMessage)
    simp only [h1]
    exact ⟨_, _, rfl, fun d' hd => by cases hd; exact hfr⟩
  | _ =>
    rw [hr] at hfr
    obtain ⟨st', h1⟩ := report_runs hg (getElem?_lt hf) name hfr
    simp only [h1]
    exact ⟨_, _, rfl, fun d' hd => by cases hd⟩

theorem findMessage_runs {st : St} (hg : Ready stack st.pool) {file : Nat} {fd : FileD}
    (hf : st.pool.files[file]? = some fd) {path : Path} {t : Target} (ht : t.At fd.raw path)
    (scope name : Name) : ∃ st' r, findMessage st scope name file path t = .ok (st', r) ∧
      ∀ i, r = some i → i < st.pool.messages.length := by
  obtain ⟨st', d, h1, h2⟩ := resolveIn_runs hg hf ht scope name .message
  simp only [findMessage, h1, bind, Except.bind]
  cases d with
  | none => exact ⟨_, _, rfl, fun i hi => by cases hi⟩
  | some d =>
    obtain ⟨⟨n, hn⟩, hm⟩ := h2 d rfl
    simp only
    cases hk : d.kind <;> rw [hk] at hm <;> simp [Filter.isMatch] at hm
    exact ⟨_, _, rfl, fun i hi => by cases hi; exact (hg.names _ hn).2.1 _ hk⟩

theorem resolveType_runs {st : St} (hg : Ready stack st.pool) {file : Nat} {fd : FileD}
    (hf : st.pool.files[file]? = some fd) {path : Path} (ht : FieldAt fd.raw path) (f : FieldP)
    (scope : Name) : ∃ st' r, resolveType st f scope file path = .ok (st', r) ∧
      ∀ k g, r = some (k, g) → (∀ i, k = .enum i → i < st.pool.enums.length) ∧
        (k = .bytes → f.typeName = [] ∧ f.ty = .bytes) := by
  unfold resolveType
  split
  · next hn =>
    cases hs : scalarKind f.ty with
    | some k =>
      refine ⟨_, _, rfl, fun k' g hk => ?_⟩
      simp only [Option.some.injEq, Prod.mk.injEq] at hk
      obtain ⟨rfl, _⟩ := hk
      refine ⟨fun i hi => ?_, fun hk => ⟨hn, ?_⟩⟩
      · subst hi; cases ht : f.ty <;> rw [ht] at hs <;> cases hs
      · subst hk; cases ht : f.ty <;> rw [ht] at hs <;> first | rfl | cases hs
    | none =>
      simp only [report_of _ (getElem?_lt hf), bind, Except.bind]
      exact ⟨_, _, rfl, fun k' g hk => by cases hk⟩
  · obtain ⟨st', d, h1, h2⟩ := resolveIn_runs hg hf (t := .typeName) ht scope f.typeName .fieldType
    simp only [h1, bind, Except.bind]
    cases d with
    | none => exact ⟨_, _, rfl, fun k g hk => by cases hk⟩
    | some d =>
      obtain ⟨⟨n, hn⟩, hm⟩ := h2 d rfl
      simp only
      cases hk : d.kind <;> rw [hk] at hm <;> simp [Filter.isMatch] at hm
      · refine ⟨_, _, rfl, fun k g hk' => ?_⟩
        simp only [Option.some.injEq, Prod.mk.injEq] at hk'
        obtain ⟨rfl, _⟩ := hk'
        exact ⟨fun i hi => (by cases hi), fun hi => (by cases hi)⟩
      · refine ⟨_, _, rfl, fun k g hk' => ?_⟩
        simp only [Option.some.injEq, Prod.mk.injEq] at hk'
        obtain ⟨rfl, _⟩ := hk'
        exact ⟨fun i hi => (by cases hi; exact (hg.names _ hn).2.2 _ hk), fun hi => (by cases hi)⟩

theorem resolveJsonName_runs {st : St} {file : Nat} {fd : FileD}
    (hf : st.pool.files[file]? = some fd) {path : Path} (ht : FieldAt fd.raw path) (f : FieldP) :
    ∃ st' j, resolveJsonName st f file path = .ok (st', j) := by
  unfold resolveJsonName
  split
  · exact ⟨_, _, rfl⟩
  · obtain ⟨st', h1⟩ := setRaw_runs (g := fun raw => modField (fun fp => { fp with
        jsonName := some (toJsonName false f.name) }) raw path) hf (ht.mod _)
    simp only [h1, bind, Except.bind]
    exact ⟨_, _, rfl⟩

/-- The default value of a bytes field can be unescaped. -/
def DefaultSafe (checks : Bool) (f : FieldP) : Prop :=
  f.typeName = [] → f.ty = .bytes → ∀ s, f.default = some s →
    ∃ r, unescape checks (utf8Encode s) = .ok r

theorem parseDefault_runs {env : Env} {st : St} {file : Nat} (hf : file < st.pool.files.length)
    {k : Kind} {f : FieldP} (he : ∀ i, k = .enum i → i < st.pool.enums.length)
    (hb : k = .bytes → f.typeName = [] ∧ f.ty = .bytes) (hd : DefaultSafe env.checks f) :
    ∃ st' v, parseDefault env st k f.default file = .ok (st', v) := by
  unfold parseDefault
  cases hdf : f.default with
  | none => exact ⟨_, _, rfl⟩
  | some s =>
    simp only
    have simple : ∀ r, parseSimple env.fp env.checks k s = .ok r →
        ∃ st' v, (do
          match ← parseSimple env.fp env.checks k s with
          | some v => .ok (st, some v)
          | none => do
            let st ← st.report file .invalidDefault
            .ok (st, none) : Res (St × Option Value)) = .ok (st', v) := by
      intro r hr
      rw [hr]
      cases r with
      | some v => exact ⟨_, _, rfl⟩
      | none =>
        simp only [report_of _ hf, bind, Except.bind]
        exact ⟨_, _, rfl⟩
    cases k with
    | message i =>
      simp only [report_of _ hf, bind, Except.bind]
      exact ⟨_, _, rfl⟩
    | enum i =>
      simp only [getR_of (he i rfl), bind, Except.bind]
      cases (st.pool.enums[i]'(he i rfl)).values.find? (fun v => v.id.name == s) with
      | some v => exact ⟨_, _, rfl⟩
      | none =>
        simp only [report_of _ hf]
        exact ⟨_, _, rfl⟩
    | bytes =>
      obtain ⟨r, hr⟩ := hd (hb rfl).1 (hb rfl).2 s hdf
      refine simple (r.map .bytes) ?_
      simp only [parseSimple, hr]
    | _ => exact simple _ rfl

theorem parseDefaultOpt_runs {env : Env} {st : St} {file : Nat} (hf : file < st.pool.files.length)
    {k : Option (Kind × Bool)} {f : FieldP}
    (hk : ∀ k' g, k = some (k', g) → (∀ i, k' = .enum i → i < st.pool.enums.length) ∧
      (k' = .bytes → f.typeName = [] ∧ f.ty = .bytes)) (hd : DefaultSafe env.checks f) :
    ∃ st' v, parseDefaultOpt env st k f.default file = .ok (st', v) := by
  cases k with
  | none => exact ⟨_, _, rfl⟩
  | some x => exact parseDefault_runs hf (hk x.1 x.2 rfl).1 (hk x.1 x.2 rfl).2 hd

theorem reservedLoop_runs {mfile file : Nat} (n : Int) :
    ∀ (rs : List (Int × Int)) (st : St), mfile < st.pool.files.length → file < st.pool.files.length →
      ∃ st', reservedLoop mfile file n st rs = .ok st'
  | [], st, _, _ => ⟨st, rfl⟩
  | r :: rs, st, hm, hf => by
    simp only [reservedLoop]
    split
    · simp only [label_of hm, report_of _ hf, bind, Except.bind]
      exact reservedLoop_runs n rs _ hm hf
    · exact reservedLoop_runs n rs st hm hf

theorem enumReservedLoop_runs {mfile file : Nat} (n : Int) :
    ∀ (rs : List (Int × Int)) (st : St), mfile < st.pool.files.length → file < st.pool.files.length →
      ∃ st', enumReservedLoop mfile file n st rs = .ok st'
  | [], st, _, _ => ⟨st, rfl⟩
  | r :: rs, st, hm, hf => by
    simp only [enumReservedLoop]
    split
    · simp only [label_of hm, report_of _ hf, bind, Except.bind]
      exact enumReservedLoop_runs n rs _ hm hf
    · exact enumReservedLoop_runs n rs st hm hf

theorem checkNumber_runs {st : St} (hg : Ready stack st.pool) {msg file : Nat}
    (hm : msg < st.pool.messages.length) (hf : file < st.pool.files.length) (f : FieldP) :
    ∃ st', checkNumber st msg f file = .ok st' := by
  have hv : ∃ st1, checkValid st f.number file = .ok st1 ∧ st1.pool = st.pool := by
    unfold checkValid
    split
    · exact ⟨st, rfl, rfl⟩
    · exact ⟨_, report_of _ hf, rfl⟩
  obtain ⟨st1, h1, hp⟩ := hv
  rw [← hp] at hg hm hf
  obtain ⟨fd, h2, h3⟩ := hg.msgs msg _ (List.getElem?_eq_getElem hm)
  obtain ⟨mp, h4⟩ := h3.find
  obtain ⟨st2, h5⟩ := reservedLoop_runs (file := file) f.number mp.reserved st1 (getElem?_lt h2) hf
  have hp2 := (reservedLoop_quiet h5).pool
  simp only [checkNumber, h1, getR_of hm, getR_ok.2 h2, unwrapR_ok.2 h4, h5, bind, Except.bind]
  have l1 : st1.pool.messages[msg].id.file < st2.pool.files.length := by rw [hp2]; exact getElem?_lt h2
  have l2 : file < st2.pool.files.length := by rw [hp2]; exact hf
  split
  · exact ⟨_, rfl⟩
  · exact ⟨_, rfl⟩
  · simp only [label_of l1]
    exact ⟨_, report_of _ l2⟩
  · exact ⟨_, report_of _ l2⟩

theorem checkEnumNumber_runs {st : St} (hg : Ready stack st.pool) {enum file : Nat}
    (hm : enum < st.pool.enums.length) (hf : file < st.pool.files.length) (v : EnumValueP) :
    ∃ st', checkEnumNumber st enum v file = .ok st' := by
  obtain ⟨fd, h2, h3⟩ := hg.enums enum _ (List.getElem?_eq_getElem hm)
  obtain ⟨mp, h4⟩ := h3.find
  obtain ⟨st2, h5⟩ := enumReservedLoop_runs (file := file) v.number mp.reserved st (getElem?_lt h2) hf
  simp only [checkEnumNumber, getR_of hm, getR_ok.2 h2, unwrapR_ok.2 h4, h5, bind, Except.bind]
  exact ⟨_, rfl⟩

theorem reportDup_runs {st : St} {m : MsgD} {file : Nat} (hf : file < st.pool.files.length)
    {ex : Option Nat} (h : ∀ i, ex = some i → i < m.fields.length) (e : ErrKind) :
    ∃ st', reportDup st m file ex e = .ok st' := by
  cases ex with
  | none => exact ⟨_, rfl⟩
  | some i =>
    simp only [reportDup, getR_of (h i rfl), bind, Except.bind]
    exact ⟨_, report_of _ hf⟩

end

end Verif.Pool
