import Verif.Pool.Located
import Verif.Pool.Failed
import Verif.Props.PoolExample
/-!
Properties of descriptor pools under additions: C18 to C21 and C47.

`Hist env acc p` says that `p` arose from the empty pool by a history of additions, some of
which failed; `acc` lists the files accepted on the way.
-/
set_option autoImplicit false
namespace Verif.Props
open Verif.Wire Verif.Dyn Verif.Pool

theorem two_of_filter {α : Type} {c : α → Bool} : ∀ {l : List α}, 1 < (l.filter c).length →
    ∃ (a b : α) (i j : Nat), l[i]? = some a ∧ l[j]? = some b ∧ c a = true ∧ c b = true ∧ i ≠ j
  | [], h => by simp at h
  | x :: l, h => by
    by_cases hx : c x = true
    · rw [List.filter_cons_of_pos hx, List.length_cons] at h
      obtain ⟨y, hy⟩ := List.exists_mem_of_length_pos (show 0 < (l.filter c).length by omega)
      rw [List.mem_filter] at hy
      obtain ⟨j, hj⟩ := List.getElem?_of_mem hy.1
      exact ⟨x, y, 0, j + 1, rfl, by simpa using hj, hx, hy.2, by omega⟩
    · rw [List.filter_cons_of_neg hx] at h
      obtain ⟨a, b, i, j, h1, h2, h3, h4, h5⟩ := two_of_filter h
      exact ⟨a, b, i + 1, j + 1, by simpa using h1, by simpa using h2, h3, h4, by omega⟩

theorem two_in_filter {α : Type} {c : α → Bool} {l : List α} {i j : Nat} {a b : α}
    (ha : l[i]? = some a) (hb : l[j]? = some b) (hij : i ≠ j) (hca : c a = true)
    (hcb : c b = true) : 2 ≤ (l.filter c).length := by
  have main : ∀ {l : List α} {i j : Nat} {a b : α}, l[i]? = some a → l[j]? = some b → i < j →
      c a = true → c b = true → 2 ≤ (l.filter c).length := by
    intro l
    induction l with
    | nil => intro i j a b ha; simp at ha
    | cons x l ih =>
      intro i j a b ha hb hij hca hcb
      cases j with
      | zero => omega
      | succ j =>
        simp only [List.getElem?_cons_succ] at hb
        cases i with
        | zero =>
          simp only [List.getElem?_cons_zero, Option.some.injEq] at ha
          subst ha
          rw [List.filter_cons_of_pos hca, List.length_cons]
          have : b ∈ l.filter c := List.mem_filter.mpr ⟨List.mem_of_getElem? hb, hcb⟩
          have := List.length_pos_of_mem this
          omega
        | succ i =>
          simp only [List.getElem?_cons_succ] at ha
          have := ih ha hb (by omega) hca hcb
          by_cases hx : c x = true
          · rw [List.filter_cons_of_pos hx, List.length_cons]; omega
          · rw [List.filter_cons_of_neg hx]; exact this
  rcases Nat.lt_or_gt_of_ne hij with h | h
  · exact main ha hb h hca hcb
  · exact main hb ha h hcb hca

theorem stripDot_of_ne {n : Name} (h : n.head? ≠ some '.') : stripDot n = n := by
  unfold stripDot
  split
  · next r => simp at h
  · rfl

section
variable {env : Env} (hsr : SearchOk env.search) {acc : List FileP} {p : Pool}
include hsr

/-! ### C18 -/

/-- **C18, uniqueness.** Of all declarations (messages, fields, oneofs, enums, values, services,
methods, extensions, at any nesting) in all accepted files, no two have the same full name. -/
theorem C18_unique (h : Hist env acc p) {i j : Nat} {f g : FileP} {path path' : Path}
    {s s' : Name} {x y : Item} (hf : acc[i]? = some f) (hg : acc[j]? = some g)
    (hx : Has f path s x) (hy : Has g path' s' y)
    (hn : qualified s x.name = qualified s' y.name) : i = j ∧ path = path' ∧ x = y := by
  have hD := h.desc hsr
  obtain ⟨e, he, hei⟩ := has_visited (o := {}) hf hx
  obtain ⟨e', he', hei'⟩ := has_visited (o := {}) hg hy
  obtain ⟨k, hk, ht⟩ := Event.item_tag hei
  obtain ⟨k', hk', ht'⟩ := Event.item_tag hei'
  rw [hn] at hk
  have hd := hD.unique he he' hk hk'
  simp only [Def.mk.injEq] at hd
  have hij : i = j := by
    have := hd.1
    have h0 : ({} : Offs).file = 0 := rfl
    omega
  subst hij
  rw [hf] at hg; cases hg
  obtain ⟨_, rfl, rfl⟩ := hd
  exact ⟨rfl, rfl, hx.found.unique hy.found (ht.symm.trans ht')⟩

/-- **C18, messages.** `get_message_by_name` finds a descriptor exactly under its full name; a leading
dot in the query is dropped. -/
theorem C18_message (h : Hist env acc p) (n : Name) (k : Nat) :
    p.messageByName n = some k ↔ ∃ d, p.messages[k]? = some d ∧ d.id.fullName = stripDot n := by
  rw [← (h.desc hsr).message_name]
  unfold Pool.messageByName Pool.getByName
  constructor
  · intro hm
    split at hm
    · next fi path i hl => cases hm; exact ⟨_, _, hl⟩
    · cases hm
  · rintro ⟨fi, path, hl⟩; rw [hl]

/-- **C18, enums.** `get_enum_by_name` finds a descriptor exactly under its full name; a leading
dot in the query is dropped. -/
theorem C18_enum (h : Hist env acc p) (n : Name) (k : Nat) :
    p.enumByName n = some k ↔ ∃ d, p.enums[k]? = some d ∧ d.id.fullName = stripDot n := by
  rw [← (h.desc hsr).enum_name]
  unfold Pool.enumByName Pool.getByName
  constructor
  · intro hm
    split at hm
    · next fi path i hl => cases hm; exact ⟨_, _, hl⟩
    · cases hm
  · rintro ⟨fi, path, hl⟩; rw [hl]

/-- **C18, services.** `get_service_by_name` finds a descriptor exactly under its full name; a leading
dot in the query is dropped. -/
theorem C18_service (h : Hist env acc p) (n : Name) (k : Nat) :
    p.serviceByName n = some k ↔ ∃ d, p.services[k]? = some d ∧ d.id.fullName = stripDot n := by
  rw [← (h.desc hsr).service_name]
  unfold Pool.serviceByName Pool.getByName
  constructor
  · intro hm
    split at hm
    · next fi path i hl => cases hm; exact ⟨_, _, hl⟩
    · cases hm
  · rintro ⟨fi, path, hl⟩; rw [hl]

/-- **C18, extensions.** `get_extension_by_name` finds a descriptor exactly under its full name; a leading
dot in the query is dropped. -/
theorem C18_extension (h : Hist env acc p) (n : Name) (k : Nat) :
    p.extensionByName n = some k ↔ ∃ d, p.extensions[k]? = some d ∧ d.id.fullName = stripDot n := by
  rw [← (h.desc hsr).extension_name]
  unfold Pool.extensionByName Pool.getByName
  constructor
  · intro hm
    split at hm
    · next fi path i hl => cases hm; exact ⟨_, _, hl⟩
    · cases hm
  · rintro ⟨fi, path, hl⟩; rw [hl]

/-- Every declared message of every accepted file has a descriptor, found under its full name with a
dot in front, and without the dot unless the name itself starts with one. -/
theorem C18_message_declared (h : Hist env acc p) {i : Nat} {f : FileP} {path : Path} {s : Name}
    {m : _} (hf : acc[i]? = some f) (hx : Has f path s (.message m)) :
    ∃ k d, p.messages[k]? = some d ∧ d.id.file = i ∧ d.id.path = path ∧
      d.id.fullName = qualified s m.name ∧
      p.messageByName ('.' :: qualified s m.name) = some k ∧
      ((qualified s m.name).head? ≠ some '.' → p.messageByName (qualified s m.name) = some k) := by
  obtain ⟨e, he, hei⟩ := has_visited (o := {}) hf hx
  cases e <;> simp only [Event.item, Option.some.injEq, Prod.mk.injEq, reduceCtorEq, and_false,
    Item.message.injEq] at hei
  obtain ⟨h0, rfl, rfl, rfl⟩ := hei
  obtain ⟨_, ⟨d, h1, h2, _⟩, _⟩ := (h.desc hsr).evs _ he
  refine ⟨_, d, h1, ?_, by rw [h2]; rfl, by rw [h2]; rfl, ?_, fun hd => ?_⟩
  · rw [h2]; show _ = i; have : ({} : Offs).file = 0 := rfl; simp only [Ident.mk']; omega
  · exact (C18_message hsr h _ _).2 ⟨d, h1, by rw [h2]; rfl⟩
  · exact (C18_message hsr h _ _).2 ⟨d, h1, by rw [h2, stripDot_of_ne hd]; rfl⟩

/-- Every declared enum of every accepted file has a descriptor, found under its full name with a
dot in front, and without the dot unless the name itself starts with one. -/
theorem C18_enum_declared (h : Hist env acc p) {i : Nat} {f : FileP} {path : Path} {s : Name}
    {e : _} (hf : acc[i]? = some f) (hx : Has f path s (.enum e)) :
    ∃ k d, p.enums[k]? = some d ∧ d.id.file = i ∧ d.id.path = path ∧
      d.id.fullName = qualified s e.name ∧
      p.enumByName ('.' :: qualified s e.name) = some k ∧
      ((qualified s e.name).head? ≠ some '.' → p.enumByName (qualified s e.name) = some k) := by
  obtain ⟨e, he, hei⟩ := has_visited (o := {}) hf hx
  cases e <;> simp only [Event.item, Option.some.injEq, Prod.mk.injEq, reduceCtorEq, and_false,
    Item.enum.injEq] at hei
  obtain ⟨h0, rfl, rfl, rfl⟩ := hei
  obtain ⟨_, ⟨d, h1, h2, _⟩, _⟩ := (h.desc hsr).evs _ he
  refine ⟨_, d, h1, ?_, by rw [h2]; rfl, by rw [h2]; rfl, ?_, fun hd => ?_⟩
  · rw [h2]; show _ = i; have : ({} : Offs).file = 0 := rfl; simp only [Ident.mk']; omega
  · exact (C18_enum hsr h _ _).2 ⟨d, h1, by rw [h2]; rfl⟩
  · exact (C18_enum hsr h _ _).2 ⟨d, h1, by rw [h2, stripDot_of_ne hd]; rfl⟩

/-- Every declared service of every accepted file has a descriptor, found under its full name with a
dot in front, and without the dot unless the name itself starts with one. -/
theorem C18_service_declared (h : Hist env acc p) {i : Nat} {f : FileP} {path : Path} {s : Name}
    {v : _} (hf : acc[i]? = some f) (hx : Has f path s (.service v)) :
    ∃ k d, p.services[k]? = some d ∧ d.id.file = i ∧ d.id.path = path ∧
      d.id.fullName = qualified s v.name ∧
      p.serviceByName ('.' :: qualified s v.name) = some k ∧
      ((qualified s v.name).head? ≠ some '.' → p.serviceByName (qualified s v.name) = some k) := by
  obtain ⟨e, he, hei⟩ := has_visited (o := {}) hf hx
  cases e <;> simp only [Event.item, Option.some.injEq, Prod.mk.injEq, reduceCtorEq, and_false,
    Item.service.injEq] at hei
  obtain ⟨h0, rfl, rfl, rfl⟩ := hei
  obtain ⟨_, d, h1, h2, _⟩ := (h.desc hsr).evs _ he
  refine ⟨_, d, h1, ?_, by rw [h2]; rfl, by rw [h2]; rfl, ?_, fun hd => ?_⟩
  · rw [h2]; show _ = i; have : ({} : Offs).file = 0 := rfl; simp only [Ident.mk']; omega
  · exact (C18_service hsr h _ _).2 ⟨d, h1, by rw [h2]; rfl⟩
  · exact (C18_service hsr h _ _).2 ⟨d, h1, by rw [h2, stripDot_of_ne hd]; rfl⟩

/-- Every declared extension of every accepted file has a descriptor, found under its full name with a
dot in front, and without the dot unless the name itself starts with one. -/
theorem C18_extension_declared (h : Hist env acc p) {i : Nat} {f : FileP} {path : Path} {s : Name}
    {x : _} (hf : acc[i]? = some f) (hx : Has f path s (.extension x)) :
    ∃ k d, p.extensions[k]? = some d ∧ d.id.file = i ∧ d.id.path = path ∧
      d.id.fullName = qualified s x.name ∧
      p.extensionByName ('.' :: qualified s x.name) = some k ∧
      ((qualified s x.name).head? ≠ some '.' → p.extensionByName (qualified s x.name) = some k) := by
  obtain ⟨e, he, hei⟩ := has_visited (o := {}) hf hx
  cases e <;> simp only [Event.item, Option.some.injEq, Prod.mk.injEq, reduceCtorEq, and_false,
    Item.extension.injEq] at hei
  obtain ⟨h0, rfl, rfl, rfl⟩ := hei
  obtain ⟨_, _, d, _, h1, _, h2⟩ := (h.desc hsr).evs _ he
  refine ⟨_, d, h1, ?_, by rw [h2.id]; rfl, by rw [h2.id]; rfl, ?_, fun hd => ?_⟩
  · rw [h2.id]; show _ = i; have : ({} : Offs).file = 0 := rfl; simp only [Ident.mk']; omega
  · exact (C18_extension hsr h _ _).2 ⟨d, h1, by rw [h2.id]; rfl⟩
  · exact (C18_extension hsr h _ _).2 ⟨d, h1, by rw [h2.id, stripDot_of_ne hd]; rfl⟩

/-- **C18, files.** `get_file_by_name` finds a file exactly under its name, and no two accepted
files share a name. -/
theorem C18_file (h : Hist env acc p) (n : Name) (i : Nat) :
    p.fileByName n = some i ↔ ∃ f, acc[i]? = some f ∧ f.name = n := by
  have hD := h.desc hsr
  constructor
  · intro hl
    exact hD.fileNames _ (lookupN_mem hl)
  · rintro ⟨f, hf, rfl⟩
    obtain ⟨_, _, _, _, _, _, _, h1⟩ := hD.file_at hf
    exact h1

end

/-- Two files, three messages, one of them nested: the hypotheses of the C18 theorems hold, and the
look-ups answer as stated. -/
example : ∃ acc p, Hist env0 acc p ∧ (acc.map (·.name) == [fileA.name, fileB.name] &&
    p.messageByName (nm "a.b.M.N") == some 1 && p.messageByName (nm ".c.P") == some 2 &&
    p.messageByName (nm "a.b.M.E") == none && p.enumByName (nm "a.b.M.E") == some 0 &&
    p.serviceByName (nm "a.b.S") == some 0 && p.extensionByName (nm "a.b.ext") == some 0 &&
    p.fileByName fileB.name == some 1) = true :=
  run_ex [[fileB, fileA, fileA], [fileB], [fileA, fileB]] _ (by decide +kernel)

/-- A message whose name starts with a dot, beside one without. -/
def fileDot : FileP where
  name := nm "dot.proto"
  messages := [{ name := nm ".M" }, { name := nm "M" }]

/-- **C18 is false for names that start with a dot.** Such a declaration is accepted, and looking
up its full name yields another message. -/
theorem C18_leading_dot_false : ∃ acc p, Hist env0 acc p ∧ ∃ d d', p.messages[0]? = some d ∧
    p.messages[1]? = some d' ∧ d.id.fullName = nm ".M" ∧ d'.id.fullName = nm "M" ∧
    p.messageByName d.id.fullName = some 1 := by
  obtain ⟨acc, p, hH, hc⟩ := run_ex [[fileDot]] (fun _ p => match p.messages with
    | [d, d'] => d.id.fullName == nm ".M" && d'.id.fullName == nm "M" &&
        p.messageByName d.id.fullName == some 1
    | _ => false) (by decide +kernel)
  refine ⟨acc, p, hH, ?_⟩
  split at hc
  · next d d' hm =>
    simp only [Bool.and_eq_true, beq_iff_eq] at hc
    rw [hm]
    exact ⟨d, d', rfl, rfl, hc.1.1, hc.1.2, hc.2⟩
  · cases hc

/-! ### C19 -/

/-- **C19, everything but the extension lists.** After a failed addition the pool has the same
files, enums, services and extensions, the same messages up to the list of known extensions, and
all look-ups by name answer as before. -/
theorem C19_partial {env : Env} (hsr : SearchOk env.search) {acc : List FileP} {p q : Pool}
    (h : Hist env acc p) {fs : List FileP} {e : ErrKind} {es : List ErrKind}
    (hb : buildFiles env p fs = .ok ⟨q, e :: es⟩) :
    q.files = p.files ∧ q.enums = p.enums ∧ q.services = p.services ∧
    q.extensions = p.extensions ∧ q.messages.map MsgD.forget = p.messages.map MsgD.forget ∧
    (∀ n, q.fileByName n = p.fileByName n) ∧
    (∀ n, q.messageByName n = p.messageByName n) ∧ (∀ n, q.enumByName n = p.enumByName n) ∧
    (∀ n, q.serviceByName n = p.serviceByName n) ∧
    (∀ n, q.extensionByName n = p.extensionByName n) ∧
    (∀ n, n ≠ [] → lookupN q.names n = lookupN p.names n) := by
  obtain ⟨r, _, _, hl⟩ := buildFiles_reject (h.desc hsr).ok hb
  obtain ⟨l, hn, hl'⟩ := hl.names
  have key : ∀ n, lookupN q.names n = lookupN p.names n ∨
      (lookupN p.names n = none ∧ n = [] ∧ ∃ d, lookupN q.names n = some d ∧ d.kind = .package) := by
    intro n
    rw [hn, lookupN_append]
    cases hp : lookupN p.names n with
    | some d => exact .inl rfl
    | none =>
      cases hq : lookupN l n with
      | none => exact .inl rfl
      | some d =>
        have := hl' _ (lookupN_mem hq)
        exact .inr ⟨rfl, this.1, d, rfl, this.2.1⟩
  refine ⟨hl.files, hl.enums, hl.services, hl.extensions, hl.messages,
    fun n => by unfold Pool.fileByName; rw [hl.fileNames], fun n => ?_, fun n => ?_, fun n => ?_,
    fun n => ?_, fun n h0 => ?_⟩
  · unfold Pool.messageByName Pool.getByName
    rcases key (stripDot n) with h1 | ⟨h1, _, d, h2, h3⟩
    · rw [h1]
    · rw [h1, h2]; obtain ⟨a, b, c⟩ := d; cases h3; rfl
  · unfold Pool.enumByName Pool.getByName
    rcases key (stripDot n) with h1 | ⟨h1, _, d, h2, h3⟩
    · rw [h1]
    · rw [h1, h2]; obtain ⟨a, b, c⟩ := d; cases h3; rfl
  · unfold Pool.serviceByName Pool.getByName
    rcases key (stripDot n) with h1 | ⟨h1, _, d, h2, h3⟩
    · rw [h1]
    · rw [h1, h2]; obtain ⟨a, b, c⟩ := d; cases h3; rfl
  · unfold Pool.extensionByName Pool.getByName
    rcases key (stripDot n) with h1 | ⟨h1, _, d, h2, h3⟩
    · rw [h1]
    · rw [h1, h2]; obtain ⟨a, b, c⟩ := d; cases h3; rfl
  · rcases key n with h1 | ⟨_, h1, _⟩
    · exact h1
    · exact absurd h1 h0

/-- **C19, the extension lists.** The list of a message keeps, of its former entries, those below
the number of messages in the pool, followed by indices the failed batch would have declared. -/
theorem C19_extensions_partial {env : Env} (hsr : SearchOk env.search) {acc : List FileP} {p q : Pool}
    (h : Hist env acc p) {fs : List FileP} {e : ErrKind} {es : List ErrKind}
    (hb : buildFiles env p fs = .ok ⟨q, e :: es⟩) (k : Nat) (m : MsgD)
    (hm : p.messages[k]? = some m) :
    ∃ m' l, q.messages[k]? = some m' ∧ m'.forget = m.forget ∧
      m'.extensions = m.extensions.filter (fun x => decide (x < p.messages.length)) ++ l ∧
      ∀ x ∈ l, p.extensions.length ≤ x ∧ x < p.messages.length ∧
        declaresExt p.offs (fs.filter fun f => (lookupN p.fileNames f.name).isNone) x := by
  obtain ⟨l, h1, h2⟩ := failed_exts (h.desc hsr).ok hb k m hm
  refine ⟨_, l.filter fun x => decide (x < p.messages.length), h1, rfl, ?_, ?_⟩
  · simp [MsgD.withExts]
  · intro x hx
    simp only [List.mem_filter, decide_eq_true_eq] at hx
    exact ⟨(h2 x hx.1).1, hx.2, (h2 x hx.1).2⟩

/-- **C19 in full** for a pool without more extensions than messages, and a batch that declares
no extension: all descriptors are as before. -/
theorem C19_without_extensions_partial {env : Env} (hsr : SearchOk env.search) {acc : List FileP}
    {p q : Pool} (h : Hist env acc p) {fs : List FileP} {e : ErrKind} {es : List ErrKind}
    (hb : buildFiles env p fs = .ok ⟨q, e :: es⟩)
    (hold : ∀ m ∈ p.messages, ∀ x ∈ m.extensions, x < p.messages.length)
    (hnew : ∀ f ∈ fs, ∀ path s x, ¬ Has f path s (.extension x)) : q.messages = p.messages := by
  apply List.ext_getElem?
  intro k
  cases hk : p.messages[k]? with
  | none =>
    have hl := congrArg List.length (C19_partial hsr h hb).2.2.2.2.1
    simp only [List.length_map] at hl
    rw [List.getElem?_eq_none_iff] at hk ⊢
    omega
  | some m =>
    obtain ⟨m', l, h1, h2, h3, h4⟩ := C19_extensions_partial hsr h hb k m hk
    have hl : l = [] := by
      cases l with
      | nil => rfl
      | cons x l =>
        obtain ⟨_, _, path, full, file, parent, f, he⟩ := h4 x (by simp)
        obtain ⟨j, g, s, _, hg, _, hh⟩ := visited_has he rfl
        exact absurd hh (hnew g (List.mem_filter.mp (List.mem_of_getElem? hg)).1 _ _ _)
    have hf : m.extensions.filter (fun x => decide (x < p.messages.length)) = m.extensions := by
      rw [List.filter_eq_self]
      intro x hx
      exact decide_eq_true (hold m (List.mem_of_getElem? hk) x hx)
    rw [hl, List.append_nil, hf] at h3
    rw [h1]
    obtain ⟨a, b, c, d, e, f, g, i⟩ := m
    obtain ⟨a', b', c', d', e', f', g', i'⟩ := m'
    simp only [MsgD.forget, MsgD.mk.injEq, true_and] at h2
    simp only at h3
    subst h3
    simp [h2]

/-- `package p; message M { extensions 100 to 199; } message N { extensions 100 to 199; }` -/
def fileMN : FileP where
  name := nm "m.proto"
  package := nm "p"
  messages := [{ name := nm "M", extRanges := [(100, 200)] },
    { name := nm "N", extRanges := [(100, 200)] }]

/-- Extends `p.M`, and is rejected because `Missing` is declared nowhere. -/
def fileBadExt : FileP where
  name := nm "x.proto"
  package := nm "q"
  deps := [nm "m.proto"]
  messages := [{
    name := nm "D"
    fields := [{ name := nm "m", number := 1, ty := .message, typeName := nm "Missing" }] }]
  exts := [{ name := nm "e", number := 100, ty := .string, extendee := some (nm "p.M") }]

/-- Extends `p.N`. -/
def fileExtN : FileP where
  name := nm "y.proto"
  package := nm "r"
  deps := [nm "m.proto"]
  exts := [{ name := nm "e", number := 107, ty := .string, extendee := some (nm "p.N") }]

/-- `package p; message M { extensions 100 to 199; } extend M { a = 100; b = 101; }` -/
def fileTwoExts : FileP where
  name := nm "m.proto"
  package := nm "p"
  messages := [{ name := nm "M", extRanges := [(100, 200)] }]
  exts := [{ name := nm "a", number := 100, ty := .string, extendee := some (nm "M") },
    { name := nm "b", number := 101, ty := .string, extendee := some (nm "M") }]

/-- A failing addition satisfying the hypotheses of the partial theorems, including those about
extensions. -/
example : ∃ acc p, Hist env0 acc p ∧ (match buildFiles env0 p [{ fileBadExt with exts := [] }] with
    | .ok ⟨_, _ :: _⟩ => p.messages.all fun m => m.extensions.all fun x => x < p.messages.length
    | _ => false) = true :=
  run_ex [[fileA], [fileMN]] _ (by decide +kernel)

/-- **C19 is false: new extensions.** A rejected file leaves a dangling entry in the extension list
of a message of the pool: asking that message for the extension returned `None` before, and
panics afterwards. -/
theorem C19_false_dangling : ∃ acc p q e es, Hist env0 acc p ∧
    buildFiles env0 p [fileBadExt] = .ok ⟨q, e :: es⟩ ∧
    p.extension? 0 100 = .ok none ∧ q.extension? 0 100 = .error .index := by
  obtain ⟨acc, p, hH, hc⟩ := run_ex [[fileMN]] (fun _ p =>
    match buildFiles env0 p [fileBadExt] with
    | .ok ⟨q, _ :: _⟩ => (match p.extension? 0 100, q.extension? 0 100 with
      | .ok none, .error .index => true
      | _, _ => false)
    | _ => false) (by decide +kernel)
  split at hc
  · next q e es hb =>
    split at hc
    · next h1 h2 => exact ⟨acc, p, q, e, es, hH, hb, h1, h2⟩
    · cases hc
  · cases hc

/-- **C19 is false: the damage spreads.** When another file is then accepted, the message
`p.M` reports an extension that extends `p.N`. -/
theorem C19_false_alias : ∃ acc p, Hist env0 acc p ∧ ∃ d, p.messageByName (nm "p.M") = some 0 ∧
    p.extension? 0 107 = .ok (some 0) ∧ p.extensions[0]? = some d ∧ d.extendee = 1 := by
  obtain ⟨acc, p, hH, hc⟩ := run_ex [[fileMN], [fileBadExt], [fileExtN]] (fun _ p =>
    match p.extension? 0 107, p.extensions with
    | .ok (some 0), [d] => d.extendee == 1 && p.messageByName (nm "p.M") == some 0
    | _, _ => false) (by decide +kernel)
  split at hc
  · next d h1 h2 =>
    simp only [Bool.and_eq_true, beq_iff_eq] at hc
    exact ⟨acc, p, hH, d, hc.2, h1, by rw [h2]; rfl, hc.1⟩
  · cases hc

/-- **C19 is false: old extensions.** A rejected file can make the pool forget a valid extension
of a message: the look-up succeeded before and returns `None` afterwards. -/
theorem C19_false_forgotten : ∃ acc p q e es, Hist env0 acc p ∧
    buildFiles env0 p [fileBadExt] = .ok ⟨q, e :: es⟩ ∧
    p.extension? 0 101 = .ok (some 1) ∧ q.extension? 0 101 = .ok none := by
  obtain ⟨acc, p, hH, hc⟩ := run_ex [[fileTwoExts]] (fun _ p =>
    match buildFiles env0 p [fileBadExt] with
    | .ok ⟨q, _ :: _⟩ => (match p.extension? 0 101, q.extension? 0 101 with
      | .ok (some 1), .ok none => true
      | _, _ => false)
    | _ => false) (by decide +kernel)
  split at hc
  · next q e es hb =>
    split at hc
    · next h1 h2 => exact ⟨acc, p, q, e, es, hH, hb, h1, h2⟩
    · cases hc
  · cases hc

/-! ### C20 -/

/-- **C20.** A successful addition keeps every earlier file, enum, service, extension and message
at its index with its contents; earlier names resolve as before; and whatever is found under a
name that was unknown before is new.  A message may gain extensions, exactly the new ones that
extend it, after the old ones. -/
theorem C20_extends {env : Env} (hsr : SearchOk env.search) {acc : List FileP} {p q : Pool}
    (h : Hist env acc p) {fs : List FileP} (hb : buildFiles env p fs = .ok ⟨q, []⟩) :
    p.files <+: q.files ∧ p.enums <+: q.enums ∧ p.services <+: q.services ∧
    p.extensions <+: q.extensions ∧
    (∀ (k : Nat) m, p.messages[k]? = some m → ∃ m' l, q.messages[k]? = some m' ∧
      m'.forget = m.forget ∧ m'.extensions = m.extensions ++ l ∧ l.Pairwise (· < ·) ∧
      ∀ x, x ∈ l ↔ p.extensions.length ≤ x ∧ ∃ d, q.extensions[x]? = some d ∧ d.extendee = k) ∧
    (∀ n i, p.fileByName n = some i → q.fileByName n = some i) ∧
    (∀ n d, p.getByName n = some d → q.getByName n = some d) ∧
    (∀ n k, p.messageByName n = none → q.messageByName n = some k → p.messages.length ≤ k) ∧
    (∀ n k, p.enumByName n = none → q.enumByName n = some k → p.enums.length ≤ k) ∧
    (∀ n k, p.serviceByName n = none → q.serviceByName n = some k → p.services.length ≤ k) ∧
    (∀ n k, p.extensionByName n = none → q.extensionByName n = some k →
      p.extensions.length ≤ k) := by
  have hD := h.desc hsr
  have hH' := Hist.accept acc p fs q h hb
  have fr : Frame p q ∧ ∀ (k : Nat) m m', p.messages[k]? = some m → q.messages[k]? = some m' →
      ExtList q p.extensions.length k m.extensions m'.extensions := by
    rcases buildFiles_accept hsr hD.ok hb with ⟨_, rfl⟩ | ha
    · refine ⟨Frame.refl _, ?_⟩
      intro k m m' h1 h2
      rw [h1] at h2; cases h2
      refine ⟨[], by simp, by simp, ?_⟩
      intro e
      simp only [List.not_mem_nil, false_iff, not_and, not_exists]
      intro hle d hd
      have := getElem?_lt hd
      omega
    · exact ⟨ha.frame, ha.exts⟩
  obtain ⟨fr, hx⟩ := fr
  have keeps := fr.keeps
  refine ⟨fr.files, fr.enums, fr.services, fr.extensions, ?_, fun n i hn => keeps.fileNames n i hn,
    fun n d hd => keeps.names _ _ hd, ?_, ?_, ?_, ?_⟩
  · intro k m hm
    obtain ⟨m', h1, h2⟩ := keeps.messages k m hm
    obtain ⟨l, g1, g2, g3⟩ := hx k m m' hm h1
    exact ⟨m', l, h1, h2, g1, g2, g3⟩
  · intro n k h0 h1
    obtain ⟨d, h2, h3⟩ := (C18_message hsr hH' n k).1 h1
    refine Nat.le_of_not_lt fun hlt => ?_
    obtain ⟨d', h4, h5⟩ := keeps.messages k _ (List.getElem?_eq_getElem hlt)
    rw [h2] at h4; cases h4
    have h6 : d.id = (p.messages[k]).id := by
      have h7 := congrArg MsgD.id h5
      exact h7
    rw [(C18_message hsr h n k).2 ⟨_, List.getElem?_eq_getElem hlt, by rw [← h6]; exact h3⟩] at h0
    cases h0
  · intro n k h0 h1
    obtain ⟨d, h2, h3⟩ := (C18_enum hsr hH' n k).1 h1
    refine Nat.le_of_not_lt fun hlt => ?_
    have h4 := keeps.enums k _ (List.getElem?_eq_getElem hlt)
    rw [h2] at h4; cases h4
    rw [(C18_enum hsr h n k).2 ⟨_, List.getElem?_eq_getElem hlt, h3⟩] at h0
    cases h0
  · intro n k h0 h1
    obtain ⟨d, h2, h3⟩ := (C18_service hsr hH' n k).1 h1
    refine Nat.le_of_not_lt fun hlt => ?_
    have h4 := keeps.services k _ (List.getElem?_eq_getElem hlt)
    rw [h2] at h4; cases h4
    rw [(C18_service hsr h n k).2 ⟨_, List.getElem?_eq_getElem hlt, h3⟩] at h0
    cases h0
  · intro n k h0 h1
    obtain ⟨d, h2, h3⟩ := (C18_extension hsr hH' n k).1 h1
    refine Nat.le_of_not_lt fun hlt => ?_
    have h4 := keeps.extensions k _ (List.getElem?_eq_getElem hlt)
    rw [h2] at h4; cases h4
    rw [(C18_extension hsr h n k).2 ⟨_, List.getElem?_eq_getElem hlt, h3⟩] at h0
    cases h0

/-- A message of the pool gains an extension, and a new message appears. -/
example : ∃ acc p, Hist env0 acc p ∧ (match buildFiles env0 p [fileExtN, fileA] with
    | .ok ⟨q, []⟩ => p.messages.length == 2 && q.messages.length == 4 &&
        (q.messages.map (·.extensions)) == [[], [0], [1], []] &&
        q.messageByName (nm "a.b.M") == some 2
    | _ => false) = true :=
  run_ex [[fileMN]] _ (by decide +kernel)

/-! ### C21 -/

/-- **C21.** A batch behaves as the batch without the files whose names the pool already knows. -/
theorem C21_known_files_ignored (env : Env) (p : Pool) (fs : List FileP) :
    buildFiles env p fs = buildFiles env p (fs.filter fun f => (p.fileByName f.name).isNone) := by
  unfold buildFiles Pool.fileByName
  simp only [List.filter_filter, Bool.and_self]

/-- **C21.** Adding only known names succeeds and returns the very same pool. -/
theorem C21_noop (env : Env) (p : Pool) (fs : List FileP)
    (h : ∀ f ∈ fs, ∃ i, p.fileByName f.name = some i) : buildFiles env p fs = .ok ⟨p, []⟩ := by
  have : (fs.filter fun f => (lookupN p.fileNames f.name).isNone) = [] := by
    rw [List.filter_eq_nil_iff]
    intro f hf
    obtain ⟨i, hi⟩ := h f hf
    rw [show lookupN p.fileNames f.name = some i from hi]; simp
  unfold buildFiles
  simp only [this, if_true]

/-- **C21.** After a successful addition, adding the same batch once more (or any part of it, in
any order) changes nothing. -/
theorem C21_again {env : Env} (hsr : SearchOk env.search) {acc : List FileP} {p q : Pool}
    (h : Hist env acc p) {fs gs : List FileP} (hb : buildFiles env p fs = .ok ⟨q, []⟩)
    (hg : ∀ g ∈ gs, g ∈ fs) : buildFiles env q gs = .ok ⟨q, []⟩ := by
  refine C21_noop env q gs fun g hg' => ?_
  have hH' := Hist.accept acc p fs q h hb
  cases hl : p.fileByName g.name with
  | some i => exact ⟨i, (C20_extends hsr h hb).2.2.2.2.2.1 _ _ hl⟩
  | none =>
    have hm : g ∈ acc ++ fs.filter fun f => (lookupN p.fileNames f.name).isNone :=
      List.mem_append_right _ (List.mem_filter.mpr ⟨hg g hg', by
        rw [show lookupN p.fileNames g.name = none from hl]; rfl⟩)
    obtain ⟨i, hi⟩ := List.getElem?_of_mem hm
    exact ⟨i, (C18_file hsr hH' g.name i).2 ⟨g, hi, rfl⟩⟩

/-- **C21.** Two new files of the same name in one batch are an error (if the call returns). -/
theorem C21_twice_in_batch {env : Env} (hsr : SearchOk env.search) {acc : List FileP} {p : Pool}
    (h : Hist env acc p) {fs : List FileP} {b : Built} (hb : buildFiles env p fs = .ok b)
    {i j : Nat} {f g : FileP} (hf : fs[i]? = some f) (hg : fs[j]? = some g) (hij : i ≠ j)
    (hn : f.name = g.name) (hnew : p.fileByName f.name = none) : b.errors ≠ [] := by
  intro he
  obtain ⟨q, es⟩ := b
  simp only at he
  subst he
  have hH' := Hist.accept acc p fs q h hb
  have key : ∀ n, ((acc ++ fs.filter fun f => (lookupN p.fileNames f.name).isNone).filter
      fun f => f.name = n).length ≤ 1 := by
    intro n
    refine Nat.le_of_not_lt fun hlt => ?_
    obtain ⟨a, b, ia, ib, h1, h2, h3, h4, h5⟩ := two_of_filter hlt
    have e1 := (C18_file hsr hH' n ia).2 ⟨a, h1, by simpa using h3⟩
    have e2 := (C18_file hsr hH' n ib).2 ⟨b, h2, by simpa using h4⟩
    rw [e1] at e2
    exact h5 (Option.some.inj e2)
  have h2 := key f.name
  rw [List.filter_append, List.length_append, List.filter_filter] at h2
  have h3 := two_in_filter (c := fun x => decide (x.name = f.name) && (lookupN p.fileNames x.name).isNone)
    hf hg hij (by
      rw [show lookupN p.fileNames f.name = none from hnew]; simp) (by
      rw [← hn, show lookupN p.fileNames f.name = none from hnew]; simp)
  omega

/-- Adding a batch twice, and a batch with a file twice. -/
example : ∃ acc p, Hist env0 acc p ∧ (match buildFiles env0 p [fileB, fileA],
      buildFiles env0 p [fileA, { fileB with name := fileA.name }] with
    | .ok ⟨q, []⟩, .ok ⟨_, .duplicateFileName _ :: _⟩ => (match buildFiles env0 q [fileA, fileA] with
      | .ok ⟨_, []⟩ => true
      | _ => false)
    | _, _ => false) = true :=
  run_ex [[fileMN]] _ (by decide +kernel)

/-! ### C47 -/

section
variable {env : Env} (hsr : SearchOk env.search) {acc : List FileP} {p : Pool}
include hsr

/-- **C47, messages.** The path of a message descriptor leads, in the file it belongs to, to a message
declaration with its full name, and `descriptor_proto` returns the pool's copy of it. -/
theorem C47_message (h : Hist env acc p) {k : Nat} {md : MsgD} (hk : p.messages[k]? = some md) :
    ∃ x y, Stands acc p md.id (.message x) (.message y) ∧ p.messageProto k = .ok y :=
  (h.desc hsr).message_stands hk

/-- **C47, fields.** -/
theorem C47_field (h : Hist env acc p) {k i : Nat} {md : MsgD} {d : FieldD}
    (hk : p.messages[k]? = some md) (hi : md.fields[i]? = some d) :
    ∃ x y, Stands acc p d.id (.field x) (.field y) ∧ d.id.file = md.id.file ∧
      d.id.path = md.id.path ++ [2, i] ∧ p.fieldProto k i = .ok y :=
  (h.desc hsr).field_stands hk hi

/-- **C47, oneofs.** -/
theorem C47_oneof (h : Hist env acc p) {k i : Nat} {md : MsgD} {d : OneofD}
    (hk : p.messages[k]? = some md) (hi : md.oneofs[i]? = some d) :
    ∃ x, Stands acc p d.id (.oneof x) (.oneof x) ∧ d.id.file = md.id.file ∧
      d.id.path = md.id.path ++ [8, i] ∧ p.oneofProto k i = .ok x :=
  (h.desc hsr).oneof_stands hk hi

/-- **C47, enums.** -/
theorem C47_enum (h : Hist env acc p) {k : Nat} {ed : EnumD} (hk : p.enums[k]? = some ed) :
    ∃ x, Stands acc p ed.id (.enum x) (.enum x) ∧ p.enumProto k = .ok x :=
  (h.desc hsr).enum_stands hk

/-- **C47, enum values.** -/
theorem C47_value (h : Hist env acc p) {k i : Nat} {ed : EnumD} {d : ValueD}
    (hk : p.enums[k]? = some ed) (hi : ed.values[i]? = some d) :
    ∃ x, Stands acc p d.id (.value x) (.value x) ∧ d.id.file = ed.id.file ∧
      d.id.path = ed.id.path ++ [2, i] ∧ p.valueProto k i = .ok x ∧ d.number = x.number :=
  (h.desc hsr).value_stands hk hi

/-- **C47, services.** -/
theorem C47_service (h : Hist env acc p) {k : Nat} {sd : SvcD} (hk : p.services[k]? = some sd) :
    ∃ x y, Stands acc p sd.id (.service x) (.service y) ∧ p.serviceProto k = .ok y :=
  (h.desc hsr).service_stands hk

/-- **C47, methods.** -/
theorem C47_method (h : Hist env acc p) {k i : Nat} {sd : SvcD} {d : MethodD}
    (hk : p.services[k]? = some sd) (hi : sd.methods[i]? = some d) :
    ∃ x y, Stands acc p d.id (.method x) (.method y) ∧ d.id.file = sd.id.file ∧
      d.id.path = sd.id.path ++ [2, i] ∧ p.methodProto k i = .ok y :=
  (h.desc hsr).method_stands hk hi

/-- **C47, extensions.** -/
theorem C47_extension (h : Hist env acc p) {k : Nat} {d : ExtD} (hk : p.extensions[k]? = some d) :
    ∃ x y, Stands acc p d.id (.extension x) (.extension y) ∧ p.extensionProto k = .ok y :=
  (h.desc hsr).extension_stands hk

/-- **C47, the converse.** Descriptors are told apart by their paths: two messages of one file with
the same path are the same message. -/
theorem C47_message_unique (h : Hist env acc p) {k k' : Nat} {d d' : MsgD}
    (hk : p.messages[k]? = some d) (hk' : p.messages[k']? = some d')
    (hf : d.id.file = d'.id.file) (hp : d.id.path = d'.id.path) : k = k' := by
  obtain ⟨x, y, ⟨f, fd, s, h1, h2, h3, h4, h5, h6, h7⟩, _⟩ := (h.desc hsr).message_stands hk
  obtain ⟨x', y', ⟨f', fd', s', g1, g2, g3, g4, g5, g6, g7⟩, _⟩ := (h.desc hsr).message_stands hk'
  rw [hf, g1] at h1; cases h1
  rw [hp] at h3
  have hs : s = s' := h3.scope_eq g3
  have hx : (Item.message x) = .message x' := h3.found.unique g3.found rfl
  have hn : d.id.fullName = d'.id.fullName := by rw [h6, g6, hs, hx]
  have e1 := (C18_message hsr h ('.' :: d.id.fullName) k).2 ⟨d, hk, rfl⟩
  have e2 := (C18_message hsr h ('.' :: d.id.fullName) k').2 ⟨d', hk', hn.symm⟩
  rw [e1] at e2
  exact Option.some.inj e2

end

/-- Nested declarations and their paths. -/
example : ∃ acc p, Hist env0 acc p ∧ (p.messages.map (·.id.path) == [[4, 0], [4, 0, 3, 0], [4, 0]] &&
    p.messages.map (·.id.file) == [0, 0, 1] && p.enums.map (·.id.path) == [[4, 0, 4, 0]] &&
    (match p.fieldProto 0 3 with
      | .ok f => f.name == nm "e" && f.typeName == nm ".a.b.M.E"
      | _ => false)) = true :=
  run_ex [[fileA], [fileBadExt, fileB], [fileB]] _ (by decide +kernel)

end Verif.Props
