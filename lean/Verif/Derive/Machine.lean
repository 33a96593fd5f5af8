import Verif.Pool.GlobalRun
import Verif.Pool.Query
/-!
`descriptor()` of types that derive `ReflectMessage` with `file_descriptor_set_bytes`
(prost-reflect-derive/src/lib.rs:43-52, 108-119):

    static INIT: Once = Once::new();
    INIT.call_once(|| DescriptorPool::decode_global_file_descriptor_set(BYTES).unwrap());
    DescriptorPool::global().get_message_by_name(NAME).expect(..)

Each such type has an `INIT` of its own.  The steps of this function are interleaved with those of the
global pool (`Pool/Global`), which other threads may use directly.  `Once` follows its documentation: one
thread runs the closure while others wait, and a closure that panics poisons it, so that every later
`call_once` panics.
-/
set_option autoImplicit false
namespace Verif.Derive
open Verif.Wire Verif.Dyn Verif.Pool
open Verif.Pool.Global (World Call Resp)

/-- What is known of a type: `message_name` and `file_descriptor_set_bytes`. -/
structure Ty where
  name : Name
  bytes : Bytes

/-- A `Once`. -/
inductive Init where
  | new
  | running (t : Nat)
  | complete
  | poisoned

/-- What `descriptor()` gives its caller. -/
inductive Out where
  /-- a message descriptor: a pool and an index -/
  | descr (p : Pool) (i : Nat)
  | panic

/-- Where a thread is in `descriptor()` of type `k`. -/
inductive Pc where
  | idle
  /-- in a call on the global pool that it made itself -/
  | direct
  /-- about to look at `INIT` -/
  | entered (k : Nat)
  /-- in the closure, about to add the files -/
  | starting (k : Nat)
  /-- in the closure, adding the files -/
  | loading (k : Nat)
  /-- past `call_once` -/
  | loaded (k : Nat)
  /-- asking for the global pool -/
  | getting (k : Nat)
  /-- about to return -/
  | leaving (k : Nat) (o : Out)

structure St where
  g : Global.St
  init : Nat → Init
  pc : Nat → Pc

/-- What can be seen. -/
inductive Ev where
  | glob (e : Global.Ev)
  /-- the closure begins: the call that adds the files -/
  | load (t k : Nat)
  | enter (t k : Nat)
  | leave (t k : Nat) (o : Out)

/-- The calls on the global pool and their answers. -/
def Ev.global (T : Nat → Ty) : Ev → Option Global.Ev
  | .glob e => some e
  | .load t k => some (.call t (.decode (T k).bytes))
  | .enter _ _ => none
  | .leave _ _ _ => none

/-- Thread `t` goes on at `x`. -/
def St.at (s : St) (t : Nat) (x : Pc) : St := { s with pc := fun i => if i = t then x else s.pc i }

/-- `INIT` of type `k` changes. -/
def St.set (s : St) (k : Nat) (x : Init) : St := { s with init := fun i => if i = k then x else s.init i }

/-- `get_message_by_name(NAME).expect(..)` (derive/src/lib.rs:46-48) -/
def lookup (p : Pool) (n : Name) : Out :=
  match p.messageByName n with
  | some i => .descr p i
  | none => .panic

/-- One step of a thread. -/
inductive Step (W : World) (T : Nat → Ty) : St → Option Ev → St → Prop where
  /-- inside a call on the global pool -/
  | quiet (s : St) (g : Global.St) : Global.Step W s.g none g → Step W T s none { s with g := g }
  /-- a thread uses the global pool itself -/
  | call (s : St) (t : Nat) (c : Call) (g : Global.St) : s.pc t = .idle → Global.Step W s.g (some (.call t c)) g →
      Step W T s (some (.glob (.call t c))) ({ s with g := g }.at t .direct)
  | back (s : St) (t : Nat) (r : Resp) (g : Global.St) : s.pc t = .direct → Global.Step W s.g (some (.ret t r)) g →
      Step W T s (some (.glob (.ret t r))) ({ s with g := g }.at t .idle)
  /-- `descriptor()` is called -/
  | enter (s : St) (t k : Nat) : s.g.dead = false → s.pc t = .idle →
      Step W T s (some (.enter t k)) (s.at t (.entered k))
  /-- `call_once`: it has been done -/
  | fast (s : St) (t k : Nat) : s.g.dead = false → s.pc t = .entered k → s.init k = .complete →
      Step W T s none (s.at t (.loaded k))
  /-- `call_once`: this thread runs the closure; others that come now wait -/
  | claim (s : St) (t k : Nat) : s.g.dead = false → s.pc t = .entered k → s.init k = .new →
      Step W T s none ((s.set k (.running t)).at t (.starting k))
  /-- `call_once` panics: the closure panicked before -/
  | spoilt (s : St) (t k : Nat) : s.g.dead = false → s.pc t = .entered k → s.init k = .poisoned →
      Step W T s none (s.at t (.leaving k .panic))
  /-- the closure calls `decode_global_file_descriptor_set` -/
  | load (s : St) (t k : Nat) (g : Global.St) : s.pc t = .starting k →
      Global.Step W s.g (some (.call t (.decode (T k).bytes))) g →
      Step W T s (some (.load t k)) ({ s with g := g }.at t (.loading k))
  /-- the files were added -/
  | ok (s : St) (t k : Nat) (g : Global.St) : s.pc t = .loading k → Global.Step W s.g (some (.ret t (.done []))) g →
      Step W T s (some (.glob (.ret t (.done [])))) (({ s with g := g }.set k .complete).at t (.loaded k))
  /-- they were not, and `unwrap` panics, or the call itself panicked -/
  | bad (s : St) (t k : Nat) (r : Resp) (g : Global.St) : s.pc t = .loading k → r ≠ .done [] →
      Global.Step W s.g (some (.ret t r)) g →
      Step W T s (some (.glob (.ret t r))) (({ s with g := g }.set k .poisoned).at t (.leaving k .panic))
  /-- `DescriptorPool::global()` -/
  | get (s : St) (t k : Nat) (g : Global.St) : s.pc t = .loaded k → Global.Step W s.g (some (.call t .get)) g →
      Step W T s (some (.glob (.call t .get))) ({ s with g := g }.at t (.getting k))
  /-- the message is looked up -/
  | found (s : St) (t k : Nat) (p : Pool) (g : Global.St) : s.pc t = .getting k →
      Global.Step W s.g (some (.ret t (.pool p))) g →
      Step W T s (some (.glob (.ret t (.pool p)))) ({ s with g := g }.at t (.leaving k (lookup p (T k).name)))
  /-- `global()` panicked -/
  | lost (s : St) (t k : Nat) (r : Resp) (g : Global.St) : s.pc t = .getting k → (∀ p, r ≠ .pool p) →
      Global.Step W s.g (some (.ret t r)) g →
      Step W T s (some (.glob (.ret t r))) ({ s with g := g }.at t (.leaving k .panic))
  /-- `descriptor()` is over -/
  | leave (s : St) (t k : Nat) (o : Out) : s.g.dead = false → s.pc t = .leaving k o →
      Step W T s (some (.leave t k o)) (s.at t .idle)

/-- When the program starts. -/
def start (p : Pool) : St := ⟨Global.start p, fun _ => .new, fun _ => .idle⟩

/-- Any number of steps, and what can be seen of them. -/
inductive Steps (W : World) (T : Nat → Ty) : St → List Ev → St → Prop where
  | nil (s : St) : Steps W T s [] s
  | quiet {s s1 s' : St} {es : List Ev} : Steps W T s es s1 → Step W T s1 none s' → Steps W T s es s'
  | seen {s s1 s' : St} {es : List Ev} {e : Ev} : Steps W T s es s1 → Step W T s1 (some e) s' →
      Steps W T s (es ++ [e]) s'

variable {W : World} {T : Nat → Ty}

/-- The calls on the global pool are a run of the global pool. -/
theorem Steps.global {p : Pool} {es : List Ev} {s : St} (h : Steps W T (start p) es s) :
    Global.Steps W (Global.start p) (es.filterMap (Ev.global T)) s.g := by
  induction h with
  | nil => exact .nil _
  | quiet _ h1 ih =>
    cases h1 with
    | quiet g h => exact .quiet ih h
    | fast => exact ih
    | claim => exact ih
    | spoilt => exact ih
  | seen _ h1 ih =>
    rw [List.filterMap_append]
    cases h1 with
    | call t c g _ h => exact .seen ih h
    | back t r g _ h => exact .seen ih h
    | load t k g _ h => exact .seen ih h
    | ok t k g _ h => exact .seen ih h
    | bad t k r g _ _ h => exact .seen ih h
    | get t k g _ h => exact .seen ih h
    | found t k p g _ h => exact .seen ih h
    | lost t k r g _ _ h => exact .seen ih h
    | enter => exact (List.append_nil _).symm ▸ ih
    | leave => exact (List.append_nil _).symm ▸ ih

/-! ### What the trace says about where threads are -/

/-- Somebody added the files, and was told so. -/
def Loaded (b : Bytes) (G : List Global.Ev) : Prop :=
  ∃ a t m d, G = a ++ .call t (.decode b) :: (m ++ .ret t (.done []) :: d) ∧ ∀ v ∈ m, v.thread ≠ t

/-- Thread `t` is adding the files. -/
def Loading (b : Bytes) (t : Nat) (G : List Global.Ev) : Prop :=
  ∃ a m, G = a ++ .call t (.decode b) :: m ∧ ∀ v ∈ m, v.thread ≠ t

/-- Thread `t` asks for the pool after the files were added. -/
def Getting (b : Bytes) (t : Nat) (G : List Global.Ev) : Prop :=
  ∃ a t0 m d e, G = a ++ .call t0 (.decode b) :: (m ++ .ret t0 (.done []) :: (d ++ .call t .get :: e)) ∧
    (∀ v ∈ m, v.thread ≠ t0) ∧ ∀ v ∈ e, v.thread ≠ t

/-- The pool `p` was handed out after the files were added. -/
def Got (b : Bytes) (p : Pool) (G : List Global.Ev) : Prop :=
  ∃ a t0 m d t e f, G = a ++ .call t0 (.decode b) :: (m ++ .ret t0 (.done []) :: (d ++ .call t .get :: (e ++ .ret t (.pool p) :: f))) ∧
    (∀ v ∈ m, v.thread ≠ t0) ∧ ∀ v ∈ e, v.thread ≠ t

/-- Somebody tried to add the files, and was told that this failed. -/
def Failed (b : Bytes) (G : List Global.Ev) : Prop :=
  ∃ a t m r d, G = a ++ .call t (.decode b) :: (m ++ .ret t r :: d) ∧ (∀ v ∈ m, v.thread ≠ t) ∧ r ≠ .done []

theorem Failed.more {b : Bytes} {G : List Global.Ev} (h : Failed b G) (l : List Global.Ev) : Failed b (G ++ l) := by
  obtain ⟨a, t, m, r, d, rfl, hm⟩ := h
  exact ⟨a, t, m, r, d ++ l, by simp, hm⟩

theorem Loaded.more {b : Bytes} {G : List Global.Ev} (h : Loaded b G) (l : List Global.Ev) : Loaded b (G ++ l) := by
  obtain ⟨a, t, m, d, rfl, hm⟩ := h
  exact ⟨a, t, m, d ++ l, by simp, hm⟩

theorem Got.more {b : Bytes} {p : Pool} {G : List Global.Ev} (h : Got b p G) (l : List Global.Ev) : Got b p (G ++ l) := by
  obtain ⟨a, t0, m, d, t, e, f, rfl, hm, he⟩ := h
  exact ⟨a, t0, m, d, t, e, f ++ l, by simp, hm, he⟩

theorem Loading.more {b : Bytes} {t : Nat} {G : List Global.Ev} (h : Loading b t G) {l : List Global.Ev}
    (hl : ∀ v ∈ l, v.thread ≠ t) : Loading b t (G ++ l) := by
  obtain ⟨a, m, rfl, hm⟩ := h
  refine ⟨a, m ++ l, by simp, fun v hv => ?_⟩
  rcases List.mem_append.mp hv with hv | hv
  · exact hm v hv
  · exact hl v hv

theorem Getting.more {b : Bytes} {t : Nat} {G : List Global.Ev} (h : Getting b t G) {l : List Global.Ev}
    (hl : ∀ v ∈ l, v.thread ≠ t) : Getting b t (G ++ l) := by
  obtain ⟨a, t0, m, d, e, rfl, hm, he⟩ := h
  refine ⟨a, t0, m, d, e ++ l, by simp, hm, fun v hv => ?_⟩
  rcases List.mem_append.mp hv with hv | hv
  · exact he v hv
  · exact hl v hv

theorem Loading.done {b : Bytes} {t : Nat} {G : List Global.Ev} (h : Loading b t G) :
    Loaded b (G ++ [.ret t (.done [])]) := by
  obtain ⟨a, m, rfl, hm⟩ := h
  exact ⟨a, t, m, [], by simp, hm⟩

theorem Loading.fail {b : Bytes} {t : Nat} {G : List Global.Ev} (h : Loading b t G) {r : Resp} (hr : r ≠ .done []) :
    Failed b (G ++ [.ret t r]) := by
  obtain ⟨a, m, rfl, hm⟩ := h
  exact ⟨a, t, m, r, [], by simp, hm, hr⟩

theorem Loaded.get {b : Bytes} {t : Nat} {G : List Global.Ev} (h : Loaded b G) :
    Getting b t (G ++ [.call t .get]) := by
  obtain ⟨a, t0, m, d, rfl, hm⟩ := h
  exact ⟨a, t0, m, d, [], by simp, hm, nofun⟩

theorem Getting.got {b : Bytes} {t : Nat} {p : Pool} {G : List Global.Ev} (h : Getting b t G) :
    Got b p (G ++ [.ret t (.pool p)]) := by
  obtain ⟨a, t0, m, d, e, rfl, hm, he⟩ := h
  exact ⟨a, t0, m, d, t, e, [], by simp, hm, he⟩

/-- An answer of `descriptor()` that the trace accounts for: the message was looked up in a pool that was
asked for after the files had been added; or the files could not be added; or a call on the global pool
panicked. -/
def Sound (T : Nat → Ty) (G : List Global.Ev) (k : Nat) : Out → Prop
  | .descr p i => Got (T k).bytes p G ∧ p.messageByName (T k).name = some i
  | .panic => (∃ p, Got (T k).bytes p G ∧ p.messageByName (T k).name = none) ∨
      Failed (T k).bytes G ∨ ∃ t, .ret t .panic ∈ G

theorem Sound.more {G : List Global.Ev} {k : Nat} {o : Out} (h : Sound T G k o) (l : List Global.Ev) :
    Sound T (G ++ l) k o := by
  cases o with
  | descr p i => exact ⟨h.1.more l, h.2⟩
  | panic =>
    rcases h with ⟨p, h1, h2⟩ | h1 | ⟨t, h1⟩
    · exact .inl ⟨p, h1.more l, h2⟩
    · exact .inr (.inl (h1.more l))
    · exact .inr (.inr ⟨t, List.mem_append_left _ h1⟩)

/-- Where a thread is and what the trace says. -/
def PcOk (T : Nat → Ty) (G : List Global.Ev) (t : Nat) (ini : Nat → Init) (inner : Global.Pc) : Pc → Prop
  | .idle => inner = .idle
  | .direct => inner ≠ .idle
  | .entered _ => inner = .idle
  | .starting k => inner = .idle ∧ ini k = .running t
  | .loading k => inner ≠ .idle ∧ Loading (T k).bytes t G ∧ ini k = .running t
  | .loaded k => inner = .idle ∧ Loaded (T k).bytes G
  | .getting k => inner ≠ .idle ∧ Getting (T k).bytes t G
  | .leaving k o => inner = .idle ∧ Sound T G k o

/-- The thread runs the closure of `k`. -/
def Pc.runs (k : Nat) : Pc → Prop
  | .starting k' => k' = k
  | .loading k' => k' = k
  | _ => False

/-- What holds in every state. -/
structure Inv (T : Nat → Ty) (G : List Global.Ev) (s : St) : Prop where
  pc : ∀ t, PcOk T G t s.init (s.g.pc t) (s.pc t)
  run : ∀ k t, s.init k = .running t → (s.pc t).runs k
  full : ∀ k, s.init k = .complete → Loaded (T k).bytes G
  bad : ∀ k, s.init k = .poisoned → Failed (T k).bytes G

end Verif.Derive
