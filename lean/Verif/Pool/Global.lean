import Verif.Pool.Build
/-!
The global pool: a `OnceLock<Mutex<DescriptorPool>>` that any number of threads use at the same time
(prost-reflect/src/descriptor/global.rs).

A call is a sequence of small steps, and the steps of different threads may be interleaved in any way.
While a thread is adding files it changes the pool step by step, so between these steps the pool may
hold anything.  `Mutex` and `OnceLock` follow their documentation: one owner at a time, a guard that is
dropped while its thread panics poisons the mutex, one initialisation that others wait for.

Left out: calling back into the global pool from inside `decode_global_file_descriptor_set`, which a
`Buf` written by the caller could do and which would wait for its own thread; a `Buf` that panics; calls
made while the thread is already panicking, whose guards do not poison.
-/
set_option autoImplicit false
namespace Verif.Pool.Global
open Verif.Wire Verif.Pool

/-- The functions of global.rs:17-50. -/
inductive Call where
  /-- `DescriptorPool::global` -/
  | get
  /-- `add_global_file_descriptor_proto` -/
  | add (f : FileP)
  /-- `decode_global_file_descriptor_set` -/
  | decode (bytes : Bytes)

/-- What a call gives its caller. -/
inductive Resp where
  /-- a copy of the pool -/
  | pool (p : Pool)
  /-- `Ok(())` if there are no errors, else `Err` -/
  | done (errs : List ErrKind)
  /-- the bytes are no file descriptor set -/
  | invalid
  | panic

/-- How the work under the lock ends. -/
inductive Ends where
  /-- normally, leaving a pool -/
  | ret (p : Pool) (r : Resp)
  | panic
  /-- a stack overflow ends the process -/
  | abort

/-- What the environment supplies besides `Env`. -/
structure World where
  env : Env
  /-- `types::FileDescriptorSet::decode` -/
  fds : Bytes → Option (List FileP)
  /-- what `make_wkt_descriptor_pool` returns (reflect/wkt.rs:5472-5477) -/
  first : Pool

/-- `build_files` through a guard (build/mod.rs:104-121). -/
def build (W : World) (p : Pool) (fs : List FileP) : Ends :=
  match buildFiles W.env p fs with
  | .ok b => .ret b.pool (.done b.errors)
  | .error .stack => .abort
  | .error _ => .panic

/-- The work a call does under the lock: `clone` (global.rs:26), `decode_file_descriptor_set`
(api.rs:310-319) and `add_file_descriptor_proto` (api.rs:262-267). -/
def exec (W : World) (p : Pool) : Call → Ends
  | .get => .ret p (.pool p)
  | .add f => build W p [f]
  | .decode b =>
    match W.fds b with
    | none => .ret p .invalid
    | some fs => build W p fs

/-- Where a thread is. -/
inductive Pc where
  /-- outside -/
  | idle
  /-- about to look at the `OnceLock` -/
  | called (c : Call)
  /-- running the closure of `get_or_init` -/
  | initing (c : Call)
  /-- about to lock the mutex -/
  | locking (c : Call)
  /-- has locked it, about to unwrap -/
  | holding (c : Call)
  /-- working under the lock; `p` is the pool it found -/
  | working (c : Call) (p : Pool)
  /-- about to drop the guard -/
  | unlocking (c : Call) (r : Resp)
  /-- panicking, about to drop the guard -/
  | failing (c : Call)
  /-- about to return or to go on panicking -/
  | leaving (c : Call) (r : Resp)

/-- The `OnceLock` (global.rs:8). -/
inductive Once where
  | new
  | running (t : Nat)
  | ready

/-- All of it. -/
structure St where
  once : Once
  /-- the pool in the mutex, meaningful once it is there -/
  pool : Pool
  owner : Option Nat
  poisoned : Bool
  /-- the process was aborted -/
  dead : Bool
  pc : Nat → Pc

/-- What can be seen from outside. -/
inductive Ev where
  | call (t : Nat) (c : Call)
  | ret (t : Nat) (r : Resp)

/-- Thread `t` goes on at `x`. -/
def St.at (s : St) (t : Nat) (x : Pc) : St := { s with pc := fun i => if i = t then x else s.pc i }

/-- One step of a thread. -/
inductive Step (W : World) : St → Option Ev → St → Prop where
  /-- a thread calls one of the functions -/
  | call (s : St) (t : Nat) (c : Call) : s.dead = false → s.pc t = .idle →
      Step W s (some (.call t c)) (s.at t (.called c))
  /-- `get_or_init`: the value is there (global.rs:11-12) -/
  | ready (s : St) (t : Nat) (c : Call) : s.dead = false → s.pc t = .called c → s.once = .ready →
      Step W s none (s.at t (.locking c))
  /-- `get_or_init`: this thread is to make the value; others that come now wait -/
  | start (s : St) (t : Nat) (c : Call) : s.dead = false → s.pc t = .called c → s.once = .new →
      Step W s none ({ s with once := .running t }.at t (.initing c))
  /-- `get_or_init`: the value has been made -/
  | init (s : St) (t : Nat) (c : Call) : s.dead = false → s.pc t = .initing c →
      Step W s none ({ s with once := .ready, pool := W.first, owner := none, poisoned := false }.at t (.locking c))
  /-- `lock` (global.rs:13), when nobody has the mutex -/
  | acquire (s : St) (t : Nat) (c : Call) : s.dead = false → s.pc t = .locking c → s.owner = none →
      Step W s none ({ s with owner := some t }.at t (.holding c))
  /-- `unwrap` of a poisoned lock (global.rs:14) -/
  | refuse (s : St) (t : Nat) (c : Call) : s.dead = false → s.pc t = .holding c → s.poisoned = true →
      Step W s none (s.at t (.failing c))
  /-- `unwrap` of a lock that is not poisoned -/
  | enter (s : St) (t : Nat) (c : Call) : s.dead = false → s.pc t = .holding c → s.poisoned = false →
      Step W s none (s.at t (.working c s.pool))
  /-- the pool on the way to its new state -/
  | torn (s : St) (t : Nat) (c : Call) (p q : Pool) : s.dead = false → s.pc t = .working c p →
      Step W s none { s with pool := q }
  /-- the work is done -/
  | finish (s : St) (t : Nat) (c : Call) (p p' : Pool) (r : Resp) : s.dead = false → s.pc t = .working c p →
      exec W p c = .ret p' r → Step W s none ({ s with pool := p' }.at t (.unlocking c r))
  /-- the work panics -/
  | panic (s : St) (t : Nat) (c : Call) (p : Pool) : s.dead = false → s.pc t = .working c p →
      exec W p c = .panic → Step W s none (s.at t (.failing c))
  /-- the work ends the process -/
  | abort (s : St) (t : Nat) (c : Call) (p : Pool) : s.dead = false → s.pc t = .working c p →
      exec W p c = .abort → Step W s none { s with dead := true }
  /-- the guard is dropped -/
  | unlock (s : St) (t : Nat) (c : Call) (r : Resp) : s.dead = false → s.pc t = .unlocking c r →
      Step W s none ({ s with owner := none }.at t (.leaving c r))
  /-- the guard is dropped by a panic -/
  | poison (s : St) (t : Nat) (c : Call) : s.dead = false → s.pc t = .failing c →
      Step W s none ({ s with owner := none, poisoned := true }.at t (.leaving c .panic))
  /-- the call is over -/
  | ret (s : St) (t : Nat) (c : Call) (r : Resp) : s.dead = false → s.pc t = .leaving c r →
      Step W s (some (.ret t r)) (s.at t .idle)

/-- When the program starts. What is in `pool` does not matter. -/
def start (p : Pool) : St := ⟨.new, p, none, false, false, fun _ => .idle⟩

/-- Any number of steps, and what can be seen of them. -/
inductive Steps (W : World) : St → List Ev → St → Prop where
  | nil (s : St) : Steps W s [] s
  | quiet {s s1 s' : St} {es : List Ev} : Steps W s es s1 → Step W s1 none s' → Steps W s es s'
  | seen {s s1 s' : St} {es : List Ev} {e : Ev} : Steps W s es s1 → Step W s1 (some e) s' →
      Steps W s (es ++ [e]) s'

/-! ### One call after the other -/

/-- The pool between calls when there is one thread only. -/
structure Seq where
  pool : Pool
  poisoned : Bool

/-- A call from beginning to end, without anybody else: the specification. -/
inductive Does (W : World) : Seq → Call → Resp → Seq → Prop where
  | ret {p p' : Pool} {c : Call} {r : Resp} : exec W p c = .ret p' r → Does W ⟨p, false⟩ c r ⟨p', false⟩
  | panic {p : Pool} {c : Call} (q : Pool) : exec W p c = .panic → Does W ⟨p, false⟩ c .panic ⟨q, true⟩
  | refuse (p : Pool) (c : Call) : Does W ⟨p, true⟩ c .panic ⟨p, true⟩

/-- Calls one after the other. -/
inductive Serial (W : World) : Seq → List (Call × Resp) → Seq → Prop where
  | nil (g : Seq) : Serial W g [] g
  | snoc {g g1 g' : Seq} {l : List (Call × Resp)} {c : Call} {r : Resp} : Serial W g l g1 → Does W g1 c r g' →
      Serial W g (l ++ [(c, r)]) g'

end Verif.Pool.Global
