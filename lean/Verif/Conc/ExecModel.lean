/-!
# Model of `arolla/expr/eval/thread_safe_model_executor.h`

An interleaving model of concurrent evaluations through one thread safe wrapper.  An executor is a number; it owns a
frame.  An evaluation writes its input into the frame of its executor and later computes the result from what is
in the frame (`f`), as `ModelExecutor::Execute` does (model_executor.h:229-244); the two are separate steps.
`ExecuteOnStack` and `ExecuteOnHeap` use a frame of their own, that is a fresh executor (model_executor.h:255-299).

* Atomic steps: a section under the mutex, `test_and_set`, `clear`, an access to the thread local, `Clone`.
* `Clone` may fail.  The result of `f` stands for the whole `StatusOr`.  Side outputs are not modelled.
* Executors are unique pointers: dropping one destroys it.
-/

namespace Verif.Conc.Exec

/-- What distinguishes the wrappers; `σ` is the shared state. -/
structure Wrapper (σ : Type) where
  init : σ
  /-- the number of executors which exist at the beginning (numbered from 0) -/
  initial : Nat
  /-- take an executor; `none`: a new one has to be made -/
  acquire : σ → Nat → σ × Option Nat
  /-- after a new executor was made -/
  created : σ → Nat → Nat → σ
  release : σ → Nat → Nat → σ

/-- `ThreadSafePoolModelExecutor::Execute` — thread_safe_model_executor.h:242-263.  The pool is a vector; its back is
the last element.  The prototype is never evaluated. -/
def poolWrapper (maximum : Nat) : Wrapper (List Nat) where
  init := []
  initial := 0
  acquire := fun pool _ =>
    if maximum ≠ 0 then
      match pool.getLast? with
      | some e => (pool.dropLast, some e)
      | none => (pool, none)
    else (pool, none)
  created := fun pool _ _ => pool
  release := fun pool _ e =>
    if maximum ≠ 0 then
      if pool.length < maximum then pool ++ [e] else pool
    else pool

/-- `ThreadSafeCloneWhenBusyModelExecutor::Execute` — thread_safe_model_executor.h:165-179.  The shared state is
`is_busy_`; the shared executor is number 0. -/
def busyWrapper : Wrapper Bool where
  init := false
  initial := 1
  acquire := fun busy _ => if !busy then (true, some 0) else (true, none)
  created := fun busy _ _ => busy
  release := fun busy _ e => if e = 0 then false else busy

/-- `ThreadSafeModelExecutor::Execute` — thread_safe_model_executor.h:72-82.  The shared state is the thread local
executor of every thread. -/
def localWrapper : Wrapper (Nat → Option Nat) where
  init := fun _ => none
  initial := 0
  acquire := fun locals t => (locals, locals t)
  created := fun locals t e => fun u => if u = t then some e else locals u
  release := fun locals _ _ => locals

/-- Program counters of an evaluation of the input `x` in the thread `t`. -/
inductive Pc where
  | start (t x : Nat)
  | clone (t x : Nat)
  /-- about to write the input into the frame of `e` -/
  | exec0 (t x e : Nat)
  /-- about to compute the result from the frame of `e` -/
  | exec1 (t x e : Nat)
  /-- about to release `e` and return `r` -/
  | fin (t x e r : Nat)
  deriving DecidableEq

def Pc.thread : Pc → Nat
  | .start t _ | .clone t _ | .exec0 t _ _ | .exec1 t _ _ | .fin t _ _ _ => t

/-- The executor an evaluation is using. -/
def Pc.holds : Pc → Option Nat
  | .exec0 _ _ e | .exec1 _ _ e | .fin _ _ e _ => some e
  | _ => none

/-- A finished evaluation: the input and the result (`none`: `Clone` failed). -/
structure Ret where
  input : Nat
  result : Option Nat
  deriving DecidableEq

structure St (σ : Type) where
  shared : σ
  next : Nat
  frames : Nat → Nat
  ops : List Pc
  log : List Ret

def St.start {σ : Type} (w : Wrapper σ) : St σ := ⟨w.init, w.initial, fun _ => 0, [], []⟩

/-- One step of an evaluation; `ok`: a `Clone` in this step succeeds. -/
def stepPc {σ : Type} (w : Wrapper σ) (f : Nat → Nat) (ok : Bool) (s : St σ) : Pc → St σ × Option Pc
  | .start t x =>
    let a := w.acquire s.shared t
    match a.2 with
    | some e => ({ s with shared := a.1 }, some (.exec0 t x e))
    | none => ({ s with shared := a.1 }, some (.clone t x))
  | .clone t x =>
    if ok then ({ s with shared := w.created s.shared t s.next, next := s.next + 1 }, some (.exec0 t x s.next))
    else ({ s with log := ⟨x, none⟩ :: s.log }, none)
  | .exec0 t x e => ({ s with frames := fun i => if i = e then x else s.frames i }, some (.exec1 t x e))
  | .exec1 t x e => (s, some (.fin t x e (f (s.frames e))))
  | .fin t x e r => ({ s with shared := w.release s.shared t e, log := ⟨x, some r⟩ :: s.log }, none)

inductive Act where
  | call (t x : Nat)
  | advance (k : Nat) (ok : Bool)

/-- `reentrant`: a thread may start an evaluation while another one of this thread is in progress. -/
def act {σ : Type} (w : Wrapper σ) (f : Nat → Nat) (reentrant : Bool) (s : St σ) : Act → St σ
  | .call t x =>
    if !reentrant && s.ops.any (fun pc => pc.thread == t) then s else { s with ops := s.ops ++ [.start t x] }
  | .advance k ok =>
    match s.ops[k]? with
    | none => s
    | some pc =>
      match stepPc w f ok s pc with
      | (s', some pc') => { s' with ops := s.ops.set k pc' }
      | (s', none) => { s' with ops := s.ops.eraseIdx k }

def runFrom {σ : Type} (w : Wrapper σ) (f : Nat → Nat) (reentrant : Bool) (s : St σ) : List Act → St σ
  | [] => s
  | a :: as => runFrom w f reentrant (act w f reentrant s a) as

end Verif.Conc.Exec
