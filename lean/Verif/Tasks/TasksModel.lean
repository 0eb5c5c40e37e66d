/-!
# Model of `ExecuteTasksInParallel`

`arolla/util/threading.cc`.  An execution is a list of events: each lets the calling thread or one of the started threads do its next
step; every interleaving is such a list.  The steps are the operations that other threads can see: a thread is created, `fetch_add`, the
beginning and the end of a task, `join`.  Tasks end, do not throw and do not touch the counter; memory orders, the failure to create a
thread and the overflow of the counter (after 2^64 calls) are not modelled.
-/

namespace Verif.Tasks

/-- Where a worker is in the loop — threading.cc:38-46. -/
inductive Worker
  /-- Before `fetch_add` — threading.cc:40. -/
  | fetch
  /-- `id` is known — threading.cc:41. -/
  | got (id : Nat)
  /-- Inside of `tasks[id]()` — threading.cc:44. -/
  | running (id : Nat)
  /-- After `return` — threading.cc:42. -/
  | done
  deriving DecidableEq

/-- Where the calling thread is. -/
inductive Main
  /-- In the first loop with this `i` — threading.cc:50. -/
  | create (i : Nat)
  /-- In the second loop with this `i` — threading.cc:53. -/
  | join (i : Nat)
  | returned
  deriving DecidableEq

/-- The state; `started` and `finished` record the tasks in the order of these events. -/
structure State where
  counter : Nat
  workers : List Worker
  main : Main
  started : List Nat
  finished : List Nat
  deriving DecidableEq

/-- Which thread does a step. -/
inductive Event
  | main
  | worker (w : Nat)

/-- A step of a worker — threading.cc:39-45. -/
def workerStep (n : Nat) (s : State) (w : Nat) : Option State :=
  match s.workers[w]? with
  | some .fetch => some { s with counter := s.counter + 1, workers := s.workers.set w (.got s.counter) }
  | some (.got id) =>
    if id ≥ n then some { s with workers := s.workers.set w .done }
    else some { s with workers := s.workers.set w (.running id), started := s.started ++ [id] }
  | some (.running id) => some { s with workers := s.workers.set w .fetch, finished := s.finished ++ [id] }
  | _ => none

/-- A step of the calling thread — threading.cc:50-55. -/
def mainStep (k : Nat) (s : State) : Option State :=
  match s.main with
  | .create i =>
    if i < k then some { s with workers := s.workers ++ [.fetch], main := .create (i + 1) }
    else some { s with main := .join 0 }
  | .join i =>
    if i < k then (if s.workers[i]? = some .done then some { s with main := .join (i + 1) } else none)
    else some { s with main := .returned }
  | .returned => none

/-- A step for `n` tasks and `k` threads; `none`: the thread has to wait or does not exist. -/
def step (n k : Nat) (s : State) : Event → Option State
  | .main => mainStep k s
  | .worker w => workerStep n s w

/-- An execution. -/
def run (n k : Nat) (s : State) : List Event → Option State
  | [] => some s
  | e :: es => (step n k s e).bind fun s => run n k s es

/-- The state at threading.cc:50. -/
def initial : State := ⟨0, [], .create 0, [], []⟩

/-- The conversion to `int` of a size. -/
def toInt (n : Nat) : Int := (BitVec.ofNat 32 n).toInt

/-- `num_threads` — threading.cc:47; `none` is the `std::length_error` that `reserve` throws for a negative number, which it gets as a
very large one — threading.cc:49. -/
def numThreads (n : Nat) (maxParallelism : Int) : Option Nat :=
  let k := min (toInt n) maxParallelism
  if k < 0 then none else some k.toNat

end Verif.Tasks
