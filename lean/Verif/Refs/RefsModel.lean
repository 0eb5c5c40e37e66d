/-!
# Model of reference counts and of permanent events

`arolla/util/refcount.h`, `arolla/util/refcount_ptr.h`, `arolla/util/permanent_event.h`.

Threads interleave at the atomic operations, which are sequentially consistent.  The number of references stays below 2³¹.
-/

namespace Verif.Refs

/-! ## Reference counts -/

/-- What the owner of a reference does with it: nothing, the second operation of `skewed_decrement`, the deletion of the object; or the
reference has been released. -/
inductive Phase
  | live | loaded | deleting | gone
  deriving DecidableEq

/-- The count, the references that ever existed, and how often the object was deleted. -/
structure State where
  count : Int
  refs : List Phase
  deleted : Nat

/-- A new object — refcount.h:28, refcount_ptr.h:48-54. -/
def init : State := ⟨1, [.live], 0⟩

/-- Atomic operations with a reference. -/
inductive Step
  | copy (i : Nat) | decrement (i : Nat) | load (i : Nat) | subtract (i : Nat) | delete (i : Nat)

/-- `increment`: a copy of a reference — refcount.h:37, refcount_ptr.h:68-73, 80-84. -/
def copy (s : State) : State := { s with count := s.count + 1, refs := s.refs ++ [.live] }

/-- `fetch_sub(1)`; the object is deleted next if it returns 1 — refcount.h:45-47, 61-64, refcount_ptr.h:112-120. -/
def fetchSub (s : State) (i : Nat) : State :=
  { s with count := s.count - 1, refs := s.refs.set i (if s.count ≠ 1 then .gone else .deleting) }

/-- The load of `skewed_decrement` — refcount.h:61-64. -/
def load (s : State) (i : Nat) : State := { s with refs := s.refs.set i (if s.count ≠ 1 then .loaded else .deleting) }

/-- The deletion of the object — refcount_ptr.h:117-119. -/
def delete (s : State) (i : Nat) : State := { s with refs := s.refs.set i .gone, deleted := s.deleted + 1 }

/-- A step, if the owner of the reference is at this point. -/
def step (s : State) : Step → Option State
  | .copy i => if s.refs[i]? = some .live then some (copy s) else none
  | .decrement i => if s.refs[i]? = some .live then some (fetchSub s i) else none
  | .load i => if s.refs[i]? = some .live then some (load s i) else none
  | .subtract i => if s.refs[i]? = some .loaded then some (fetchSub s i) else none
  | .delete i => if s.refs[i]? = some .deleting then some (delete s i) else none

/-- An interleaving. -/
def run (s : State) : List Step → Option State
  | [] => some s
  | a :: as =>
    match step s a with
    | none => none
    | some s => run s as

/-! ## Permanent events -/

/-- What a call of `Notify` does next: `test_and_set`, `notification_.Notify()`, or nothing. -/
inductive Call
  | start | notify | returned
  deriving DecidableEq

/-- `once_`, whether the notification is set, how often it was notified, and the calls. -/
structure Event where
  once : Bool
  notified : Bool
  times : Nat
  calls : List Call

/-- A new event, on which `n` calls are made — permanent_event.h:74-75. -/
def Event.init (n : Nat) : Event := ⟨false, false, 0, List.replicate n .start⟩

/-- The next operation of call `i` — permanent_event.h:54-58. -/
def Event.step (e : Event) (i : Nat) : Option Event :=
  match e.calls[i]? with
  | some .start => some { e with once := true, calls := e.calls.set i (if !e.once then .notify else .returned) }
  | some .notify => some { e with notified := true, times := e.times + 1, calls := e.calls.set i .returned }
  | _ => none

/-- An interleaving. -/
def Event.run (e : Event) : List Nat → Option Event
  | [] => some e
  | i :: is =>
    match e.step i with
    | none => none
    | some e => e.run is

end Verif.Refs
