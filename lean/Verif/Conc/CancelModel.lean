/-!
# Model of `arolla/util/cancellation.{h,cc}`: `CancellationContext` and its subscriptions

An interleaving model.  An operation in progress is a program counter (`Pc`); every action starts an operation
or advances one of the operations in progress by one atomic step; a schedule is any list of actions.  An action
which is not possible is ignored.  `none` is undefined behaviour (access to a node which is not allocated,
double free) or a failed `DCHECK`.

* A section under the mutex `mx_` is one atomic step: all other accesses to the data it protects are under the
  same mutex.
* `Cancelled()` outside of the mutex is a relaxed read of a flag which only changes from `false` to `true`; it
  may return an old value, so the reader gets `flag && !stale` with `stale` chosen by the schedule.
* Running a callback is one event.  A callback may call the context again: this is a further operation which is
  started while the caller is in progress.
* A subscription node and its callback are identified by the number of the `Subscribe` call.  Moving handles
  (cancellation.cc:145-157) does not change what they refer to and is not modelled; neither is a null callback.
-/

namespace Verif.Conc

/-- `SubscriptionNode` without the callback — cancellation.cc:38-42. -/
structure Node where
  prev : Option Nat
  next : Option Nat

/-- Program counters. -/
inductive Pc where
  /-- `Cancel(status)` before the test — cancellation.cc:58; `none` is an OK status. -/
  | cancel0 (s : Option Nat)
  /-- before the lock — cancellation.cc:63. -/
  | cancel1 (s : Nat)
  /-- at the loop condition — cancellation.cc:71. -/
  | cancel2 (s : Nat) (n : Option Nat)
  /-- after the callback, before `delete` — cancellation.cc:73. -/
  | cancel3 (s : Nat) (n : Nat)
  /-- `Subscribe` before the test — cancellation.cc:88. -/
  | sub0 (i : Nat)
  /-- node allocated, before the lock — cancellation.cc:95. -/
  | sub1 (i : Nat)
  /-- before running the callback without a node — cancellation.cc:89. -/
  | sub2 (i : Nat)
  /-- before running the callback of the unlinked node — cancellation.cc:105. -/
  | sub3 (i : Nat)
  /-- `~Subscription` before the test — cancellation.cc:163. -/
  | del0 (i : Nat)
  /-- before the lock — cancellation.cc:167. -/
  | del1 (i : Nat)
  /-- unlinked, before `delete` — cancellation.cc:183. -/
  | del2 (i : Nat)

/-- What can be observed. -/
inductive Event where
  | cancelCall (s : Option Nat)
  | cancelRet (s : Option Nat)
  | subCall (i : Nat)
  | subRet (i : Nat)
  | delCall (i : Nat)
  | delRet (i : Nat)
  | detach (i : Nat)
  | run (i : Nat)
  | status (s : Option Nat)
  deriving DecidableEq

/-- The state: `cancelled_flag_`, `status_`, `subscription_nodes_` — cancellation.h:93-95; allocated nodes,
live handles, operations in progress, the next number, the events so far (latest first) and whether the context
has been destroyed. -/
structure St where
  flag : Bool
  status : Option Nat
  head : Option Nat
  heap : Nat → Option Node
  handles : List Nat
  ops : List Pc
  next : Nat
  log : List Event
  dead : Bool

def St.init : St := ⟨false, none, none, fun _ => none, [], [], 0, [], false⟩

/-- Store to an allocated node. -/
def store (h : Nat → Option Node) (i : Nat) (f : Node → Node) : Option (Nat → Option Node) := do
  let n ← h i
  some (fun j => if j = i then some (f n) else h j)

/-- `if (p != nullptr) *p = f(*p)`. -/
def storeIf (h : Nat → Option Node) (p : Option Nat) (f : Node → Node) : Option (Nat → Option Node) :=
  match p with
  | none => some h
  | some i => store h i f

/-- `delete`. -/
def free (h : Nat → Option Node) (i : Nat) : Option (Nat → Option Node) := do
  let _ ← h i
  some (fun j => if j = i then none else h j)

/-- Result of one step of an operation: the new program counter (`none`: the operation returned). -/
structure Out where
  st : St
  pc : Option Pc

/-- Linking a node — cancellation.cc:97-102. -/
def link (s : St) (i : Nat) : Option St := do
  let h ← store s.heap i (fun n => { n with next := s.head })
  let h ← storeIf h s.head (fun n => { n with prev := some i })
  some { s with heap := h, head := some i, handles := i :: s.handles, log := .subRet i :: s.log }

/-- `if (node_->prev == nullptr) … else …` — cancellation.cc:172-176. -/
def unlinkPrev (s : St) (n : Node) : Option St :=
  match n.prev with
  | none => some { s with head := n.next }
  | some p => do some { s with heap := ← store s.heap p (fun m => { m with next := n.next }) }

/-- Unlinking a node — cancellation.cc:171-179. -/
def unlink (s : St) (i : Nat) : Option St := do
  if s.head.isNone then none
  else do
    let n ← s.heap i
    let s' ← unlinkPrev s n
    some { s' with heap := ← storeIf s'.heap n.next (fun m => { m with prev := n.prev }) }

/-- One step of an operation in progress. -/
def stepPc (s : St) (stale : Bool) : Pc → Option Out
  | .cancel0 none => some ⟨{ s with log := .cancelRet none :: s.log }, none⟩
  | .cancel0 (some x) =>
    if s.flag && !stale then some ⟨{ s with log := .cancelRet (some x) :: s.log }, none⟩
    else some ⟨s, some (.cancel1 x)⟩
  | .cancel1 x =>
    match s.status with
    | none => some ⟨{ s with status := some x, head := none, flag := true }, some (.cancel2 x s.head)⟩
    | some _ => some ⟨s, some (.cancel2 x none)⟩
  | .cancel2 x none => some ⟨{ s with log := .cancelRet (some x) :: s.log }, none⟩
  | .cancel2 x (some n) => do
    let _ ← s.heap n
    some ⟨{ s with log := .run n :: s.log }, some (.cancel3 x n)⟩
  | .cancel3 x n => do
    let m ← s.heap n
    some ⟨{ s with heap := ← free s.heap n }, some (.cancel2 x m.next)⟩
  | .sub0 i =>
    if s.flag && !stale then some ⟨s, some (.sub2 i)⟩
    else some ⟨{ s with heap := fun j => if j = i then some ⟨none, none⟩ else s.heap j }, some (.sub1 i)⟩
  | .sub1 i => if !s.flag then do some ⟨← link s i, none⟩ else some ⟨s, some (.sub3 i)⟩
  | .sub2 i => some ⟨{ s with log := .subRet i :: .run i :: s.log }, none⟩
  | .sub3 i => do
    let _ ← s.heap i
    some ⟨{ s with heap := ← free s.heap i, log := .subRet i :: .run i :: s.log }, none⟩
  | .del0 i =>
    if s.flag && !stale then some ⟨{ s with log := .delRet i :: s.log }, none⟩ else some ⟨s, some (.del1 i)⟩
  | .del1 i =>
    if s.flag then some ⟨{ s with log := .delRet i :: s.log }, none⟩ else do some ⟨← unlink s i, some (.del2 i)⟩
  | .del2 i => do some ⟨{ s with heap := ← free s.heap i, log := .delRet i :: s.log }, none⟩

/-- The loop of `~CancellationContext` — cancellation.cc:44-49. -/
def freeAll (h : Nat → Option Node) : Nat → Option Nat → Option (Nat → Option Node)
  | _, none => some h
  | 0, some _ => none
  | f + 1, some i => do
    let n ← h i
    freeAll (← free h i) f n.next

/-- Actions of a schedule. -/
inductive Act where
  | startCancel (s : Option Nat)
  | startSubscribe
  /-- The destructor of a live handle starts. -/
  | startDestroy (i : Nat)
  /-- `Detach` of a live handle — cancellation.cc:186-189. -/
  | detach (i : Nat)
  /-- `GetStatus` — cancellation.cc:77-80. -/
  | getStatus
  /-- Advance the `k`-th operation in progress. -/
  | advance (k : Nat) (stale : Bool)
  /-- The last reference to the context is dropped: no operation in progress and no live handle. -/
  | destroyContext

/-- Advance operation `k`. -/
def advance (s : St) (k : Nat) (stale : Bool) : Option St :=
  match s.ops[k]? with
  | none => some s
  | some pc =>
    match stepPc s stale pc with
    | none => none
    | some ⟨s', some pc'⟩ => some { s' with ops := s.ops.set k pc' }
    | some ⟨s', none⟩ => some { s' with ops := s.ops.eraseIdx k }

def act (s : St) (a : Act) : Option St :=
  if s.dead then some s
  else
    match a with
    | .startCancel x => some { s with ops := s.ops ++ [.cancel0 x], log := .cancelCall x :: s.log }
    | .startSubscribe =>
      some { s with ops := s.ops ++ [.sub0 s.next], next := s.next + 1, log := .subCall s.next :: s.log }
    | .startDestroy i =>
      if i ∈ s.handles then
        some { s with handles := s.handles.erase i, ops := s.ops ++ [.del0 i], log := .delCall i :: s.log }
      else some s
    | .detach i =>
      if i ∈ s.handles then some { s with handles := s.handles.erase i, log := .detach i :: s.log } else some s
    | .getStatus => some { s with log := .status s.status :: s.log }
    | .advance k stale => advance s k stale
    | .destroyContext =>
      if s.ops.isEmpty && s.handles.isEmpty then do
        some { s with heap := ← freeAll s.heap s.next s.head, dead := true }
      else some s

/-- Run a schedule. -/
def runFrom (s : St) : List Act → Option St
  | [] => some s
  | a :: as => do runFrom (← act s a) as

end Verif.Conc
