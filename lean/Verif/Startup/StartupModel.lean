import Mathlib.Data.List.Sort
import Mathlib.Data.String.Basic
import Mathlib.Data.List.Basic

/-!
# Model of `arolla/util/init_arolla_internal.cc`

A pointer to a node is a `Key`: the nodes of one name are one node (`node_index`), every use of the
empty name makes a new node.  An initializer is identified by its position in the list given to `Run`.
The outer `Option` is definedness (`top()` of an empty stack is undefined behaviour; recursion that does
not end).
-/

namespace Verif.Startup

/-- `Initializer` — init_arolla.h:155-175; the function is identified by the position. -/
structure Init where
  name : String
  deps : List String
  rdeps : List String

/-- `starts_with(name, kPhonyNamePrefix)` — init_arolla.h:135. -/
def isPhony (name : String) : Bool := "@phony".toList.isPrefixOf name.toList

/-- `Node*`. -/
inductive Key where
  | named (name : String)
  | anon (n : Nat)
  deriving DecidableEq

/-- `Node::name` — init_arolla_internal.cc:43. -/
def Key.name : Key → String
  | .named s => s
  | .anon _ => ""

/-- `Digraph` — init_arolla_internal.cc:41-51: the nodes in the order of creation, `Node::initializer`
and `Node::deps` of every node. -/
structure Graph where
  keys : List Key
  anons : Nat
  init : Key → Option Nat
  deps : Key → List Key

/-- An empty digraph. -/
def Graph.empty : Graph := ⟨[], 0, fun _ => none, fun _ => []⟩

/-- Errors of `Run`. -/
inductive Err where
  | phonyName (i : Nat)
  | collision (i : Nat)
  | reverseCompleted (i : Nat) (name : String)
  | circular (names : List String)
  | notDefined (user missing : String)
  | initFailed (i : Nat)
  deriving DecidableEq

/-- `GetNode` — init_arolla_internal.cc:53-63. -/
def getNode (g : Graph) (name : String) : Graph × Key :=
  if name = "" then ({ g with keys := g.keys ++ [.anon g.anons], anons := g.anons + 1 }, .anon g.anons)
  else if .named name ∈ g.keys then (g, .named name)
  else ({ g with keys := g.keys ++ [.named name] }, .named name)

/-- `node->deps.push_back(dep)`. -/
def addDep (g : Graph) (k d : Key) : Graph :=
  { g with deps := fun x => if x = k then g.deps k ++ [d] else g.deps x }

/-- The loop over `initializer.deps` — init_arolla_internal.cc:82-86. -/
def depsLoop (completed : List String) (k : Key) : List String → Graph → Graph
  | [], g => g
  | d :: ds, g =>
    if d ∈ completed then depsLoop completed k ds g
    else depsLoop completed k ds (addDep (getNode g d).1 k (getNode g d).2)

/-- The loop over `initializer.reverse_deps` — init_arolla_internal.cc:87-98. -/
def rdepsLoop (completed : List String) (i : Nat) (k : Key) : List String → Graph → Except Err Graph
  | [], g => .ok g
  | r :: rs, g =>
    if r ∈ completed then .error (.reverseCompleted i r)
    else rdepsLoop completed i k rs (addDep (getNode g r).1 (getNode g r).2 k)

/-- `InitNode` — init_arolla_internal.cc:65-100. -/
def initNode (completed : List String) (g : Graph) (i : Nat) (x : Init) : Except Err (Graph × Key) :=
  if isPhony x.name then .error (.phonyName i)
  else
    let (g, k) := getNode g x.name
    if g.init k ≠ none ∨ x.name ∈ completed then .error (.collision i)
    else
      let g := { g with init := fun q => if q = k then some i else g.init q }
      let g := depsLoop completed k x.deps g
      (rdepsLoop completed i k x.rdeps g).map (fun g => (g, k))

/-- The first loop of `Run` — init_arolla_internal.cc:159-162. -/
def initNodes (completed : List String) : Nat → List Init → Graph → Except Err (Graph × List Key)
  | _, [], g => .ok (g, [])
  | i, x :: xs, g => do
    let (g, k) ← initNode completed g i x
    let (g, ks) ← initNodes completed (i + 1) xs g
    .ok (g, k :: ks)

/-- `Node::execution_state`. -/
inductive St where
  | pending
  | executing
  | done
  deriving DecidableEq

/-- State of the execution: states of the nodes, `dependency_stack` (top first), and the
initializers whose function was called so far, in order. -/
structure X where
  st : Key → St
  stack : List Key
  trace : List Nat

/-- `node.execution_state = s`. -/
def X.set (x : X) (k : Key) (s : St) : X := { x with st := fun q => if q = k then s else x.st q }

/-- Result of an execution step: the state is kept in case of an error. -/
abbrev Res := Option (X × Except Err Unit)

/-- The message of a circular dependency — init_arolla_internal.cc:107-117: the names on the stack down
to the node. -/
def cycleNames (k : Key) : List Key → Option (List String)
  | [] => none
  | q :: qs => if q = k then some [q.name] else (cycleNames k qs).map (q.name :: ·)

/-- `stable_sort` by name. -/
def sortKeys (ks : List Key) : List Key := ks.insertionSort (fun a b => a.name ≤ b.name)

/-- `for (auto* dep : node.deps) RETURN_IF_ERROR(ExecuteNode(...))`. -/
def execList (f : X → Key → Res) : List Key → X → Res
  | [], x => some (x, .ok ())
  | k :: ks, x =>
    match f x k with
    | none => none
    | some (x, .error e) => some (x, .error e)
    | some (x, .ok ()) => execList f ks x

/-- The part of `ExecuteNode` after the dependencies — init_arolla_internal.cc:127-149.  `succeeds t i`
is the outcome of the function of initializer `i` when the functions in `t` were called before.  A
missing `init_fn` always succeeds. -/
def finishNode (g : Graph) (succeeds : List Nat → Nat → Bool) (x : X) (k : Key) : Res :=
  match x.stack with
  | [] => none
  | _ :: stack =>
    let x := { x.set k .done with stack := stack }
    match g.init k with
    | some i => some ({ x with trace := x.trace ++ [i] },
        if succeeds x.trace i then .ok () else .error (.initFailed i))
    | none =>
      if isPhony k.name then some (x, .ok ())
      else
        match stack with
        | [] => none
        | q :: _ => some (x, .error (.notDefined q.name k.name))

/-- `ExecuteNode` — init_arolla_internal.cc:102-150. -/
def exec (g : Graph) (succeeds : List Nat → Nat → Bool) : Nat → X → Key → Res
  | 0, _, _ => none
  | fuel + 1, x, k =>
    match x.st k with
    | .done => some (x, .ok ())
    | .executing => (cycleNames k x.stack).map (fun names => (x, .error (.circular names)))
    | .pending =>
      let x := x.set k .executing
      let x := { x with stack := k :: x.stack }
      match execList (exec g succeeds fuel) (sortKeys (g.deps k)) x with
      | none => none
      | some (x, .error e) => some (x, .error e)
      | some (x, .ok ()) => finishNode g succeeds x k

/-- The last loop of `Run` — init_arolla_internal.cc:166-171: also the new `previously_completed_`. -/
def runLoop (f : X → Key → Res) : List Key → X → List String →
    Option (X × List String × Except Err Unit)
  | [], x, completed => some (x, completed, .ok ())
  | k :: ks, x, completed =>
    match f x k with
    | none => none
    | some (x, .error e) => some (x, completed, .error e)
    | some (x, .ok ()) =>
      runLoop f ks x (if k.name ≠ "" ∧ ¬ isPhony k.name then completed ++ [k.name] else completed)

/-- `Coordinator::Run` — init_arolla_internal.cc:154-173: the functions called, in order, the new
`previously_completed_` and the status. -/
def run (completed : List String) (succeeds : List Nat → Nat → Bool) (inits : List Init) :
    Option (List Nat × List String × Except Err Unit) :=
  match initNodes completed 0 inits Graph.empty with
  | .error e => some ([], completed, .error e)
  | .ok (g, ks) =>
    (runLoop (exec g succeeds (g.keys.length + 1)) (sortKeys ks) ⟨fun _ => .pending, [], []⟩
      completed).map (fun (x, completed, s) => (x.trace, completed, s))

end Verif.Startup
