import Mathlib.Logic.Basic

/-!
# Circular dependencies between registered operators: model

`arolla/expr/registered_expr_operator.cc`.  An operator is a registered operator (its name) or another operator; fingerprints are
collision-free, so the sets of fingerprints are sets of operators.  The registry does not change during a call.
-/

namespace Verif.Circular

/-- `RegisteredOperator` or another operator. -/
inductive Op (N O : Type) where
  | reg (name : N)
  | other (op : O)
deriving DecidableEq

/-- `absl::NotFoundError` and `absl::FailedPreconditionError`. -/
inductive Err where
  | notFound
  | circular
deriving DecidableEq

variable {N O : Type} [DecidableEq N] [DecidableEq O]

/-- `RegisteredOperator::GetImplementation` — registered_expr_operator.cc:197-205. -/
def implementation (registry : List (N × Op N O)) (name : N) : Option (Op N O) := (registry.find? fun r => r.1 == name).map (·.2)

/-- `CircularDependencyDetector::kIgnoreDepth` — registered_expr_operator.cc:58. -/
def ignoreDepth : Nat := 24

/-- The loop that detects circular dependencies — registered_expr_operator.cc:151-163.  `none`: the fuel is exhausted. -/
def decayVisited (registry : List (N × Op N O)) : Nat → List (Op N O) → Op N O → Option (Except Err (Op N O))
  | 0, _, _ => none
  | fuel + 1, visited, cur =>
    if cur ∈ visited then some (.error .circular)
    else
      match cur with
      | .other o => some (.ok (.other o))
      | .reg name =>
        match implementation registry name with
        | none => some (.error .notFound)
        | some next => decayVisited registry fuel (cur :: visited) next

/-- The `for` loop without detection: `steps` iterations from the current operator, then the other loop —
registered_expr_operator.cc:141-148. -/
def decayFast (registry : List (N × Op N O)) (fuel : Nat) : Nat → Op N O → Option (Except Err (Op N O))
  | 0, cur => decayVisited registry fuel [] cur
  | steps + 1, cur =>
    match cur with
    | .other o => some (.ok (.other o))
    | .reg name =>
      match implementation registry name with
      | none => some (.error .notFound)
      | some next => decayFast registry fuel steps next

/-- `DecayRegisteredOperator` — registered_expr_operator.cc:132-164: `depth` runs from 1 to `kIgnoreDepth - 1`.  The fuel is the number of
registered operators and two more. -/
def decay (registry : List (N × Op N O)) (op : Op N O) : Option (Except Err (Op N O)) :=
  match op with
  | .other o => some (.ok (.other o))
  | .reg name =>
    match implementation registry name with
    | none => some (.error .notFound)
    | some cur => decayFast registry (registry.length + 2) (ignoreDepth - 1) cur

/-! ## The guard of recursive calls -/

/-- What a method of an operator does: it calls methods of registered operators, one after the other, and goes on with their results. -/
inductive Body (K R : Type) where
  | ret (r : R)
  | call (k : K) (cont : R → Body K R)

/-- `thread_local_depth_`, `thread_local_visited_` — registered_expr_operator.cc:112-113, 116-118. -/
structure Tls (T : Type) where
  depth : Nat
  visited : List T
deriving DecidableEq

variable {K R T : Type} [DecidableEq T]

/-- The constructor of `CircularDependencyDetector` and `Push` — registered_expr_operator.cc:64-70, 86-91.  Returns `token_`, `none` for
`kFail`. -/
def enter (token : T) (tls : Tls T) : Tls T × Option T :=
  let tls := { tls with depth := tls.depth + 1 }
  if tls.depth > ignoreDepth then
    if token ∈ tls.visited then (tls, none) else ({ tls with visited := token :: tls.visited }, some token)
  else (tls, none)

/-- `CircularDependencyDetector::ok` — registered_expr_operator.cc:78-81. -/
def guardOk (tls : Tls T) (token_ : Option T) : Bool := decide (tls.depth ≤ ignoreDepth) || token_.isSome

/-- The destructor and `Pop` — registered_expr_operator.cc:72-76, 108.  Erasing `kFail` does nothing, because it is never inserted. -/
def leave (token_ : Option T) (tls : Tls T) : Tls T :=
  { depth := tls.depth - 1
    visited := if tls.depth > ignoreDepth then (match token_ with | none => tls.visited | some t => tls.visited.erase t) else tls.visited }

/-- The calls of a method in turn. -/
def runBody (ev : Tls T → K → Option (R × Tls T)) : Tls T → Body K R → Option (R × Tls T)
  | tls, .ret r => some (r, tls)
  | tls, .call k cont =>
    match ev tls k with
    | none => none
    | some (r, tls) => runBody ev tls (cont r)

/-- A method of `RegisteredOperator`: guard, implementation — registered_expr_operator.cc:207-268.  `none`: the recursion is deeper than the
fuel. -/
def guarded (token : K → T) (body : K → Body K R) (fail : K → R) : Nat → Tls T → K → Option (R × Tls T)
  | 0, _, _ => none
  | fuel + 1, tls, k =>
    let (tls, token_) := enter (token k) tls
    let out := if guardOk tls token_ then runBody (guarded token body fail fuel) tls (body k) else some (fail k, tls)
    out.map fun r => (r.1, leave token_ r.2)

/-- The methods of `RegisteredOperator` that are guarded: of a name, and inputs or a node. -/
inductive Call (N A X : Type) where
  | getSignature (name : N)
  | getDoc (name : N)
  | inferAttributes (name : N) (inputs : List A)
  | toLowerLevel (name : N) (node : X)
deriving DecidableEq

/-- The tokens — registered_expr_operator.cc:93-106, 209, 221, 234, 253: `GetSignature` and `GetDoc` have the same one. -/
inductive Token (N A X : Type) where
  | operator (name : N)
  | inputs (name : N) (inputs : List A)
  | node (name : N) (node : X)
deriving DecidableEq

def callToken {N A X : Type} : Call N A X → Token N A X
  | .getSignature name => .operator name
  | .getDoc name => .operator name
  | .inferAttributes name inputs => .inputs name inputs
  | .toLowerLevel name node => .node name node

end Verif.Circular
