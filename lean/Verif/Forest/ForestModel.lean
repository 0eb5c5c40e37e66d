/-!
# Model of `arolla/decision_forest/decision_forest.{h,cc}`

* A node id is an `int64_t` (`NodeId`), arithmetic outside of the range of `int64_t` is undefined behaviour (`none`).
  Inside trees the decoded form `Ref` is used; `NodeIdProps` shows that the encoding loses nothing.
* Input ids, step and submodel ids are unbounded integers.  Adjustments and weights have an arbitrary type `A`.
* The fingerprint is not modelled.
-/

namespace Verif.Forest

/-- The value of an `int64_t` expression; overflow is undefined behaviour. -/
def i64 (x : Int) : Option Int := if -2 ^ 63 ≤ x ∧ x < 2 ^ 63 then some x else none

/-- `DecisionTreeNodeId` — decision_forest.h:55-93. -/
structure NodeId where
  val : Int
  deriving DecidableEq, Repr

/-- `SplitNodeId` — decision_forest.h:57-61. -/
def splitNodeId (i : Int) : NodeId := ⟨i⟩

/-- `AdjustmentId` — decision_forest.h:63-67. -/
def adjustmentId (i : Int) : Option NodeId := do
  let n ← i64 (-i)
  let v ← i64 (n - 1)
  pure ⟨v⟩

/-- `is_leaf` — decision_forest.h:69. -/
def NodeId.isLeaf (n : NodeId) : Bool := n.val < 0

/-- `split_node_index` — decision_forest.h:71-74. -/
def NodeId.splitNodeIndex (n : NodeId) : Int := n.val

/-- `adjustment_index` — decision_forest.h:76-79. -/
def NodeId.adjustmentIndex (n : NodeId) : Option Int := do
  let m ← i64 (-n.val)
  i64 (m - 1)

/-- A decoded node id. -/
inductive Ref where
  | leaf (i : Nat)
  | split (i : Nat)
  deriving DecidableEq, Repr

/-- `SplitNode` — decision_forest.h:95-100.  `C` is the type of split conditions. -/
structure SplitNode (C : Type) where
  ifFalse : Ref
  ifTrue : Ref
  cond : C
  deriving Repr

/-- `DecisionTree::Tag` — decision_forest.h:112-115. -/
structure Tag where
  step : Int
  submodel : Int
  deriving DecidableEq, Repr

/-- `DecisionTree` — decision_forest.h:102-117. -/
structure Tree (C A : Type) where
  splits : List (SplitNode C)
  adjustments : List A
  weight : A
  tag : Tag
  deriving Repr

/-- `GetTreeRootId` — decision_forest.h:119-122. -/
def Tree.root {C A : Type} (t : Tree C A) : Ref := if t.splits.isEmpty then .leaf 0 else .split 0

/-- `TreeFilter` — decision_forest.h:127-139. -/
structure Filter where
  stepFrom : Int := 0
  stepTo : Int := -1
  submodels : List Int := []

/-- `TreeFilter::operator()` — decision_forest.h:129-133. -/
def Filter.accepts (f : Filter) (tag : Tag) : Bool :=
  tag.step ≥ f.stepFrom && (f.stepTo == -1 || tag.step < f.stepTo) &&
    (f.submodels.isEmpty || f.submodels.contains tag.submodel)

inductive Err where
  | negativeSubmodel | negativeStep | regions | splitNode | types
  deriving DecidableEq, Repr

/-- The test of one child in `Initialize` — decision_forest.cc:159-164 and 165-170. -/
def childOk {C A : Type} (t : Tree C A) : Ref → Bool
  | .leaf i => i < t.adjustments.length
  | .split i => i < t.splits.length

/-- `required_qtypes_.emplace` and the test after it, for the signatures of one condition — decision_forest.cc:173-179. -/
def addSignatures {Q : Type} [DecidableEq Q] :
    List (Nat × Q) → List (Nat × Q) → Except Err (List (Nat × Q))
  | [], req => .ok req
  | (id, q) :: rest, req =>
    match req.find? (fun e => e.1 == id) with
    | some e => if e.2 ≠ q then .error .types else addSignatures rest req
    | none => addSignatures rest (req ++ [(id, q)])

/-- The loop over the split nodes of one tree — decision_forest.cc:157-180. -/
def initNodes {C A Q : Type} [DecidableEq Q] (sig : C → List (Nat × Q)) (t : Tree C A) :
    List (SplitNode C) → List (Nat × Q) → Except Err (List (Nat × Q))
  | [], req => .ok req
  | n :: rest, req =>
    if ¬ (childOk t n.ifFalse && childOk t n.ifTrue) then .error .splitNode
    else match addSignatures (sig n.cond) req with
      | .error e => .error e
      | .ok req => initNodes sig t rest req

/-- What `Initialize` stores. -/
structure Meta (Q : Type) where
  submodelCount : Int
  stepCount : Int
  required : List (Nat × Q)
  deriving DecidableEq, Repr

/-- `DecisionForest::Initialize`, one tree — decision_forest.cc:146-180. -/
def initTree {C A Q : Type} [DecidableEq Q] (sig : C → List (Nat × Q)) (m : Meta Q) (t : Tree C A) :
    Except Err (Meta Q) :=
  if t.tag.submodel < 0 then .error .negativeSubmodel
  else if t.tag.step < 0 then .error .negativeStep
  else if t.splits.length + 1 ≠ t.adjustments.length then .error .regions
  else match initNodes sig t t.splits m.required with
    | .error e => .error e
    | .ok req => .ok ⟨max m.submodelCount (t.tag.submodel + 1), max m.stepCount (t.tag.step + 1), req⟩

/-- `DecisionForest::Initialize` — decision_forest.cc:137-186. -/
def initTrees {C A Q : Type} [DecidableEq Q] (sig : C → List (Nat × Q)) :
    List (Tree C A) → Meta Q → Except Err (Meta Q)
  | [], m => .ok m
  | t :: rest, m =>
    match initTree sig m t with
    | .error e => .error e
    | .ok m => initTrees sig rest m

/-- `DecisionForest::FromTrees` — decision_forest.cc:117-122. -/
def fromTrees {C A Q : Type} [DecidableEq Q] (sig : C → List (Nat × Q)) (trees : List (Tree C A)) :
    Except Err (Meta Q) :=
  initTrees sig trees ⟨0, 0, []⟩

/-- `ValidateInputSlots` — decision_forest.cc:124-135: the input slots are given by their types. -/
def validateInputSlots {Q : Type} [DecidableEq Q] (m : Meta Q) (slots : List Q) : Bool :=
  m.required.all fun e =>
    match slots[e.1]? with
    | none => false
    | some q => q == e.2

/-- How the walk through one tree ends. -/
inductive Walk where
  /-- the adjustment with this index -/
  | leaf (i : Nat)
  /-- an access out of the bounds of `split_nodes` -/
  | outOfBounds
  /-- not finished within the given number of steps -/
  | running
  deriving DecidableEq, Repr

/-- The `while` loop of `DecisionForestNaiveEvaluation` — decision_forest.cc:52-61, at most `fuel` iterations.  `ev` is
`EvaluateCondition` on the given input. -/
def walk {C A : Type} (ev : C → Bool) (t : Tree C A) : Nat → Ref → Walk
  | _, .leaf i => .leaf i
  | 0, .split _ => .running
  | fuel + 1, .split k =>
    match t.splits[k]? with
    | none => .outOfBounds
    | some n => walk ev t fuel (if ev n.cond then n.ifTrue else n.ifFalse)

/-- What an evaluation of a forest does. -/
inductive Outcome (M : Type) where
  | value (x : M)
  | outOfBounds
  | running
  deriving DecidableEq, Repr

/-- `DecisionForestNaiveEvaluation`, the loop over the trees — decision_forest.cc:49-65.  `add acc a w` is
`acc += a * w`.  -/
def naiveLoop {C A M : Type} (add : M → A → A → M) (ev : C → Bool) (filter : Filter) (fuel : Nat) :
    List (Tree C A) → M → Outcome M
  | [], acc => .value acc
  | t :: rest, acc =>
    if ¬ filter.accepts t.tag then naiveLoop add ev filter fuel rest acc
    else match walk ev t fuel t.root with
      | .running => .running
      | .outOfBounds => .outOfBounds
      | .leaf i =>
        match t.adjustments[i]? with
        | none => .outOfBounds
        | some a => naiveLoop add ev filter fuel rest (add acc a t.weight)

/-- `DecisionForestNaiveEvaluation` — decision_forest.cc:43-67; every `while` loop makes at most `fuel` iterations. -/
def naive {C A M : Type} (zero : M) (add : M → A → A → M) (ev : C → Bool) (filter : Filter) (fuel : Nat)
    (trees : List (Tree C A)) : Outcome M :=
  naiveLoop add ev filter fuel trees zero

end Verif.Forest
