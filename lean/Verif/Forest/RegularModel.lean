import Verif.Forest.ForestModel

/-!
# Model of `arolla/decision_forest/pointwise_evaluation/pointwise.h`

The compiler of regular trees and the predictors; `N` is the type of node tests, `M` the type of the leaf values.

* `internal::NodeId` (an `int32_t`, `~id` for leaves, pointwise.h:86-102) is a `Ref`; trees with 2^31 nodes are not covered.
* A read of a vector out of its bounds, or of an element which was never set, is `none`.
-/

namespace Verif.Forest

inductive CErr where
  | outOfRange | duplicated | empty | notUsed
  deriving DecidableEq, Repr

/-- `SingleTreeCompilationImpl::Node` — pointwise.h:198-203; `none` is -1. -/
structure BNode (N : Type) where
  leafId : Option Nat := none
  left : Option Nat := none
  right : Option Nat := none
  test : Option N := none

/-- `SingleTreeCompilationImpl` — pointwise.h:122-208. -/
structure Builder (N M : Type) where
  nodes : List (BNode N)
  used : List Bool
  usedAsChild : List Bool
  leafValues : List M

/-- The constructor — pointwise.h:123-128. -/
def newBuilder (N M : Type) (count : Nat) : Builder N M :=
  let child := List.replicate count false
  { nodes := List.replicate count {}
    used := List.replicate count false
    usedAsChild := if count > 0 then child.set 0 true else child
    leafValues := [] }

/-- `TestNode` — pointwise.h:187-196. -/
def testNode (id : Nat) (used : List Bool) : Except CErr (List Bool) :=
  match used[id]? with
  | none => .error .outOfRange
  | some u => if u then .error .duplicated else .ok (used.set id true)

/-- `SetNode` — pointwise.h:130-139. -/
def setNode {N M : Type} (b : Builder N M) (id left right : Nat) (test : N) : Except CErr (Builder N M) := do
  let used ← testNode id b.used
  let child ← testNode left b.usedAsChild
  let child ← testNode right child
  let nodes := b.nodes.modify id fun n => { n with left := some left, right := some right, test := some test }
  pure { b with nodes, used, usedAsChild := child }

/-- `SetLeaf` — pointwise.h:141-146. -/
def setLeaf {N M : Type} (b : Builder N M) (id : Nat) (value : M) : Except CErr (Builder N M) := do
  let used ← testNode id b.used
  let nodes := b.nodes.modify id fun n => { n with leafId := some b.leafValues.length }
  pure { b with nodes, used, leafValues := b.leafValues ++ [value] }

/-- `CompactCondition` — pointwise.h:103-109. -/
structure Compact1 (N : Type) where
  test : N
  ifFalse : Ref
  ifTrue : Ref

/-- `CompactDecisionTree` — pointwise.h:111-119. -/
structure Compact (N M : Type) where
  splits : List (Option (Compact1 N))
  adjustments : List M

/-- The loop which numbers the nodes — pointwise.h:163-172. -/
def nodeMapping {N : Type} : List (BNode N) → Nat → List Ref
  | [], _ => []
  | n :: rest, cur =>
    match n.leafId with
    | none => .split cur :: nodeMapping rest (cur + 1)
    | some l => .leaf l :: nodeMapping rest cur

/-- The loop which fills `tree.splits` — pointwise.h:173-182; `id` is the number of the first node of the list. -/
def fillSplits {N : Type} (mapping : List Ref) :
    List (BNode N) → Nat → List (Option (Compact1 N)) → Option (List (Option (Compact1 N)))
  | [], _, splits => some splits
  | n :: rest, id, splits =>
    match n.leafId with
    | some _ => fillSplits mapping rest (id + 1) splits
    | none => do
      let test ← n.test
      let left ← n.left
      let right ← n.right
      let ifTrue ← mapping[left]?
      let ifFalse ← mapping[right]?
      match mapping[id]? with
      | some (.split k) =>
        if k < splits.length then
          fillSplits mapping rest (id + 1) (splits.set k (some ⟨test, ifFalse, ifTrue⟩))
        else none
      | _ => none

/-- `SingleTreeCompilationImpl::Compile` — pointwise.h:148-184. -/
def Builder.compile {N M : Type} (b : Builder N M) : Option (Except CErr (Compact N M)) :=
  if b.nodes.isEmpty then some (.error .empty)
  else if (List.range b.nodes.length).any (fun i => b.usedAsChild[i]? != some true || b.used[i]? != some true) then
    some (.error .notUsed)
  else do
    let inner := b.nodes.length - b.leafValues.length
    let mapping := nodeMapping b.nodes 0
    let splits ← fillSplits mapping b.nodes 0 (List.replicate inner none)
    pure (.ok ⟨splits, b.leafValues⟩)

/-- The index of a child in the compiler — forest_evaluator.cc:146-153. -/
def childIndex {C A : Type} (t : Tree C A) : Ref → Nat
  | .leaf i => i + t.splits.length
  | .split k => k

/-- The loop of `SetNode` — forest_evaluator.cc:144-157. -/
def addSplits {C A M : Type} (t : Tree C A) :
    List (SplitNode C) → Nat → Builder C M → Except CErr (Builder C M)
  | [], _, b => .ok b
  | n :: rest, id, b =>
    match setNode b id (childIndex t n.ifTrue) (childIndex t n.ifFalse) n.cond with
    | .error e => .error e
    | .ok b => addSplits t rest (id + 1) b

/-- The loop of `SetLeaf` — forest_evaluator.cc:158-161. -/
def addLeaves {C A M : Type} (t : Tree C A) (scale : A → A → M) :
    List A → Nat → Builder C M → Except CErr (Builder C M)
  | [], _, b => .ok b
  | a :: rest, i, b =>
    match setLeaf b (i + t.splits.length) (scale a t.weight) with
    | .error e => .error e
    | .ok b => addLeaves t scale rest (i + 1) b

/-- `AddTreeToRegularForestCompiler` followed by `Compile` for one tree — forest_evaluator.cc:137-163.  The node test of
a condition is the condition itself; binding it to slots succeeds for slots of the right types. -/
def compileRegular {C A M : Type} (scale : A → A → M) (t : Tree C A) : Option (Except CErr (Compact C M)) :=
  match addSplits t t.splits 0 (newBuilder C M (t.splits.length + t.adjustments.length)) with
  | .error e => some (.error e)
  | .ok b =>
    match addLeaves t scale t.adjustments 0 b with
    | .error e => some (.error e)
    | .ok b => b.compile

/-- `RootNodeId` — pointwise.h:116-118. -/
def Compact.root {N M : Type} (c : Compact N M) : Ref := if c.splits.isEmpty then .leaf 0 else .split 0

/-- `DecisionTreeTraverser::MakeStep` — pointwise.h:219-223. -/
def Compact.step {N M : Type} (c : Compact N M) (ev : N → Bool) : Ref → Option Ref
  | .leaf _ => none
  | .split k => do
    let s ← c.splits[k]?
    let s ← s
    pure (if ev s.test then s.ifTrue else s.ifFalse)

/-- `DecisionTreeTraverser::GetValue` — pointwise.h:225. -/
def Compact.value {N M : Type} (c : Compact N M) : Ref → Option M
  | .leaf i => c.adjustments[i]?
  | .split _ => none

/-- The loop of `SinglePredictor::Predict` — pointwise.h:246-250. -/
def predictLoop {N M : Type} (c : Compact N M) (ev : N → Bool) : Nat → Ref → Option M
  | _, .leaf i => c.value (.leaf i)
  | 0, .split _ => none
  | fuel + 1, .split k => do
    let r ← c.step ev (.split k)
    predictLoop c ev fuel r

/-- `SinglePredictor::Predict` — pointwise.h:244-251. -/
def predictSingle {N M : Type} (c : Compact N M) (ev : N → Bool) (fuel : Nat) : Option M :=
  predictLoop c ev fuel c.root

/-- The inner loop over `ids` in `BoostedPredictor::Predict` — pointwise.h:294-303: returns the kept ids, the traversers
and the accumulator. -/
def roundIds {N M : Type} (op : M → M → M) (ev : N → Bool) :
    List Nat → List (Compact N M × Ref) → M → Option (List Nat × List (Compact N M × Ref) × M)
  | [], travs, acc => some ([], travs, acc)
  | id :: rest, travs, acc => do
    let (c, r) ← travs[id]?
    match r with
    | .split k =>
      let r' ← c.step ev (.split k)
      let (ids, travs, acc) ← roundIds op ev rest (travs.set id (c, r')) acc
      pure (id :: ids, travs, acc)
    | .leaf i =>
      let v ← c.value (.leaf i)
      roundIds op ev rest travs (op acc v)

/-- The `while` loop — pointwise.h:293-305. -/
def rounds {N M : Type} (op : M → M → M) (ev : N → Bool) :
    Nat → List Nat → List (Compact N M × Ref) → M → Option M
  | _, [], _, acc => some acc
  | 0, _ :: _, _, _ => none
  | fuel + 1, id :: ids, travs, acc => do
    let (ids, travs, acc) ← roundIds op ev (id :: ids) travs acc
    rounds op ev fuel ids travs acc

/-- One batch: creation of the traversers and the `while` loop — pointwise.h:283-305. -/
def batch {N M G : Type} (op : M → M → M) (ev : N → Bool) (filter : G → Bool) (fuel : Nat)
    (trees : List (Compact N M × G)) (acc : M) : Option M :=
  let travs := (trees.filter fun p => filter p.2).map fun p => (p.1, p.1.root)
  rounds op ev fuel (List.range travs.length) travs acc

/-- `BoostedPredictor::Predict` — pointwise.h:273-308, in batches of 16 trees. -/
def predictBoosted {N M G : Type} (op : M → M → M) (ev : N → Bool) (filter : G → Bool) (fuel : Nat)
    (trees : List (Compact N M × G)) (acc : M) : Option M :=
  match trees with
  | [] => some acc
  | t :: rest => do
    let acc ← batch op ev filter fuel ((t :: rest).take 16) acc
    predictBoosted op ev filter fuel ((t :: rest).drop 16) acc
termination_by trees.length
decreasing_by simp; omega

end Verif.Forest
