import Verif.Forest.ForestModel

/-!
# Model of `arolla/decision_forest/s11n/codec.cc`: decision forests

* A message (`PForest`) is the content of `DecisionForestV1Proto.DecisionForest`; an absent optional field is the same as
  the default value of its type, as in the code.  An `int32` field is an integer, the encoder reduces to 32 bits.
* Floats (adjustments, weights, bounds of intervals) have an arbitrary type `F`: they are only copied.
* The values of a set condition are a set; it is represented by its sorted vector (`ValuesAsVector`).
* `none` is undefined behaviour: overflow of `int`.
-/

namespace Verif.FCodec

open Verif.Forest (NodeId Tag Err splitNodeId adjustmentId)

/-- A split condition; `other k` stands for a condition which is neither an interval nor a set of `int64_t`. -/
inductive Cond (F : Type) where
  | interval (input : Int) (left right : F)
  | setI64 (input : Int) (values : List Int) (ifMissed : Bool)
  | other (k : Nat)
  deriving DecidableEq, Repr

/-- `SplitNode` — decision_forest.h:95-100. -/
structure Split (F : Type) where
  ifFalse : NodeId
  ifTrue : NodeId
  cond : Cond F
  deriving DecidableEq, Repr

/-- `DecisionTree` — decision_forest.h:102-117. -/
structure Tree (F : Type) where
  splits : List (Split F)
  adjustments : List F
  weight : F
  tag : Tag
  deriving DecidableEq, Repr

/-- `DecisionForestV1Proto.NodeId`. -/
inductive PNode where
  | unset
  | split (i : Int)
  | adjustment (i : Int)
  deriving DecidableEq, Repr

/-- The oneof `condition` of `DecisionForestV1Proto.SplitNode`. -/
inductive PCond (F : Type) where
  | unset
  | interval (input : Int) (left right : F)
  | setI64 (input : Int) (values : List Int) (ifMissed : Bool)
  deriving DecidableEq, Repr

/-- `DecisionForestV1Proto.SplitNode`. -/
structure PSplit (F : Type) where
  ifFalse : PNode
  ifTrue : PNode
  cond : PCond F
  deriving DecidableEq, Repr

/-- `DecisionForestV1Proto.DecisionTree`. -/
structure PTree (F : Type) where
  splits : List (PSplit F)
  adjustments : List F
  weight : F
  step : Int
  submodel : Int
  deriving DecidableEq, Repr

abbrev PForest (F : Type) := List (PTree F)

/-- Conversion of an `int64_t` to `int32_t`. -/
def wrap32 (x : Int) : Int := (x + 2 ^ 31) % 2 ^ 32 - 2 ^ 31

/-- `NodeIdToProto` — codec.cc:59-66. -/
def nodeIdToProto (n : NodeId) : PNode :=
  if n.isLeaf then .adjustment (wrap32 (-n.val - 1)) else .split (wrap32 n.val)

/-- `SplitConditionToProto` — codec.cc:68-91; `none` is an error. -/
def condToProto {F : Type} : Cond F → Option (PCond F)
  | .interval input l r => some (.interval input l r)
  | .setI64 input vs d => some (.setI64 input vs d)
  | .other _ => none

/-- The loop over the split nodes of a tree — codec.cc:102-107. -/
def splitsToProto {F : Type} : List (Split F) → Option (List (PSplit F))
  | [] => some []
  | n :: rest =>
    match condToProto n.cond with
    | none => none
    | some c =>
      match splitsToProto rest with
      | none => none
      | some ps => some (⟨nodeIdToProto n.ifFalse, nodeIdToProto n.ifTrue, c⟩ :: ps)

/-- `DecisionForestToProto` — codec.cc:93-110. -/
def toProto {F : Type} : List (Tree F) → Option (PForest F)
  | [] => some []
  | t :: rest =>
    match splitsToProto t.splits with
    | none => none
    | some ps =>
      match toProto rest with
      | none => none
      | some ts => some (⟨ps, t.adjustments, t.weight, t.tag.step, t.tag.submodel⟩ :: ts)

/-- `NodeIdFromProto` — codec.cc:186-192; an absent id is read as `split_node_id() = 0`.  With an `int32` argument there
is no overflow in `AdjustmentId`. -/
def nodeIdFromProto : PNode → NodeId
  | .adjustment i => ⟨-i - 1⟩
  | .split i => splitNodeId i
  | .unset => splitNodeId 0

/-- Insertion into a sorted vector without repetitions. -/
def insertSorted (x : Int) : List Int → List Int
  | [] => [x]
  | y :: ys => if x < y then x :: y :: ys else if x = y then y :: ys else y :: insertSorted x ys

/-- The set of the values. -/
def toSet (vs : List Int) : List Int := vs.foldr insertSorted []

/-- `SplitConditionFromProto` — codec.cc:194-212; `none` is an error. -/
def condFromProto {F : Type} : PCond F → Option (Cond F)
  | .interval input l r => some (.interval input l r)
  | .setI64 input vs d => some (.setI64 input (toSet vs) d)
  | .unset => none

/-- The loop over the split nodes of a tree — codec.cc:226-232. -/
def splitsFromProto {F : Type} : List (PSplit F) → Option (List (Split F))
  | [] => some []
  | p :: rest =>
    match condFromProto p.cond with
    | none => none
    | some c =>
      match splitsFromProto rest with
      | none => none
      | some ns => some (⟨nodeIdFromProto p.ifFalse, nodeIdFromProto p.ifTrue, c⟩ :: ns)

/-- The loop over the trees — codec.cc:218-234. -/
def treesFromProto {F : Type} : PForest F → Option (List (Tree F))
  | [] => some []
  | p :: rest =>
    match splitsFromProto p.splits with
    | none => none
    | some ns =>
      match treesFromProto rest with
      | none => none
      | some ts => some (⟨ns, p.adjustments, p.weight, ⟨p.step, p.submodel⟩⟩ :: ts)

/-! ### `DecisionForest::Initialize` on the node ids themselves -/

/-- The types of the inputs of conditions which can be serialized. -/
inductive Ty where
  | optFloat32
  | optInt64
  | other (k : Nat)
  deriving DecidableEq, Repr

/-- `GetInputSignatures` — split_condition.h:111-113; `sigs` gives the inputs of the other conditions. -/
def signatures {F : Type} (sigs : Nat → List (Int × Ty)) : Cond F → List (Int × Ty)
  | .interval input _ _ => [(input, .optFloat32)]
  | .setI64 input _ _ => [(input, .optInt64)]
  | .other k => sigs k

/-- The test of a child — decision_forest.cc:159-164 and 165-170: the comparison is unsigned. -/
def childOk {F : Type} (t : Tree F) (n : NodeId) : Bool :=
  if n.isLeaf then decide (-n.val - 1 < t.adjustments.length) else decide (n.val < t.splits.length)

/-- The loop over the inputs of a condition — decision_forest.cc:173-179. -/
def addSigs : List (Int × Ty) → List (Int × Ty) → Except Err (List (Int × Ty))
  | [], req => .ok req
  | (id, q) :: rest, req =>
    match req.find? (fun e => e.1 == id) with
    | some e => if e.2 ≠ q then .error .types else addSigs rest req
    | none => addSigs rest (req ++ [(id, q)])

/-- The loop over the split nodes — decision_forest.cc:157-180. -/
def initNodes {F : Type} (sigs : Nat → List (Int × Ty)) (t : Tree F) :
    List (Split F) → List (Int × Ty) → Except Err (List (Int × Ty))
  | [], req => .ok req
  | n :: rest, req =>
    if ¬ (childOk t n.ifFalse && childOk t n.ifTrue) then .error .splitNode
    else match addSigs (signatures sigs n.cond) req with
      | .error e => .error e
      | .ok req => initNodes sigs t rest req

/-- What `Initialize` stores. -/
structure Meta where
  submodelCount : Int
  stepCount : Int
  required : List (Int × Ty)
  deriving DecidableEq, Repr

/-- `x + 1` on `int`. -/
def succ32 (x : Int) : Option Int := if x + 1 < 2 ^ 31 then some (x + 1) else none

/-- One tree — decision_forest.cc:146-180. -/
def initTree {F : Type} (sigs : Nat → List (Int × Ty)) (m : Meta) (t : Tree F) : Option (Except Err Meta) :=
  if t.tag.submodel < 0 then some (.error .negativeSubmodel)
  else if t.tag.step < 0 then some (.error .negativeStep)
  else match succ32 t.tag.submodel, succ32 t.tag.step with
    | some sub, some step =>
      if t.splits.length + 1 ≠ t.adjustments.length then some (.error .regions)
      else match initNodes sigs t t.splits m.required with
        | .error e => some (.error e)
        | .ok req => some (.ok ⟨max m.submodelCount sub, max m.stepCount step, req⟩)
    | _, _ => none

/-- `Initialize` — decision_forest.cc:137-186. -/
def initTrees {F : Type} (sigs : Nat → List (Int × Ty)) : List (Tree F) → Meta → Option (Except Err Meta)
  | [], m => some (.ok m)
  | t :: rest, m =>
    match initTree sigs m t with
    | none => none
    | some (.error e) => some (.error e)
    | some (.ok m) => initTrees sigs rest m

/-- `FromTrees` — decision_forest.cc:117-122. -/
def fromTrees {F : Type} (sigs : Nat → List (Int × Ty)) (trees : List (Tree F)) : Option (Except Err Meta) :=
  initTrees sigs trees ⟨0, 0, []⟩

inductive DErr where
  | condition
  | forest (e : Err)
  deriving DecidableEq, Repr

/-- `DecisionForestFromProto` — codec.cc:214-237. -/
def fromProto {F : Type} (sigs : Nat → List (Int × Ty)) (p : PForest F) : Option (Except DErr (List (Tree F) × Meta)) :=
  match treesFromProto p with
  | none => some (.error .condition)
  | some trees =>
    match fromTrees sigs trees with
    | none => none
    | some (.error e) => some (.error (.forest e))
    | some (.ok m) => some (.ok (trees, m))

end Verif.FCodec
