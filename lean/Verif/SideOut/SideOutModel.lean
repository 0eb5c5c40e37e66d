/-!
# Model of `ExtractSideOutputs`

`arolla/expr/eval/side_output.cc`, with the loop of `TransformOnPostOrder` (`arolla/expr/expr_visitor.h`).  The expression is given by
its post order: each node is an operator (or a leaf or literal, without inputs) with the positions of its inputs.  Whether a node is an
export annotation is part of the operator; that `MakeOpNode` can fail for the new inputs of a node is not modelled.  `results[k]` is null
in the code if the node is unchanged; here it is the node.
-/

namespace Verif.SideOut

/-- The operator of a node; annotations with their tag, the text in `node_deps()[1]` — annotation_utils.cc:92-105, 129-137. -/
inductive Op
  | plain (k : Nat)
  | exp (tag : String)
  | expValue (tag : String)
  deriving DecidableEq

/-- A node of the post order: the operator and `dep_indices`. -/
structure Node where
  op : Op
  deps : List Nat

/-- `ExprNode` -/
inductive Tree
  | node (op : Op) (args : List Tree)

/-- The inputs of a node — expr_visitor.h:264-273. -/
def inputs (results : List Tree) (deps : List Nat) : Option (List Tree) := deps.mapM (results[·]?)

/-- `IsExportAnnotation` with `ReadExportAnnotationTag` and `ReadExportAnnotationValue`: the tag, the annotated expression and the
exported value — annotation_utils.cc:92-105, 129-151. -/
def readExport : Op → List Tree → Option (String × Tree × Tree)
  | .exp tag, [x, _] => some (tag, x, x)
  | .expValue tag, [x, _, v] => some (tag, x, v)
  | _, _ => none

/-- `results`, `side_outputs`. -/
abbrev Acc := List Tree × List (String × Tree)

/-- What can be wrong. -/
inductive Err
  | duplicated (tag : String)
  /-- A position in `dep_indices` that is not before the node. -/
  | badIndex
  deriving DecidableEq

/-- One iteration: the transformation of a node — side_output.cc:47-67, expr_visitor.h:256-288. -/
def extractStep (acc : Acc) (n : Node) : Except Err Acc :=
  match inputs acc.1 n.deps with
  | none => .error .badIndex
  | some args =>
    match readExport n.op args with
    | none => .ok (acc.1 ++ [.node n.op args], acc.2)
    | some (tag, x, v) =>
      if acc.2.any (·.1 == tag) then .error (.duplicated tag)
      else .ok (acc.1 ++ [x], acc.2 ++ [(tag, v)])

/-- The loop — expr_visitor.h:255-289. -/
def extractLoop : List Node → Acc → Except Err Acc
  | [], acc => .ok acc
  | n :: rest, acc =>
    match extractStep acc n with
    | .error e => .error e
    | .ok acc => extractLoop rest acc

/-- `ExtractSideOutputs` for an expression with this post order: the expression and the side outputs — side_output.cc:41-69. -/
def extractSideOutputs (nodes : List Node) : Except Err (Option Tree × List (String × Tree)) :=
  match extractLoop nodes ([], []) with
  | .error e => .error e
  | .ok (results, side) => .ok (results.getLast?, side)

end Verif.SideOut
