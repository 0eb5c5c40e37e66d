/-!
# Model of the statements in the text of an expression

`arolla/expr/expr_debug_string.cc`: `SelectStatementNodes` and the loop of `ToDebugString`.

* An expression is its nodes in post order; a node is what it has for a name annotation and the numbers of its inputs.
* The text of a line is a tree of operators, leaves and names of statements; the name of a statement is the number of its node (that names are
  different is C173).  The size of a line is the number of these parts.
-/

namespace Verif.DebugText

/-- Whether a node is a name annotation, and whether the name is safe — expr_debug_string.cc:87-91. -/
inductive Kind
  | plain
  | safeName
  | unsafeName
  deriving DecidableEq

/-- A node of the post order: the annotation and `dep_indices`. -/
structure Node where
  kind : Kind
  deps : List Nat

/-- `node_parent_count` — expr_debug_string.cc:56-61. -/
def parentCounts (nodes : List Node) : List Nat :=
  nodes.foldl (fun counts node => node.deps.foldl (fun c j => c.modify j (· + 1)) counts) (List.replicate nodes.length 0)

/-- One node of `SelectStatementNodes`: `acc` has the depth of each node before it and whether it is a statement —
expr_debug_string.cc:67-80. -/
def selectStep (counts : List Nat) (acc : List (Nat × Bool)) (node : Node) : List (Nat × Bool) :=
  let depth := node.deps.foldl (fun d j => max d (1 + ((acc[j]?).getD (0, false)).1)) 1
  let isStatement := node.kind ≠ .plain || (decide ((counts[acc.length]?).getD 0 > 1) && decide (depth ≥ 3))
  acc ++ [(if isStatement then 1 else depth, isStatement)]

/-- `SelectStatementNodes`: the depths and which nodes are statements — expr_debug_string.cc:53-83. -/
def select (nodes : List Node) : List (Nat × Bool) := nodes.foldl (selectStep (parentCounts nodes)) []

/-- One node of the loop of `ToDebugString`: the sizes of the tokens of the nodes before it and of the lines —
expr_debug_string.cc:284-300; the name of a statement is one part. -/
def textStep (statement : List (Nat × Bool)) (acc : List Nat × Nat) (node : Node) : List Nat × Nat :=
  let token := fun j => (acc.1[j]?).getD 0
  let text := 1 + (node.deps.map token).sum
  if !((statement[acc.1.length]?).getD (0, false)).2 then (acc.1 ++ [text], acc.2)
  else
    let line := if node.kind = .safeName then 1 + token (node.deps.headD 0) else 1 + text
    (acc.1 ++ [1], acc.2 + line)

/-- The size of the text: the lines and the token of the root — expr_debug_string.cc:271-303. -/
def textSize (nodes : List Node) : Nat :=
  let r := nodes.foldl (textStep (select nodes)) ([], 0)
  r.2 + r.1.getLastD 0

end Verif.DebugText
