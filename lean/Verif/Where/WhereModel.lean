import Verif.Where.ExtractModel
import Verif.Cfg.CfgModel

/-!
# Model of the extraction of branches in `arolla/expr/eval/compile_where_operator.cc`

`ExprDominatorTree`, `WhereOperatorTransformationImpl`, `WhereOperatorGlobalTransformation`.  A failed `DCHECK` (a node
without a registered id) is undefined behaviour: `none`.  Pointers to nodes are compared in two places; both compare a node
with itself or with one of its dependencies, where the pointers are equal iff the nodes are.  The recorder of stack traces is
not modelled.
-/

namespace Verif.Where
open Verif.Expr

variable {O V A E L : Type}

/-- The environment: the operators, the registry and the compiler.  `L` are compiled branches (`DynamicCompiledOperator`). -/
structure Env (O V A E L : Type) where
  lang : Lang O V A E
  /-- `DecayRegisteredOperator` and `HasAnnotationExprOperatorTag` -/
  anno : O → Except E Bool
  /-- `DecayRegisteredOperator` and `IsBackendOperator(op, "core._short_circuit_where")` -/
  shortWhere : O → Except E Bool
  /-- `core.where`, looked up, decayed, and checked to be a backend operator — compile_where_operator.cc:297-306 -/
  coreWhere : Except E O
  /-- `VerifyArgQTypes` — compile_where_operator.cc:148-169 -/
  verify : A → A → A → Except E Unit
  /-- `MakeLambdaOperator`, `MakeOpNode` (expr_utils.cc:106-111) and `DynamicCompiledOperator::Build` -/
  compile : Extracted O V A → Except E L
  /-- `PackedWhereOp::Create` -/
  pack : L → L → Except E O
  /-- the error for a wrong number of dependencies — compile_where_operator.cc:247-250 -/
  arityError : E
  /-- the error for annotations that are not on a leaf — compile_where_operator.cc:270-273 -/
  annoError : E

/-- `ExprDominatorTree` — compile_where_operator.cc:140-145. -/
structure Tree (O V A : Type) where
  g : Cfg.Cfg
  t : Cfg.DTree
  idx : List (Expr O V A × Nat)

/-- `ToAcyclicCfgId` — compile_where_operator.cc:123-125; only called with `i < num_nodes`. -/
def toCfgId (numNodes i : Nat) : Nat := numNodes - 1 - i

section
variable [DecidableEq O] [DecidableEq V] [DecidableEq A]

/-- The loop of `Build`; `k` nodes are left — compile_where_operator.cc:76-82. -/
def buildLoop (po : PostOrder O V A) : Nat → Nat → List (List Int) → Option (List (List Int))
  | 0, _, deps => some deps
  | k + 1, i, deps =>
    match po.depIndices i with
    | none => none
    | some ix =>
      buildLoop po k (i + 1)
        (deps.set (toCfgId po.nodes.length i) (ix.map (fun j => (toCfgId po.nodes.length j : Int))))

/-- `ExprDominatorTree::Build` — compile_where_operator.cc:70-87. -/
def Tree.build (po : PostOrder O V A) : Option (Except String (Tree O V A)) :=
  match buildLoop po po.nodes.length 0 (List.replicate po.nodes.length []) with
  | none => none
  | some deps =>
    match Cfg.create deps with
    | .error e => some (.error e)
    | .ok g =>
      match Cfg.dominatorTree g with
      | none => none
      | some t => some (.ok ⟨g, t, po.idx⟩)

/-- `GetNodeId` — compile_where_operator.cc:127-132. -/
def Tree.nodeId (T : Tree O V A) (n : Expr O V A) : Option Nat := (lookup T.idx n).map (toCfgId T.g.numNodes)

/-- `StrictlyDominates` — compile_where_operator.cc:92-97. -/
def Tree.strictlyDominates (T : Tree O V A) (descendant ancestor : Expr O V A) : Option Bool := do
  let d ← T.nodeId descendant
  let a ← T.nodeId ancestor
  some (decide ((← T.t.depth[d]?) > (← T.t.depth[a]?)))

/-- `HasSingleParentInExprDag` — compile_where_operator.cc:102-105. -/
def Tree.hasSingleParent (T : Tree O V A) (n : Expr O V A) : Option Bool := do
  let i ← T.nodeId n
  some (decide ((← T.g.rdeps[i]?).length = 1))

/-- `AddNodeAlias` — compile_where_operator.cc:109-118. -/
def Tree.addAlias (T : Tree O V A) (newNode oldNode : Expr O V A) : Option (Tree O V A) :=
  match lookup T.idx oldNode with
  | none => none
  | some i => some { T with idx := emplace T.idx newNode i }

/-- `IsAnnotation` — annotation_utils.cc:41-47. -/
def isAnnotation (anno : O → Except E Bool) (n : Expr O V A) : Except E Bool :=
  if n.deps = [] then .ok false
  else match n.label with
    | .op o => anno o
    | _ => .ok false

/-- `StripTopmostAnnotations` — annotation_utils.cc:49-57; with fuel, the depth of a node is less than its size. -/
def stripLoop (anno : O → Except E Bool) : Nat → Expr O V A → Option (Except E (Expr O V A))
  | 0, _ => none
  | fuel + 1, n =>
    match isAnnotation anno n with
    | .error e => some (.error e)
    | .ok false => some (.ok n)
    | .ok true =>
      match n.deps[0]? with
      | none => none
      | some d => stripLoop anno fuel d

/-- `is_leaf()`. -/
def isLeaf (n : Expr O V A) : Bool :=
  match n.label with
  | .leaf _ => true
  | _ => false

/-- `is_literal()`. -/
def isLiteral (n : Expr O V A) : Bool :=
  match n.label with
  | .literal _ => true
  | _ => false

/-- `must_be_short_circuited(branch_root)(n)` — compile_where_operator.cc:260-286. -/
def inLambda (env : Env O V A E L) (T : Tree O V A) (branch n : Expr O V A) : Option (Except E Bool) :=
  match stripLoop env.anno n.size n with
  | none => none
  | some (.error e) => some (.error e)
  | some (.ok s) =>
    if isLeaf s then some (.ok false)
    else if s ≠ n then some (.error env.annoError)
    else if isLiteral n then some (.ok false)
    else if n = branch then (T.hasSingleParent n).map .ok
    else (T.strictlyDominates s branch).map .ok

/-- Extraction and compilation of one branch — compile_where_operator.cc:322-330, 331-339. -/
def branchOp (env : Env O V A E L) (T : Tree O V A) (b : Expr O V A) : Option (Except E (Extracted O V A × L)) :=
  match extractLambda env.lang b (inLambda env T b) with
  | none => none
  | some (.error e) => some (.error e)
  | some (.ok x) =>
    match env.compile x with
    | .error e => some (.error e)
    | .ok l => some (.ok (x, l))

/-- The packed operator — compile_where_operator.cc:322-351. -/
def packBranches (env : Env O V A E L) (T : Tree O V A) (c t f : Expr O V A) : Option (Except E (Expr O V A)) :=
  match branchOp env T t with
  | none => none
  | some (.error e) => some (.error e)
  | some (.ok (xt, lt)) =>
    match branchOp env T f with
    | none => none
    | some (.error e) => some (.error e)
    | some (.ok (xf, lf)) =>
      match env.pack lt lf with
      | .error e => some (.error e)
      | .ok o => some (env.lang.mkOp o ([c] ++ xt.args ++ xf.args))

/-- A node with the operator `core._short_circuit_where` — compile_where_operator.cc:252-351. -/
def whereNode (env : Env O V A E L) (T : Tree O V A) (c t f : Expr O V A) : Option (Except E (Expr O V A)) :=
  match env.verify c.attr t.attr f.attr with
  | .error e => some (.error e)
  | .ok _ =>
    match inLambda env T t t with
    | none => none
    | some (.error e) => some (.error e)
    | some (.ok bt) =>
      match inLambda env T f f with
      | none => none
      | some (.error e) => some (.error e)
      | some (.ok bf) =>
        if !bt && !bf then
          match env.coreWhere with
          | .error e => some (.error e)
          | .ok o => some (env.lang.mkOp o [c, t, f])
        else packBranches env T c t f

/-- Whether a node is a `core._short_circuit_where` node; `op()` of other nodes is null. -/
def isShortWhere (env : Env O V A E L) (n : Expr O V A) : Except E Bool :=
  match n.label with
  | .op o => env.shortWhere o
  | _ => .ok false

/-- `WhereOperatorTransformationImpl` — compile_where_operator.cc:237-352. -/
def transformImpl (env : Env O V A E L) (T : Tree O V A) (n : Expr O V A) : Option (Except E (Expr O V A)) :=
  match isShortWhere env n with
  | .error e => some (.error e)
  | .ok false => some (.ok n)
  | .ok true =>
    match n.deps with
    | [c, t, f] => whereNode env T c t f
    | _ => some (.error env.arityError)

/-- One call of the visitor in `WhereOperatorGlobalTransformation` — compile_where_operator.cc:374-392. -/
def visitNode (env : Env O V A E L) (T : Tree O V A) (n : Expr O V A) (args : List (Expr O V A)) :
    Option (Except E (Expr O V A × Tree O V A)) :=
  match env.lang.withNewDeps n args with
  | .error e => some (.error e)
  | .ok m =>
    match transformImpl env T m with
    | none => none
    | some (.error e) => some (.error e)
    | some (.ok r) =>
      match T.addAlias r n with
      | none => none
      | some T' => some (.ok (r, T'))

/-- The first `k` calls of the visitor by `PostOrderTraverse` (expr_visitor.h:193-208): the results, and the state of the
tree. -/
def steps (env : Env O V A E L) (po : PostOrder O V A) (T : Tree O V A) :
    Nat → Option (Except E (List (Expr O V A) × Tree O V A))
  | 0 => some (.ok ([], T))
  | k + 1 =>
    match steps env po T k with
    | none => none
    | some (.error e) => some (.error e)
    | some (.ok (results, T)) =>
      match po.nodes[k]?, po.depIndices k with
      | some n, some ix =>
        match gather results ix with
        | none => none
        | some args =>
          match visitNode env T n args with
          | none => none
          | some (.error e) => some (.error e)
          | some (.ok (r, T')) => some (.ok (results ++ [r], T'))
      | _, _ => none

/-- The search for a `core._short_circuit_where` node — compile_where_operator.cc:358-365. -/
def anyShortWhere (env : Env O V A E L) : List (Expr O V A) → Except E Bool
  | [] => .ok false
  | n :: ns =>
    match isShortWhere env n with
    | .error e => .error e
    | .ok true => .ok true
    | .ok false => anyShortWhere env ns

/-- `WhereOperatorGlobalTransformation` — compile_where_operator.cc:354-393; `cfgError` converts the message of
`AcyclicCFG::Create`. -/
def globalTransform (env : Env O V A E L) (cfgError : String → E) (root : Expr O V A) : Option (Except E (Expr O V A)) :=
  match postOrder root with
  | none => none
  | some po =>
    match anyShortWhere env po.nodes with
    | .error e => some (.error e)
    | .ok false => some (.ok root)
    | .ok true =>
      match Tree.build po with
      | none => none
      | some (.error m) => some (.error (cfgError m))
      | some (.ok T) =>
        match steps env po T po.nodes.length with
        | none => none
        | some (.error e) => some (.error e)
        | some (.ok (results, _)) => results.getLast?.map .ok

end
end Verif.Where
