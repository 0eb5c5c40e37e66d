import Verif.Expr.ExprModel

/-!
# Model of lambda operators

`arolla/expr/lambda_expr_operator.cc`, `ToLowerNode` in `arolla/expr/expr.cc`, `ValidateDepsCount` in
`arolla/expr/expr_operator_signature.cc`.

Nodes, post orders and `WithNewDependencies` are those of `Verif.Expr`.  Error messages and notes are not modelled; `O` are the
operators, `V` the values, `Q` the qtypes, `E` the errors of operators.
-/

namespace Verif.Lambda
open Verif.Expr

/-- `ExprAttributes` — expr_attributes.h:42-123; values are compared by fingerprints, which is equality. -/
structure Attr (Q W : Type) where
  qtype : Option Q
  qvalue : Option W
  deriving DecidableEq, Repr

variable {O V Q E : Type}

/-- `IsEmpty` — expr_attributes.h:94. -/
def Attr.isEmpty (a : Attr Q V) : Bool := a.qtype.isNone

/-- `IsSubsetOf` — expr_attributes.h:109-118. -/
def Attr.isSubsetOf [DecidableEq Q] [DecidableEq V] (a b : Attr Q V) : Bool :=
  if a.qtype.isSome ∧ a.qtype ≠ b.qtype then false
  else if a.qvalue.isNone then true
  else b.qvalue.isSome ∧ a.qvalue = b.qvalue

/-- An expression node. -/
abbrev Node (O V Q : Type) := Expr O V (Attr Q V)

/-- Errors: of `Make`, of operators, of the number of dependencies. -/
inductive Err (E : Type)
  | signature | leaf | placeholderDeps | placeholderTwice | missingParam | depsCount | attrChanged
  | op (e : E)
  deriving DecidableEq

/-- `LambdaOperator` — lambda_expr_operator.h; the signature is given by the names of the parameters and whether the last one is
variadic; `none` in `paramIndices` is `std::numeric_limits<size_t>::max()`. -/
structure LambdaOp (O V Q : Type) where
  params : List (List Nat)
  variadic : Bool
  body : PostOrder O V (Attr Q V)
  paramIndices : List (Option Nat)

/-- `is_leaf()`. -/
def isLeaf (n : Node O V Q) : Bool := (leafKey n).isSome

/-- `is_placeholder()`. -/
def isPlaceholder (n : Node O V Q) : Bool := (placeholderKey n).isSome

/-- The loop over the nodes with the set of keys — lambda_expr_operator.cc:78-85. -/
def keysUnique : List (Node O V Q) → List (List Nat) → Bool
  | [], _ => true
  | n :: ns, seen =>
    match placeholderKey n with
    | none => keysUnique ns seen
    | some k => if k ∈ seen then false else keysUnique ns (k :: seen)

/-- `ValidateLambdaBody` — lambda_expr_operator.cc:59-87. -/
def validateBody (nodes : List (Node O V Q)) : Except (Err E) Unit :=
  if nodes.any isLeaf then .error .leaf
  else if nodes.any (fun n => isPlaceholder n && !n.deps.isEmpty) then .error .placeholderDeps
  else if keysUnique nodes [] then .ok ()
  else .error .placeholderTwice

/-- The loop in `Make` over the placeholders of the body — lambda_expr_operator.cc:142-153. -/
def paramsKnown (params : List (List Nat)) (nodes : List (Node O V Q)) : Bool :=
  nodes.all (fun n => match placeholderKey n with
    | none => true
    | some k => params.contains k)

/-- `sig_param_indices.at(key)` — lambda_expr_operator.cc:172-176: later parameters replace earlier ones; `none` throws. -/
def sigIndex (key : List Nat) : List (List Nat) → Nat → Option Nat
  | [], _ => none
  | p :: ps, i =>
    match sigIndex key ps (i + 1) with
    | some j => some j
    | none => if p = key then some i else none

/-- `v[i] = x`. -/
def setAt {T : Type} (l : List T) (i : Nat) (x : T) : Option (List T) := if i < l.length then some (l.set i x) else none

/-- The loop over the nodes in the constructor — lambda_expr_operator.cc:181-186. -/
def indexLoop (params : List (List Nat)) : List (Node O V Q) → Nat → List (Option Nat) → Option (List (Option Nat))
  | [], _, ix => some ix
  | n :: ns, i, ix =>
    match placeholderKey n with
    | none => indexLoop params ns (i + 1) ix
    | some k =>
      match sigIndex k params 0 with
      | none => none
      | some j =>
        match setAt ix j (some i) with
        | none => none
        | some ix => indexLoop params ns (i + 1) ix

section
variable [DecidableEq O] [DecidableEq V] [DecidableEq Q]

/-- `LambdaOperator::Make` and the constructor — lambda_expr_operator.cc:128-187; of the validation of the signature only the
names and the position of the variadic parameter are modelled; see `Verif.Sig` for the rest. -/
def make (params : List (List Nat)) (variadic : Bool) (body : Node O V Q) : Option (Except (Err E) (LambdaOp O V Q)) :=
  if ¬ params.Nodup ∨ (variadic = true ∧ params = []) then some (.error .signature)
  else match postOrder body with
    | none => none
    | some po =>
      match (validateBody po.nodes : Except (Err E) Unit) with
      | .error e => some (.error e)
      | .ok () =>
        if paramsKnown params po.nodes then
          match indexLoop params po.nodes 0 (List.replicate params.length none) with
          | none => none
          | some ix => some (.ok ⟨params, variadic, po, ix⟩)
        else some (.error .missingParam)

end

/-- `ValidateDepsCount` — expr_operator_signature.cc:205-220. -/
def depsCountOk (L : LambdaOp O V Q) (count : Nat) : Bool :=
  let required := if L.variadic then L.params.length - 1 else L.params.length
  !(count < required || (!L.variadic && count > required))

/-- The loop setting the results for all parameters but the last — lambda_expr_operator.cc:209-213, 273-277. -/
def presetLoop {T X : Type} (wr : X → T) : List (Option Nat) → List X → List T → Option (List T)
  | [], _, res => some res
  | none :: ix, inputs, res => presetLoop wr ix inputs.tail res
  | some _ :: _, [], _ => none
  | some k :: ix, x :: inputs, res =>
    match setAt res k (wr x) with
    | none => none
    | some res => presetLoop wr ix inputs res

/-- The results for the parameters; `tuple` is `WrapAsTuple` — lambda_expr_operator.cc:207-223, 272-286. -/
def preset {T X : Type} (wr : X → T) (L : LambdaOp O V Q) (tuple : List X → Except (Err E) X) (inputs : List X)
    (res : List T) : Option (Except (Err E) (List T)) :=
  match L.paramIndices.getLast? with
  | none => some (.ok res)
  | some last =>
    match presetLoop wr L.paramIndices.dropLast inputs res with
    | none => none
    | some res =>
      match last with
      | none => some (.ok res)
      | some k =>
        if L.variadic then
          if inputs.length < L.paramIndices.length - 1 then none
          else match tuple (inputs.drop (L.paramIndices.length - 1)) with
            | .error e => some (.error e)
            | .ok t => (setAt res k (wr t)).map .ok
        else match inputs.getLast? with
          | none => none
          | some x => (setAt res k (wr x)).map .ok

/-- `deps[j] = result[dep_indices[j]]`; `rd` gives `none` for a null pointer, whose use would be undefined. -/
def readAll {T X : Type} (rd : T → Option X) : List T → Option (List X)
  | [] => some []
  | t :: ts =>
    match rd t with
    | none => none
    | some x => (readAll rd ts).map (x :: ·)

/-- The loop over the nodes of the body in `ToLowerLevel` and `InferAttributes` with the way `step` to compute the result of a
node which is not a placeholder — lambda_expr_operator.cc:224-264, 288-306; the first argument is the number of nodes left. -/
def bodyLoop {T X : Type} (rd : T → Option X) (wr : X → T) (po : PostOrder O V (Attr Q V))
    (step : Nat → Node O V Q → List X → Except (Err E) X) : Nat → Nat → List T → Option (Except (Err E) (List T))
  | 0, _, res => some (.ok res)
  | m + 1, i, res =>
    match po.nodes[i]? with
    | none => none
    | some n =>
      match placeholderKey n with
      | some _ => bodyLoop rd wr po step m (i + 1) res
      | none =>
        match po.depIndices i with
        | none => none
        | some ix =>
          match gather res ix with
          | none => none
          | some ts =>
            match readAll rd ts with
            | none => none
            | some args =>
              match step i n args with
              | .error e => some (.error e)
              | .ok x =>
                match setAt res i (wr x) with
                | none => none
                | some res => bodyLoop rd wr po step m (i + 1) res

/-- `results.back()`. -/
def backOf {T X : Type} (rd : T → Option X) : Option (Except (Err E) (List T)) → Option (Except (Err E) X)
  | none => none
  | some (.error e) => some (.error e)
  | some (.ok res) => (res.getLast?.bind rd).map .ok

/-- Errors of operators. -/
def liftErr {X : Type} : Except E X → Except (Err E) X
  | .error e => .error (.op e)
  | .ok x => .ok x

/-- One node in `InferAttributes` — lambda_expr_operator.cc:293-305; a node without value is an operator. -/
def inferStep (G : Lang O V (Attr Q V) E) (_ : Nat) (n : Node O V Q) (args : List (Attr Q V)) :
    Except (Err E) (Attr Q V) :=
  if n.attr.qvalue.isSome then .ok n.attr
  else match n.label with
    | .op o => liftErr (G.infer o args)
    | _ => .ok n.attr

/-- `LambdaOperator::InferAttributes` — lambda_expr_operator.cc:268-308; `tupleAttr` is
`MakeTupleOperator::StaticInferAttributes`. -/
def inferAttributes (G : Lang O V (Attr Q V) E) (tupleAttr : List (Attr Q V) → Attr Q V) (L : LambdaOp O V Q)
    (inputs : List (Attr Q V)) : Option (Except (Err E) (Attr Q V)) :=
  if depsCountOk L inputs.length then
    match preset id L (fun as => (.ok (tupleAttr as) : Except (Err E) (Attr Q V))) inputs
        (List.replicate L.body.nodes.length ⟨none, none⟩) with
    | none => none
    | some (.error e) => some (.error e)
    | some (.ok res) => backOf some (bodyLoop some id L.body (inferStep G) L.body.nodes.length 0 res)
  else some (.error .depsCount)

section
variable [DecidableEq O] [DecidableEq V] [DecidableEq Q]

/-- One node in `ToLowerLevel` — lambda_expr_operator.cc:229-263.  The last node takes the attributes of the lambda node if they
are not empty; `size` is the number of nodes.  The check in debug mode is not modelled. -/
def lowerStep (G : Lang O V (Attr Q V) E) (size : Nat) (nodeAttr : Attr Q V) (i : Nat) (n : Node O V Q)
    (deps : List (Node O V Q)) : Except (Err E) (Node O V Q) :=
  match n.label with
  | .op o =>
    if i + 1 < size ∨ nodeAttr.isEmpty then liftErr (G.withNewDeps n deps)
    else .ok (.mk (.op o) nodeAttr deps)
  | _ => .ok n

/-- `LambdaOperator::ToLowerLevel` — lambda_expr_operator.cc:203-266; `tupleOp` is `MakeTupleOperator::Make()`. -/
def toLowerLevel (G : Lang O V (Attr Q V) E) (tupleOp : O) (L : LambdaOp O V Q) (node : Node O V Q) :
    Option (Except (Err E) (Node O V Q)) :=
  if depsCountOk L node.deps.length then
    match preset some L (fun fields => liftErr (G.mkOp tupleOp fields)) node.deps
        (List.replicate L.body.nodes.length none) with
    | none => none
    | some (.error e) => some (.error e)
    | some (.ok res) =>
      backOf id (bodyLoop id some L.body (lowerStep G L.body.nodes.length node.attr) L.body.nodes.length 0 res)
  else some (.error .depsCount)

/-- `ToLowerNode` for a node with a lambda operator — expr.cc:47-65. -/
def toLowerNode (G : Lang O V (Attr Q V) E) (tupleOp : O) (L : LambdaOp O V Q) (node : Node O V Q) :
    Option (Except (Err E) (Node O V Q)) :=
  match toLowerLevel G tupleOp L node with
  | none => none
  | some (.error e) => some (.error e)
  | some (.ok r) => if node.attr.isSubsetOf r.attr then some (.ok r) else some (.error .attrChanged)

end

end Verif.Lambda
