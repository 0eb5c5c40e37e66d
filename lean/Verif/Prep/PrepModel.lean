import Verif.Expr.DeepModel

/-!
# Model of `arolla/expr/eval/prepare_expression.cc` — expression preparation

Operators that live elsewhere are parameters: lowering (`ToLowerLevel`), evaluation of a constant node (`Invoke`), casting, the
optimizer, compiler extensions and the global `where` transformation.  Stack traces and the texts of errors are left out.
-/

namespace Verif.Prep
open Verif.Expr

/-- `ExprAttributes` — expr_attributes.h:39-125. -/
structure Attr (Q V : Type) where
  qtype : Option Q
  qvalue : Option V
deriving DecidableEq, Repr

/-- `ExprAttributes::IsSubsetOf` — expr_attributes.h:109-118. -/
def Attr.isSubsetOf {Q V : Type} [DecidableEq Q] [DecidableEq V] (a b : Attr Q V) : Bool :=
  if a.qtype ≠ none ∧ a.qtype ≠ b.qtype then false
  else match a.qvalue with
    | none => true
    | some v => match b.qvalue with
      | none => false
      | some w => v = w

/-- The errors of this file, and errors from elsewhere. -/
inductive Err (E : Type) where
  /-- missing QType information for inputs — line 115 -/
  | missing (keys : List (List Nat))
  /-- inconsistent qtype annotation and input qtype — line 180 -/
  | inconsistent
  /-- attributes changed in ToLower — line 256 -/
  | lowerAttr
  /-- invalid annotation: expected at least 1 argument — line 274 -/
  | noArgs
  /-- attributes changed during compilation — line 306 -/
  | attrChanged
  /-- only operator nodes can have dependencies — expr.cc:155 -/
  | deps
  /-- different QTypes found for the same Expr — line 464 -/
  | mismatch
  /-- unexpected annotation in a prepared expression — line 506 -/
  | unexpected
  /-- unknown QType for node — line 546 -/
  | unknown
  /-- `annotation.qtype` with wrong arguments — annotation_expr_operators.cc:81-91 -/
  | badAnno
  /-- placeholders should be substituted before evaluation — eval.cc:91 -/
  | placeholders
  | other (e : E)
deriving DecidableEq, Repr

/-- A node with its attributes. -/
abbrev Node (O V Q : Type) := Expr O V (Attr Q V)

/-- What the preparation uses. -/
structure Env (O V Q E : Type) where
  /-- `TypedValue::GetType` -/
  typeOf : V → Q
  /-- `TypedValue::FromValue(qtype)` -/
  ofQType : Q → V
  /-- the `QTypePtr` in a value of type `QTYPE` -/
  asQType : V → Option Q
  /-- `ExprOperator::InferAttributes` -/
  infer : O → List (Attr Q V) → Except (Err E) (Attr Q V)
  /-- `DecayRegisteredOperator` -/
  decay : O → Except (Err E) O
  /-- `IsInstanceOf<QTypeAnnotation>` -/
  isQTypeAnno : O → Bool
  /-- `HasAnnotationExprOperatorTag` -/
  isAnno : O → Bool
  /-- `QTypeAnnotation::Make()` -/
  qtypeAnno : O
  /-- `InternalRootOperator()` -/
  rootOp : O
  /-- `ToLowerLevel` -/
  lower : O → Node O V Q → Except (Err E) (Node O V Q)
  /-- `Invoke(node, {}, invoke_options)` -/
  invoke : Node O V Q → Except (Err E) V
  /-- `CastingTransformation` -/
  casting : Node O V Q → Option O → Except (Err E) (Node O V Q)
  /-- `options.optimizer` -/
  optimizer : Option (Node O V Q → Except (Err E) (Node O V Q))
  /-- `node_transformation_fn` of the compiler extensions -/
  extension : Node O V Q → Option O → Except (Err E) (Node O V Q)
  /-- `WhereOperatorGlobalTransformation` -/
  whereFn : Node O V Q → Except (Err E) (Node O V Q)

/-- `DynamicEvaluationEngineOptions::enabled_preparation_stages` — eval.h:39-56. -/
structure Stages where
  populateQTypes : Bool
  toLower : Bool
  literalFolding : Bool
  stripAnnotations : Bool
  casting : Bool
  optimization : Bool
  extensions : Bool
  whereOps : Bool
  embedLiterals : Bool

variable {O V Q E : Type} [DecidableEq O] [DecidableEq V] [DecidableEq Q]

/-- `ExprAttributes{}` -/
def noAttr : Attr Q V := ⟨none, none⟩

/-- `ExprAttributes(qvalue)` -/
def Env.litAttr (env : Env O V Q E) (v : V) : Attr Q V := ⟨some (env.typeOf v), some v⟩

/-- The construction of nodes in this language. -/
def Env.lang (env : Env O V Q E) : Lang O V (Attr Q V) (Err E) := ⟨noAttr, env.litAttr, env.infer, .deps⟩

/-- `Literal(value)` — expr.h:66-69. -/
def Env.literal (env : Env O V Q E) (v : V) : Node O V Q := .mk (.literal v) (env.litAttr v) []

/-- `QTypeAnnotation::InferAttributes` — annotation_expr_operators.cc:79-93. -/
def Env.inferQTypeAnno (env : Env O V Q E) : List (Attr Q V) → Except (Err E) (Attr Q V)
  | [a, t] =>
    if t.qtype = none then .ok a
    else match t.qvalue with
      | none => .error .badAnno
      | some v => match env.asQType v with
        | none => .error .badAnno
        | some q => if a.qtype ≠ none ∧ a.qtype ≠ some q then .error .badAnno else .ok ⟨some q, a.qvalue⟩
  | _ => .error .badAnno

/-- `DecayRegisteredOperator(node->op())`; the operator of a leaf, placeholder or literal is null. -/
def Env.decayOf (env : Env O V Q E) (n : Node O V Q) : Except (Err E) (Option O) :=
  match n.label with
  | .op o => match env.decay o with
    | .error e => .error e
    | .ok o => .ok (some o)
  | _ => .ok none

/-- `is_leaf()`. -/
def isLeaf (n : Node O V Q) : Bool :=
  match n.label with
  | .leaf _ => true
  | _ => false

/-- `is_literal()`. -/
def isLiteral (n : Node O V Q) : Bool :=
  match n.label with
  | .literal _ => true
  | _ => false

/-- `IsQTypeAnnotation` — annotation_utils.cc:72-78. -/
def Env.isQTypeAnnotation (env : Env O V Q E) (n : Node O V Q) : Bool :=
  if n.deps.length ≠ 2 then false
  else match env.decayOf n with
    | .ok (some o) => env.isQTypeAnno o
    | _ => false

/-- `ReadQTypeAnnotation` — annotation_utils.cc:107-118. -/
def Env.readQTypeAnnotation (env : Env O V Q E) (n : Node O V Q) : Option Q :=
  if env.isQTypeAnnotation n then
    match n.deps with
    | [_, t] => match t.attr.qvalue with
      | some v => env.asQType v
      | none => none
    | _ => none
  else none

/-- `AllDepsAreLiterals` — lines 88-95. -/
def allDepsAreLiterals (n : Node O V Q) : Bool := n.deps.all (fun d => d.attr.qvalue.isSome)

/-- `std::set<std::string>`: the distinct keys in order. -/
def keySet (ks : List (List Nat)) : List (List Nat) := sortKeys ks.eraseDups

/-- `MissingInputTypesError` — lines 97-118; the text of the error is left out. -/
def Env.missingInputTypes (env : Env O V Q E) (inputTypes : List Nat → Option Q) (root : Node O V Q) : Err E :=
  match visitorOrder root with
  | none => .missing []
  | some nodes =>
    let missing (n : Node O V Q) : Option (List Nat) :=
      match n.label with
      | .leaf k => if (inputTypes k).isSome then none else some k
      | _ => none
    .missing (keySet (nodes.flatMap (fun n =>
      if !n.isOp || env.isQTypeAnnotation n then [] else n.deps.filterMap missing) ++ (missing root).toList))

/-- `EmbedLiteralsTransformation` — lines 124-132. -/
def Env.embedLiterals (env : Env O V Q E) (node : Node O V Q) (_ : Option O) : Except (Err E) (Node O V Q) :=
  match isLiteral node, node.attr.qvalue with
  | false, some v => .ok (env.literal v)
  | _, _ => .ok node

/-- `AnnotateLeafWithQType` — lines 136-147. -/
def Env.annotateLeaf (env : Env O V Q E) (leaf : Node O V Q) (inputTypes : List Nat → Option Q) (root : Node O V Q) :
    Except (Err E) (Node O V Q) :=
  match leaf.label with
  | .leaf k =>
    match inputTypes k with
    | none => .error (env.missingInputTypes inputTypes root)
    | some q => .ok (.mk (.op env.qtypeAnno) ⟨some q, none⟩ [leaf, env.literal (env.ofQType q)])
  | _ => .ok leaf

/-- The loop over `new_deps` — lines 207-212. -/
def Env.annotateDeps (env : Env O V Q E) (inputTypes : List Nat → Option Q) (root : Node O V Q) :
    List (Node O V Q) → Except (Err E) (List (Node O V Q))
  | [] => .ok []
  | d :: ds =>
    if isLeaf d then
      match env.annotateLeaf d inputTypes root with
      | .error e => .error e
      | .ok d => match env.annotateDeps inputTypes root ds with
        | .error e => .error e
        | .ok ds => .ok (d :: ds)
    else match env.annotateDeps inputTypes root ds with
      | .error e => .error e
      | .ok ds => .ok (d :: ds)

/-- The end of `PopulateQTypesTransformation` — lines 194-217. -/
def Env.annotateNode (env : Env O V Q E) (inputTypes : List Nat → Option Q) (root node : Node O V Q) :
    Except (Err E) (Node O V Q) :=
  if !node.deps.any isLeaf then .ok node
  else match env.annotateDeps inputTypes root node.deps with
    | .error e => .error e
    | .ok ds => match node.label with
      | .op o => env.lang.mkOp o ds
      | _ => .ok node

/-- `PopulateQTypesTransformation` — lines 158-219. -/
def Env.populateQTypes (env : Env O V Q E) (inputTypes : List Nat → Option Q) (root node : Node O V Q) (decayed : Option O) :
    Except (Err E) (Node O V Q) :=
  match decayed with
  | none => .ok node
  | some o =>
    if env.isQTypeAnno o then
      match env.readQTypeAnnotation node with
      | none => .ok node
      | some q =>
        match node.deps with
        | [] => .ok node
        | d :: _ =>
          match d.label with
          | .leaf k =>
            match inputTypes k with
            | some q' => if q' ≠ q then .error .inconsistent else .ok node
            | none => .ok node
          | _ =>
            if d.attr.qtype ≠ none then .ok d
            else env.annotateNode inputTypes root node
    else env.annotateNode inputTypes root node

/-- `LiteralFoldingTransformation` — lines 222-243. -/
def Env.literalFolding (env : Env O V Q E) (node : Node O V Q) (decayed : Option O) : Except (Err E) (Node O V Q) :=
  match decayed with
  | none => .ok node
  | some o =>
    if o = env.rootOp then .ok node
    else if !allDepsAreLiterals node then .ok node
    else match env.invoke node with
      | .error e => .error e
      | .ok v => .ok (env.literal v)

/-- `ToLowerTransformation` — lines 245-263. -/
def Env.toLower (env : Env O V Q E) (node : Node O V Q) (decayed : Option O) : Except (Err E) (Node O V Q) :=
  match decayed with
  | none => .ok node
  | some o =>
    match env.lower o node with
    | .error e => .error e
    | .ok r => if !node.attr.isSubsetOf r.attr then .error .lowerAttr else .ok r

/-- `StripAnnotationsTransformation` — lines 265-283. -/
def Env.stripAnnotations (env : Env O V Q E) (node : Node O V Q) (decayed : Option O) : Except (Err E) (Node O V Q) :=
  match decayed with
  | none => .ok node
  | some o =>
    if !env.isAnno o then .ok node
    else match node.deps with
      | [] => .error .noArgs
      | d :: _ => if d.attr.qtype = none ∧ env.isQTypeAnno o then .ok node else .ok d

/-- `NodeTransformationFn`. -/
abbrev NodeFn (O V Q E : Type) := Node O V Q → Option O → Except (Err E) (Node O V Q)

/-- The loop over the transformations — lines 295-316. -/
def firstChange (node : Node O V Q) (decayed : Option O) : List (NodeFn O V Q E) → Except (Err E) (Node O V Q)
  | [] => .ok node
  | t :: ts =>
    match t node decayed with
    | .error e => .error e
    | .ok r =>
      if r = node then firstChange node decayed ts
      else if !node.attr.isSubsetOf r.attr then .error .attrChanged
      else .ok r

/-- The function given to `DeepTransform` — lines 292-318. -/
def Env.nodeFn (env : Env O V Q E) (ts : List (NodeFn O V Q E)) (node : Node O V Q) : Except (Err E) (Node O V Q) :=
  match env.decayOf node with
  | .error e => .error e
  | .ok d => firstChange node d ts

/-- `ApplyNodeTransformations` — lines 285-328. -/
def Env.applyNodeTransformations (env : Env O V Q E) (limit : Nat) (expr : Node O V Q) (ts : List (NodeFn O V Q E)) :
    Option (Except (DeepErr O V (Attr Q V) (Err E)) (Node O V Q)) :=
  deepTransform env.lang (env.nodeFn ts) limit expr

/-- The list of transformations — lines 356-405. -/
def Env.transformations (env : Env O V Q E) (st : Stages) (inputTypes : List Nat → Option Q) (expr : Node O V Q) :
    List (NodeFn O V Q E) :=
  (if st.embedLiterals then [env.embedLiterals] else []) ++
  (if st.populateQTypes then [env.populateQTypes inputTypes expr] else []) ++
  (if st.literalFolding then [env.literalFolding] else []) ++
  (if st.toLower then [env.toLower] else []) ++
  (if st.stripAnnotations then [env.stripAnnotations] else []) ++
  (if st.casting then [env.casting] else []) ++
  (match st.optimization, env.optimizer with
    | true, some f => [fun n _ => f n]
    | _, _ => []) ++
  (if st.extensions then [env.extension] else [])

/-- `PrepareExpression` with `PrepareSingleLeafExpression` — lines 330-416.  `limit` is the bound of `DeepTransform`
(expr_visitor.cc:181). -/
def Env.prepare (env : Env O V Q E) (limit : Nat) (st : Stages) (inputTypes : List Nat → Option Q) (expr : Node O V Q) :
    Option (Except (DeepErr O V (Attr Q V) (Err E)) (Node O V Q)) :=
  if isLeaf expr then
    if st.populateQTypes then
      match env.annotateLeaf expr inputTypes expr with
      | .error e => some (.error (.other e))
      | .ok r => some (.ok r)
    else some (.ok expr)
  else
    match env.applyNodeTransformations limit expr (env.transformations st inputTypes expr) with
    | none => none
    | some (.error e) => some (.error e)
    | some (.ok r) =>
      if st.whereOps then
        match env.whereFn r with
        | .error e => some (.error (.other e))
        | .ok r => some (.ok r)
      else some (.ok r)

/-! ## ExtractQTypesForCompilation -/

/-- `flat_hash_map<Fingerprint, QTypePtr>`. -/
abbrev Types (O V Q : Type) := List (Node O V Q × Q)

/-- `CheckForTypeMismatchAndSetType` — lines 454-469. -/
def setType (types : Types O V Q) (n : Node O V Q) : Option Q → Except (Err E) (Types O V Q)
  | none => .ok types
  | some q =>
    match lookup types n with
    | none => .ok (types ++ [(n, q)])
    | some q' => if q' ≠ q then .error .mismatch else .ok types

/-- `IsAnnotation(node).value_or(false)` — annotation_utils.cc:41-47. -/
def Env.isAnnotation (env : Env O V Q E) (n : Node O V Q) : Bool :=
  if n.deps = [] then false
  else match env.decayOf n with
    | .ok (some o) => env.isAnno o
    | _ => false

/-- The node added to `results` for `node` whose dependencies have the results `rs` — lines 495-535. -/
def Env.extractNode (env : Env O V Q E) (debug : Bool) (n : Node O V Q) (rs : List (Node O V Q)) :
    Option (Except (Err E) (Node O V Q)) :=
  match n.label with
  | .op o =>
    if env.isAnnotation n then
      if debug && !env.isQTypeAnnotation n then some (.error .unexpected)
      else match rs with
        | [] => none
        | r :: _ => some (.ok r)
    else if n.deps = rs then some (.ok n)
    else some (.ok (.mk (.op o) noAttr rs))
  | _ => some (.ok n)

/-- The loop over the nodes; the last argument counts the iterations left — lines 493-536. -/
def Env.extractLoop (env : Env O V Q E) (debug : Bool) (po : PostOrder O V (Attr Q V)) :
    Nat → Nat → List (Node O V Q) → Types O V Q → Option (Except (Err E) (List (Node O V Q) × Types O V Q))
  | 0, _, results, types => some (.ok (results, types))
  | m + 1, i, results, types =>
    match po.nodes[i]?, po.depIndices i with
    | some n, some ix =>
      match gather results ix with
      | none => none
      | some rs =>
        match env.extractNode debug n rs with
        | none => none
        | some (.error e) => some (.error e)
        | some (.ok r) =>
          match setType types r n.attr.qtype with
          | .error e => some (.error e)
          | .ok types => env.extractLoop debug po m (i + 1) (results ++ [r]) types
    | _, _ => none

/-- `ExtractQTypesForCompilation` — lines 473-538; `debug` is the absence of `NDEBUG`. -/
def Env.extractQTypes (env : Env O V Q E) (debug : Bool) (root : Node O V Q) (types : Types O V Q) :
    Option (Except (Err E) (Node O V Q × Types O V Q)) :=
  match postOrder root with
  | none => none
  | some po =>
    match env.extractLoop debug po po.nodes.length 0 [] types with
    | none => none
    | some (.error e) => some (.error e)
    | some (.ok (results, types)) =>
      match results.getLast? with
      | none => none
      | some r => some (.ok (r, types))

/-- `LookupQType` — lines 540-548. -/
def lookupQType (types : Types O V Q) (n : Node O V Q) : Except (Err E) Q :=
  match lookup types n with
  | some q => .ok q
  | none => .error .unknown

/-- `LookupLeafQTypes` — lines 550-558; the resulting map as a list. -/
def lookupLeafQTypes (types : Types O V Q) : List (List Nat) → Except (Err E) (List (List Nat × Q))
  | [] => .ok []
  | k :: ks =>
    match lookupQType types (.mk (.leaf k) noAttr []) with
    | .error e => .error e
    | .ok q => match lookupLeafQTypes types ks with
      | .error e => .error e
      | .ok m => .ok ((k, q) :: m)

/-- The part of `CompileForDynamicEvaluation` after the side outputs were joined to the expression: the prepared expression
without annotations, the types of its nodes and the types of the inputs — eval.cc:83-103. -/
def Env.compile (env : Env O V Q E) (debug : Bool) (limit : Nat) (st : Stages) (inputTypes : List Nat → Option Q)
    (expr : Node O V Q) : Option (Except (DeepErr O V (Attr Q V) (Err E)) (Node O V Q × Types O V Q × List (List Nat × Q))) :=
  match env.prepare limit st inputTypes expr with
  | none => none
  | some (.error e) => some (.error e)
  | some (.ok p) =>
    match postOrder p with
    | none => none
    | some po =>
      if postOrderKeys placeholderKey po ≠ [] then some (.error (.other .placeholders))
      else match env.extractQTypes debug p [] with
        | none => none
        | some (.error e) => some (.error (.other e))
        | some (.ok (r, types)) =>
          match lookupLeafQTypes types (postOrderKeys leafKey po) with
          | .error e => some (.error (.other e))
          | .ok used => some (.ok (r, types, used))

end Verif.Prep
