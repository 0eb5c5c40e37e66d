import Verif.Util.StringModel
import Mathlib.Data.List.Sort

/-!
# Model of expression nodes and of `arolla/expr/expr_visitor.{h,cc}` (traversals)

An expression node is immutable and its fingerprint is computed from its type, key or value, operator, attributes and
the fingerprints of its dependencies (expr_node.cc:57-107).  With collision-free fingerprints a node is a finite tree,
two nodes have the same fingerprint iff they are the same tree, and a shared node is a repeated subtree.  `O` are the
operators, `V` the literal values, `A` the attributes, `E` the errors.
-/

namespace Verif.Expr

/-- What a node is, without attributes and dependencies: `ExprNodeType`, `leaf_key`, `placeholder_key`, `qvalue`, `op` —
expr_node.h:36-103. -/
inductive Label (O V : Type) where
  | leaf (key : List Nat)
  | placeholder (key : List Nat)
  | literal (v : V)
  | op (o : O)
deriving DecidableEq, Repr

/-- `ExprNode` — expr_node.h:36-103. -/
inductive Expr (O V A : Type) where
  | mk (label : Label O V) (attr : A) (deps : List (Expr O V A))

namespace Expr
variable {O V A : Type}

/-- `type`, `op()`, `leaf_key()`, … — expr_node.h:76-93. -/
def label : Expr O V A → Label O V
  | mk l _ _ => l

/-- `attr()`. -/
def attr : Expr O V A → A
  | mk _ a _ => a

/-- `node_deps()`. -/
def deps : Expr O V A → List (Expr O V A)
  | mk _ _ ds => ds

/-- `is_op()`. -/
def isOp (n : Expr O V A) : Bool :=
  match n.label with
  | .op _ => true
  | _ => false

mutual
/-- Comparison of fingerprints: fingerprints are collision-free, so this is equality. -/
def decEq [DecidableEq O] [DecidableEq V] [DecidableEq A] : (x y : Expr O V A) → Decidable (x = y)
  | mk l a ds, mk l' a' ds' =>
    if hl : l = l' then
      if ha : a = a' then
        match decEqList ds ds' with
        | isTrue hd => isTrue (by rw [hl, ha, hd])
        | isFalse hd => isFalse (by intro h; injection h; exact hd (by assumption))
      else isFalse (by intro h; injection h; exact ha (by assumption))
    else isFalse (by intro h; injection h; exact hl (by assumption))
/-- The same for lists. -/
def decEqList [DecidableEq O] [DecidableEq V] [DecidableEq A] : (x y : List (Expr O V A)) → Decidable (x = y)
  | [], [] => isTrue rfl
  | [], _ :: _ => isFalse (by simp)
  | _ :: _, [] => isFalse (by simp)
  | x :: xs, y :: ys =>
    match decEq x y with
    | isTrue h =>
      match decEqList xs ys with
      | isTrue hs => isTrue (by rw [h, hs])
      | isFalse hs => isFalse (by intro hh; injection hh; exact hs (by assumption))
    | isFalse h => isFalse (by intro hh; injection hh; exact h (by assumption))
end

instance [DecidableEq O] [DecidableEq V] [DecidableEq A] : DecidableEq (Expr O V A) := decEq

mutual
/-- The number of nodes of the tree, counting shared nodes repeatedly; only used to bound loops. -/
def size : Expr O V A → Nat
  | mk _ _ ds => 1 + sizes ds
/-- The same for lists. -/
def sizes : List (Expr O V A) → Nat
  | [] => 0
  | d :: ds => size d + sizes ds
end

end Expr

/-- The parameters of the construction of nodes: the attributes of leaves and placeholders, of literals, and
`ExprOperator::InferAttributes`. -/
structure Lang (O V A E : Type) where
  noAttr : A
  litAttr : V → A
  infer : O → List A → Except E A
  /-- `InvalidArgumentError("only operator nodes can have dependencies")` — expr.cc:155 -/
  depsError : E

variable {O V A E : Type}

/-- `MakeOpNode` — expr.cc:97-108. -/
def Lang.mkOp (G : Lang O V A E) (o : O) (deps : List (Expr O V A)) : Except E (Expr O V A) :=
  match G.infer o (deps.map Expr.attr) with
  | .error e => .error e
  | .ok a => .ok (.mk (.op o) a deps)

/-- `AreExprAttributesTheSame` — expr.cc:81-93. -/
def sameAttrs [DecidableEq A] (l r : List (Expr O V A)) : Bool := l.map Expr.attr = r.map Expr.attr

/-- `WithNewDependencies` — expr.cc:135-159. -/
def Lang.withNewDeps [DecidableEq O] [DecidableEq V] [DecidableEq A] (G : Lang O V A E) (node : Expr O V A)
    (deps : List (Expr O V A)) : Except E (Expr O V A) :=
  if node.deps = deps then .ok node
  else match node.label with
    | .op o => if sameAttrs node.deps deps then .ok (.mk (.op o) node.attr deps) else G.mkOp o deps
    | _ => if deps ≠ [] then .error G.depsError else .ok node

/-! ## PostOrder -/

section
variable [DecidableEq O] [DecidableEq V] [DecidableEq A]

/-- `flat_hash_map<Fingerprint, size_t>::find`. -/
def lookup {T : Type} (m : List (Expr O V A × T)) (n : Expr O V A) : Option T :=
  (m.find? (fun e => e.1 = n)).map (·.2)

/-- `flat_hash_map::emplace`: keeps an existing entry. -/
def emplace {T : Type} (m : List (Expr O V A × T)) (n : Expr O V A) (t : T) : List (Expr O V A × T) :=
  if (lookup m n).isSome then m else m ++ [(n, t)]

/-- Local variables of the first block of the constructor: `nodes`, `node_indices`, `total_arc_count`. -/
structure Scan (O V A : Type) where
  nodes : List (Expr O V A)
  idx : List (Expr O V A × Nat)
  arcs : Nat

/-- The inner `while`: how many of the next dependencies are known — expr_visitor.cc:125-128. -/
def skipKnown {T : Type} (m : List (Expr O V A × T)) : List (Expr O V A) → Nat
  | [] => 0
  | d :: ds => if (lookup m d).isSome then skipKnown m ds + 1 else 0

/-- The loop over the stack of frames, innermost frame first, with the local variable `frame_dep_idx` —
expr_visitor.cc:119-146.  A `Frame` is a node and its `dep_idx`. -/
def scanLoop : Nat → List (Expr O V A × Nat) → Nat → Scan O V A → Option (Scan O V A)
  | 0, _, _, _ => none
  | _ + 1, [], _, _ => none
  | fuel + 1, (n, k) :: rest, i, s =>
    let i := i + skipKnown s.idx (n.deps.drop i)
    match n.deps[i]? with
    | some d => scanLoop fuel ((d, 0) :: (n, i + 1) :: rest) 0 s
    | none =>
      let s := { s with
        arcs := s.arcs + n.deps.length, idx := emplace s.idx n s.nodes.length, nodes := s.nodes ++ [n] }
      match rest with
      | [] => some s
      | (m, j) :: r => scanLoop fuel ((m, j) :: r) j s

/-- `adjacency_array[i] = v`. -/
def put (a : List Nat) (i v : Nat) : Option (List Nat) := if i < a.length then some (a.set i v) else none

/-- The `for` loop over the dependencies of a node — expr_visitor.cc:156-158. -/
def putDeps (idx : List (Expr O V A × Nat)) : List (Expr O V A) → Nat → List Nat → Option (Nat × List Nat)
  | [], j, a => some (j, a)
  | d :: ds, j, a =>
    match lookup idx d with
    | none => none
    | some k =>
      match put a j k with
      | none => none
      | some a => putDeps idx ds (j + 1) a

/-- The `while` loop over the nodes — expr_visitor.cc:152-160. -/
def putNodes (idx : List (Expr O V A × Nat)) : List (Expr O V A) → Nat → Nat → List Nat → Option (List Nat)
  | [], i, j, a => put a i j
  | n :: ns, i, j, a =>
    match put a i j with
    | none => none
    | some a =>
      match putDeps idx n.deps j a with
      | none => none
      | some (j, a) => putNodes idx ns (i + 1) j a

/-- `PostOrder` — expr_visitor.h:69-141. -/
structure PostOrder (O V A : Type) where
  nodes : List (Expr O V A)
  adj : List Nat
  idx : List (Expr O V A × Nat)

/-- `PostOrder::PostOrder(root)` — expr_visitor.cc:105-172.  The C++ loop has no bound; `post_order` shows that the
bound used here is never reached. -/
def postOrder (root : Expr O V A) : Option (PostOrder O V A) :=
  match scanLoop (2 * root.size) [(root, 0)] 0 ⟨[], [], 0⟩ with
  | none => none
  | some s =>
    match putNodes s.idx s.nodes 0 (s.nodes.length + 1) (List.replicate (s.nodes.length + 1 + s.arcs) 0) with
    | none => none
    | some a => some ⟨s.nodes, a, s.idx⟩

/-- `dep_indices` — expr_visitor.h:94-100. -/
def PostOrder.depIndices (po : PostOrder O V A) (i : Nat) : Option (List Nat) :=
  match po.adj[i]?, po.adj[i + 1]? with
  | some a, some b => if a ≤ b ∧ b ≤ po.adj.length then some ((po.adj.drop a).take (b - a)) else none
  | _, _ => none

/-- `node_index` — expr_visitor.h:108-114. -/
def PostOrder.nodeIndex (po : PostOrder O V A) (n : Expr O V A) : Option Nat := lookup po.idx n

/-! ## VisitorOrder -/

/-- `VisitorOrderImpl` — expr_visitor.cc:47-76.  `true` is a call of `previsit_fn`, `false` of `postvisit_fn`. -/
def visitLoop : Nat → List (Expr O V A × Nat) → List (Expr O V A) → List (Bool × Expr O V A) →
    Option (List (Bool × Expr O V A))
  | _, [], _, ev => some ev
  | 0, _ :: _, _, _ => none
  | fuel + 1, (n, k) :: rest, seen, ev =>
    let ev := if k = 0 then ev ++ [(true, n)] else ev
    match n.deps[k]? with
    | none => visitLoop fuel rest seen (ev ++ [(false, n)])
    | some d =>
      if d ∈ seen then visitLoop fuel ((n, k + 1) :: rest) seen ev
      else visitLoop fuel ((d, 0) :: (n, k + 1) :: rest) (d :: seen) ev

/-- `PreAndPostVisitorOrder` — expr_visitor.cc:91-103. -/
def preAndPost (root : Expr O V A) : Option (List (Bool × Expr O V A)) :=
  visitLoop (2 * root.size) [(root, 0)] [root] []

/-- `VisitorOrder` — expr_visitor.cc:80-89. -/
def visitorOrder (root : Expr O V A) : Option (List (Expr O V A)) :=
  (preAndPost root).map (fun ev => (ev.filter (fun e => !e.1)).map (·.2))

/-- `std::sort` of strings. -/
def sortKeys (ks : List (List Nat)) : List (List Nat) := ks.insertionSort (fun a b => a ≤ b)

/-- `leaf_key()` of a leaf. -/
def leafKey (n : Expr O V A) : Option (List Nat) :=
  match n.label with
  | .leaf k => some k
  | _ => none

/-- `placeholder_key()` of a placeholder. -/
def placeholderKey (n : Expr O V A) : Option (List Nat) :=
  match n.label with
  | .placeholder k => some k
  | _ => none

/-- `GetLeafKeys(expr)`, `GetPlaceholderKeys(expr)`: with the key function — expr_visitor.cc:356-383. -/
def exprKeys (key : Expr O V A → Option (List Nat)) (root : Expr O V A) : Option (List (List Nat)) :=
  (preAndPost root).map (fun ev => sortKeys (((ev.filter (fun e => e.1)).map (·.2)).filterMap key))

/-- `GetLeafKeys(post_order)`, `GetPlaceholderKeys(post_order)` — expr_visitor.cc:385-405. -/
def postOrderKeys (key : Expr O V A → Option (List Nat)) (po : PostOrder O V A) : List (List Nat) :=
  sortKeys (po.nodes.filterMap key)

/-! ## PostOrderTraverse and Transform -/

/-- `args[j] = &results[dep_indices[j]].value`. -/
def gather {T : Type} (results : List T) : List Nat → Option (List T)
  | [] => some []
  | k :: ks =>
    match results[k]? with
    | none => none
    | some r =>
      match gather results ks with
      | none => none
      | some rs => some (r :: rs)

/-- The lambda `invoke_visitor` — expr_visitor.h:193-200. -/
def invoke {T : Type} (po : PostOrder O V A) (visitor : Expr O V A → List T → Except E T) (results : List T) (i : Nat) :
    Option (Except E T) :=
  match po.nodes[i]?, po.depIndices i with
  | some n, some ix =>
    match gather results ix with
    | none => none
    | some args => some (visitor n args)
  | _, _ => none

/-- The loop of `PostOrderTraverse`; `m` is the number of iterations left — expr_visitor.h:201-208. -/
def traverseLoop {T : Type} (po : PostOrder O V A) (visitor : Expr O V A → List T → Except E T) :
    Nat → Nat → List T → Option (Except E T)
  | 0, i, results => invoke po visitor results i
  | m + 1, i, results =>
    match invoke po visitor results i with
    | none => none
    | some (.error e) => some (.error e)
    | some (.ok r) => traverseLoop po visitor m (i + 1) (results ++ [r])

/-- `PostOrderTraverse(post_order, visitor)` — expr_visitor.h:175-209. -/
def traverse {T : Type} (po : PostOrder O V A) (visitor : Expr O V A → List T → Except E T) : Option (Except E T) :=
  traverseLoop po visitor (po.nodes.length - 1) 0 []

/-- `PostOrderTraverse(root, visitor)` — expr_visitor.h:211-214. -/
def traverseExpr {T : Type} (root : Expr O V A) (visitor : Expr O V A → List T → Except E T) : Option (Except E T) :=
  (postOrder root).bind (fun po => traverse po visitor)

/-- The loop building `new_deps` — expr_visitor.h:266-273; `results[k] = none` is the null pointer. -/
def pickDeps (results : List (Option (Expr O V A))) : List Nat → List (Expr O V A) → Option (List (Expr O V A))
  | [], _ => some []
  | k :: ks, ds =>
    match results[k]? with
    | none => none
    | some r =>
      match r, ds with
      | some x, d :: ds => (pickDeps results ks ds).map (x :: ·)
      | none, d :: ds => (pickDeps results ks ds).map (d :: ·)
      | some x, [] => (pickDeps results ks []).map (x :: ·)
      | none, [] => none

/-- One iteration of `TransformOnPostOrder`: the new `results[i]`, and the argument of the call of `transform_fn` —
expr_visitor.h:256-288. -/
def transformStep (G : Lang O V A E) (po : PostOrder O V A) (fn : Expr O V A → Except E (Expr O V A))
    (results : List (Option (Expr O V A))) (i : Nat) : Option (Except E (Expr O V A × Option (Expr O V A))) :=
  match po.nodes[i]?, po.depIndices i with
  | some n, some ix =>
    match gather results ix with
    | none => none
    | some rs =>
      let input : Option (Except E (Expr O V A)) :=
        match n.label with
        | .op o =>
          if rs.any Option.isSome then
            match pickDeps results ix n.deps with
            | none => none
            | some ds => some (G.mkOp o ds)
          else some (.ok n)
        | _ => some (.ok n)
      match input with
      | none => none
      | some (.error e) => some (.error e)
      | some (.ok m) =>
        match fn m with
        | .error e => some (.error e)
        | .ok r => some (.ok (m, if r ≠ n then some r else none))
  | _, _ => none

/-- The loop of `TransformOnPostOrder`; also returns the arguments of the calls of `transform_fn` —
expr_visitor.h:255-289. -/
def transformLoop (G : Lang O V A E) (po : PostOrder O V A) (fn : Expr O V A → Except E (Expr O V A)) :
    Nat → Nat → List (Option (Expr O V A)) → List (Expr O V A) →
    Option (Except E (List (Option (Expr O V A)) × List (Expr O V A)))
  | 0, _, results, calls => some (.ok (results, calls))
  | m + 1, i, results, calls =>
    match transformStep G po fn results i with
    | none => none
    | some (.error e) => some (.error e)
    | some (.ok (c, r)) => transformLoop G po fn m (i + 1) (results ++ [r]) (calls ++ [c])

/-- `TransformOnPostOrder`; the calls of `transform_fn` are returned too — expr_visitor.h:246-295.  In C++ `results` has its
final length from the start; a result that is not computed yet is never read (`gather` would fail). -/
def transformOn (G : Lang O V A E) (po : PostOrder O V A) (fn : Expr O V A → Except E (Expr O V A)) :
    Option (Except E (Expr O V A × List (Expr O V A))) :=
  match transformLoop G po fn po.nodes.length 0 [] [] with
  | none => none
  | some (.error e) => some (.error e)
  | some (.ok (results, calls)) =>
    match results.getLast? with
    | none => none
    | some (some r) => some (.ok (r, calls))
    | some none =>
      match po.nodes.getLast? with
      | none => none
      | some n => some (.ok (n, calls))

/-- `Transform` — expr_visitor.h:228-232. -/
def transform (G : Lang O V A E) (root : Expr O V A) (fn : Expr O V A → Except E (Expr O V A)) :
    Option (Except E (Expr O V A × List (Expr O V A))) :=
  (postOrder root).bind (fun po => transformOn G po fn)

/-! ## Substitution -/

/-- The visitor of `Substitute` — substitution.cc:43-51; `subs` composed with `key_fn`. -/
def substVisitor (G : Lang O V A E) (subs : Expr O V A → Option (Expr O V A)) (n : Expr O V A) (args : List (Expr O V A)) :
    Except E (Expr O V A) :=
  match subs n with
  | some r => .ok r
  | none => G.withNewDeps n args

/-- `Substitute`, `SubstituteByFingerprint`, `SubstituteLeaves`, `SubstituteByName` with
`subs n = subs.find(key_fn(n))` — substitution.cc:37-52, 56-76, 99-106. -/
def substitute (G : Lang O V A E) (root : Expr O V A) (subs : Expr O V A → Option (Expr O V A)) :
    Option (Except E (Expr O V A)) :=
  traverseExpr root (substVisitor G subs)

/-- `SubstitutePlaceholders`; `noValue` is the error for `must_substitute_all` — substitution.cc:78-97. -/
def substitutePlaceholders (G : Lang O V A E) (noValue : List Nat → E) (root : Expr O V A)
    (subs : List Nat → Option (Expr O V A)) (all : Bool) : Option (Except E (Expr O V A)) :=
  traverseExpr root (fun n args =>
    match n.label with
    | .placeholder k =>
      match subs k with
      | some r => .ok r
      | none => if all then .error (noValue k) else G.withNewDeps n args
    | _ => G.withNewDeps n args)

end

end Verif.Expr
