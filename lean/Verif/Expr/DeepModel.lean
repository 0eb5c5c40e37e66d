import Verif.Expr.ExprModel

/-!
# Model of `DeepTransform`

The cache is an association list (insertion order), its keys are nodes instead of their fingerprints.  The calls of `log_fn`
and the member `original_node`, which is only used for them, are left out.
-/

namespace Verif.Expr
variable {O V A E : Type} [DecidableEq O] [DecidableEq V] [DecidableEq A]

/-- `cache[n] = t`. -/
def upd {T : Type} (m : List (Expr O V A × T)) (n : Expr O V A) (t : T) : List (Expr O V A × T) :=
  if (lookup m n).isSome then m.map (fun e => if e.1 = n then (e.1, t) else e) else m ++ [(n, t)]

/-- Errors of `DeepTransform`: too many nodes (expr_visitor.cc:251), infinite loop (expr_visitor.cc:229-234), errors of
`WithNewDependencies` and `transform_fn`. -/
inductive DeepErr (O V A E : Type)
  | tooMany (size : Nat)
  | loop (node : Expr O V A)
  | other (e : E)

/-- The cache; `none` is the null pointer. -/
abbrev Cache (O V A : Type) := List (Expr O V A × Option (Expr O V A))

/-- `Frame` — expr_visitor.cc:236-243; `second = none`: first stage with `dep_idx`; `second = some (new_node, transformed)`:
`dep_idx = kSkipFirstStage`. -/
structure Frame (O V A : Type) where
  node : Expr O V A
  depIdx : Nat
  second : Option (Expr O V A × Expr O V A)

/-- The loop over the known dependencies: the number of steps, and the cache with the first unknown one added —
expr_visitor.cc:263-267. -/
def skipCached (cache : Cache O V A) : List (Expr O V A) → Nat × Cache O V A
  | [] => (0, cache)
  | d :: ds =>
    if (lookup cache d).isSome then ((skipCached cache ds).1 + 1, (skipCached cache ds).2)
    else (0, cache ++ [(d, none)])

/-- `new_deps`; `none` when one is a null pointer — expr_visitor.cc:277-283. -/
def collect (cache : Cache O V A) : List (Expr O V A) → Option (List (Expr O V A))
  | [] => some []
  | d :: ds =>
    match lookup cache d with
    | some (some x) => (collect cache ds).map (x :: ·)
    | _ => none

/-- What one iteration does. -/
inductive Next (O V A E : Type)
  | fail (e : DeepErr O V A E)
  | go (cache : Cache O V A) (stack : List (Frame O V A))

/-- `cache[frame.node] = r`, and `cache[new_node] = r` if it is another node — expr_visitor.cc:310-313, 325-328, 345-348. -/
def store (cache : Cache O V A) (node new r : Expr O V A) : Cache O V A :=
  if new ≠ node then upd (upd cache node (some r)) new (some r) else upd cache node (some r)

/-- The first stage after the dependencies, from the call of `transform_fn` on — expr_visitor.cc:301-339. -/
def applyFn (fn : Expr O V A → Except E (Expr O V A)) (cache : Cache O V A) (f : Frame O V A) (rest : List (Frame O V A))
    (new : Expr O V A) : Next O V A E :=
  match fn new with
  | .error e => .fail (.other e)
  | .ok t =>
    if t = new then .go (store cache f.node new t) rest
    else
      match lookup cache t with
      | some none => .fail (.loop f.node)
      | some (some r) => .go (store cache f.node new r) rest
      | none => .go (cache ++ [(t, none)]) (⟨t, 0, none⟩ :: ⟨f.node, f.depIdx, some (new, t)⟩ :: rest)

/-- The first stage — expr_visitor.cc:256-340. -/
def firstStage (G : Lang O V A E) (fn : Expr O V A → Except E (Expr O V A)) (cache : Cache O V A) (f : Frame O V A)
    (rest : List (Frame O V A)) : Next O V A E :=
  let k := (skipCached cache (f.node.deps.drop f.depIdx)).1
  let cache := (skipCached cache (f.node.deps.drop f.depIdx)).2
  match f.node.deps[f.depIdx + k]? with
  | some d => .go cache (⟨d, 0, none⟩ :: ⟨f.node, f.depIdx + k + 1, none⟩ :: rest)
  | none =>
    match collect cache f.node.deps with
    | none => .fail (.loop f.node)
    | some ds =>
      match G.withNewDeps f.node ds with
      | .error e => .fail (.other e)
      | .ok new =>
        if new ≠ f.node then
          match lookup cache new with
          | some none => .fail (.loop f.node)
          | some (some r) => .go (upd cache f.node (some r)) rest
          | none => applyFn fn (cache ++ [(new, none)]) f rest new
        else applyFn fn cache f rest new

/-- One iteration of the loop; `none` would be a failing `cache.at` or a stored null pointer — expr_visitor.cc:248-350. -/
def deepStep (G : Lang O V A E) (fn : Expr O V A → Except E (Expr O V A)) (limit : Nat) (cache : Cache O V A)
    (f : Frame O V A) (rest : List (Frame O V A)) : Option (Next O V A E) :=
  if cache.length > limit then some (.fail (.tooMany cache.length))
  else
    match f.second with
    | none => some (firstStage G fn cache f rest)
    | some (new, t) =>
      match lookup cache t with
      | some (some r) => some (.go (store cache f.node new r) rest)
      | _ => none

/-- The loop — expr_visitor.cc:248-353. -/
def deepLoop (G : Lang O V A E) (fn : Expr O V A → Except E (Expr O V A)) (limit : Nat) (root : Expr O V A) :
    Nat → Cache O V A → List (Frame O V A) → Option (Except (DeepErr O V A E) (Expr O V A))
  | 0, _, _ => none
  | _ + 1, cache, [] =>
    match lookup cache root with
    | some (some r) => some (.ok r)
    | _ => none
  | fuel + 1, cache, f :: rest =>
    match deepStep G fn limit cache f rest with
    | none => none
    | some (.fail e) => some (.error e)
    | some (.go cache stack) => deepLoop G fn limit root fuel cache stack

/-- `DeepTransform(root, transform_fn, {}, processed_node_limit)` — expr_visitor.cc:174-354.  `none` when the loop does not end
within `2 * limit + 3` iterations; `deep_terminates` shows that this does not happen. -/
def deepTransform (G : Lang O V A E) (fn : Expr O V A → Except E (Expr O V A)) (limit : Nat) (root : Expr O V A) :
    Option (Except (DeepErr O V A E) (Expr O V A)) :=
  deepLoop G fn limit root (2 * limit + 3) [(root, none)] [⟨root, 0, none⟩]

end Verif.Expr
