import Verif.Opt.PatternModel

/-!
# Model of `arolla/expr/optimization/peephole_optimizer.cc` and `optimizer.cc`

`K` are the values of `size_t hash_`; the hash functions are arbitrary, so collisions are covered.
-/

namespace Verif.Opt
open Verif.Expr
variable {O V A E N K : Type} [DecidableEq O] [DecidableEq V] [DecidableEq A] [DecidableEq K]

/-- `PeepholeOptimization::PatternKey` — peephole_optimizer.cc:97-105. -/
def patternKey (name : O → N) (hashName : N → K) (hashNode : Expr O V A → K) (n : Expr O V A) : K :=
  match n.label with
  | .op o => hashName (name o)
  | _ => hashNode n

/-- `PeepholeOptimization`: `GetKey`, `ApplyToRoot` — peephole_optimizer.h:66-105. -/
structure Rule (O V A E K : Type) where
  key : Option K
  run : Expr O V A → Except E (Expr O V A)

/-- `PeepholeOptimizer::Data` — peephole_optimizer.cc:116-121. -/
structure Optimizer (O V A E K : Type) where
  patterns : List (K × List (Rule O V A E K))
  transforms : List (Rule O V A E K)

/-- `pattern_optimizations[key].push_back(opt)`. -/
def pushRule (k : K) (r : Rule O V A E K) : List (K × List (Rule O V A E K)) → List (K × List (Rule O V A E K))
  | [] => [(k, [r])]
  | (k', rs) :: m => if k' = k then (k', rs ++ [r]) :: m else (k', rs) :: pushRule k r m

/-- `PeepholeOptimizer::Create` — peephole_optimizer.cc:153-164. -/
def createOptimizer : List (Rule O V A E K) → Optimizer O V A E K → Optimizer O V A E K
  | [], d => d
  | r :: rs, d =>
    match r.key with
    | some k => createOptimizer rs { d with patterns := pushRule k r d.patterns }
    | none => createOptimizer rs { d with transforms := d.transforms ++ [r] }

/-- `pattern_optimizations.find(key)`. -/
def findBucket (m : List (K × List (Rule O V A E K))) (k : K) : Option (List (Rule O V A E K)) :=
  (m.find? (fun e => e.1 = k)).map (·.2)

/-- The loop over a bucket — peephole_optimizer.cc:129-134. -/
def bucketLoop (keyOf : Expr O V A → K) (k : K) : List (Rule O V A E K) → Expr O V A → Except E (Expr O V A)
  | [], n => .ok n
  | r :: rs, n =>
    match r.run n with
    | .error e => .error e
    | .ok n => if keyOf n ≠ k then .ok n else bucketLoop keyOf k rs n

/-- The loop over `transform_optimizations` — peephole_optimizer.cc:136-138. -/
def transformsLoop : List (Rule O V A E K) → Expr O V A → Except E (Expr O V A)
  | [], n => .ok n
  | r :: rs, n =>
    match r.run n with
    | .error e => .error e
    | .ok n => transformsLoop rs n

/-- `ApplyToNode` — peephole_optimizer.cc:123-140. -/
def applyToNode (keyOf : Expr O V A → K) (d : Optimizer O V A E K) (n : Expr O V A) : Except E (Expr O V A) :=
  match findBucket d.patterns (keyOf n) with
  | none => transformsLoop d.transforms n
  | some rs =>
    match bucketLoop keyOf (keyOf n) rs n with
    | .error e => .error e
    | .ok n => transformsLoop d.transforms n

/-- `Apply` — peephole_optimizer.cc:142-147. -/
def applyAll (G : Lang O V A E) (keyOf : Expr O V A → K) (d : Optimizer O V A E K) (root : Expr O V A) :
    Option (Except E (Expr O V A)) :=
  (transform G root (applyToNode keyOf d)).map (fun r => r.map (·.1))

/-- The errors of the optimizer. -/
inductive OptErr (E : Type) where
  | tooManyIterations
  | typeChanged
  | other (e : E)
  deriving DecidableEq

/-- The loop of `MakeOptimizer`; `iteration` iterations have been made — optimizer.cc:40-62.  `qtype` is `node->qtype()`. -/
def optimizeLoop {Q : Type} [DecidableEq Q] (qtype : Expr O V A → Q) (keyOf : Expr O V A → K) (d : Optimizer O V A E K) :
    Nat → Expr O V A → Except (OptErr E) (Expr O V A)
  | 0, _ => .error .tooManyIterations
  | left + 1, n =>
    match applyToNode keyOf d n with
    | .error e => .error (.other e)
    | .ok n' =>
      if qtype n' ≠ qtype n then .error .typeChanged
      else if n ≠ n' then optimizeLoop qtype keyOf d left n'
      else .ok n'

/-- `MakeOptimizer(peephole_optimizer)(expr)` — optimizer.cc:34-64. -/
def optimize {Q : Type} [DecidableEq Q] (qtype : Expr O V A → Q) (keyOf : Expr O V A → K) (d : Optimizer O V A E K)
    (n : Expr O V A) : Except (OptErr E) (Expr O V A) :=
  optimizeLoop qtype keyOf d 100 n

end Verif.Opt
