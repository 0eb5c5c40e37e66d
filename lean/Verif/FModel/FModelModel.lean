import Verif.Forest.ForestModel
import Mathlib.Data.List.Dedup
import Mathlib.Algebra.Field.Rat
import Mathlib.Algebra.Order.Ring.Rat

/-!
# Model of `arolla/decision_forest/expr_operator/forest_model.{h,cc}`

`ForestModel` attaches a postprocessing expression to a decision forest: the placeholder `P.x` of the expression stands
for the submodel `x`, which consists of several bags, and the model is lowered to an expression over the tuple computed
by one `DecisionForestOperator`.

* Values are optional rational numbers (`V`) in place of optional floats: rounding, infinities and NaN are not modelled.
  Arrays are evaluated element by element and are not modelled separately.
* An expression is a finite tree (`Ex`); equal nodes of a tree are the same node in the sense of fingerprints.  Every
  operator except the ones used by the rewriting is `fn n` with an arbitrary meaning.
* The node `get_nth(P[k], i)` on the result of the forest is the atom `nth k i`; `core.get_first(P[k])` is `nth k 0`.
* `expr::ToLowest(expression)` is not computed: the lowered expression is an argument (`low`).
* A tree is given by its tag, its weight and the adjustment which its conditions select on the input at hand (see
  `Verif.Forest` for the selection); preprocessing of the inputs, casts and type inference are not modelled.
* Names are numbers (`Key`); `submodel_ids` is a list of pairs with distinct keys in the order of the `std::map`.
* Counters (`int`) do not overflow.
-/

namespace Verif.FModel

open Verif.Forest (Tag Filter)

/-- An optional number. -/
inductive V where
  | missing
  | val (q : Rat)
  deriving DecidableEq, Repr

/-- `math.add` on optional numbers. -/
def V.add : V → V → V
  | .val a, .val b => .val (a + b)
  | _, _ => .missing

/-- `math.multiply` on optional numbers. -/
def V.mul : V → V → V
  | .val a, .val b => .val (a * b)
  | _, _ => .missing

/-- `math.divide` on optional numbers (the divisor is never zero here). -/
def V.div : V → V → V
  | .val a, .val b => .val (a / b)
  | _, _ => .missing

def V.present : V → Bool
  | .missing => false
  | .val _ => true

/-- `core.greater`: a present value of type `OptionalUnit` is represented by zero. -/
def V.greater : V → V → V
  | .val a, .val b => if a > b then .val 0 else .missing
  | _, _ => .missing

abbrev Key := Nat

/-- Operators. -/
inductive Op where
  | add | multiply | divide | greater | whereOp
  | fn (n : Nat)
  deriving DecidableEq, Repr

/-- Expressions with atoms in `α`. -/
inductive Ex (α : Type) where
  | lit (v : V)
  | atom (a : α)
  | op (o : Op) (args : List (Ex α))

/-- The atoms of a source expression. -/
inductive Src where
  | leaf (k : Key)
  | ph (k : Key)
  deriving DecidableEq, Repr

/-- The atoms of a processed expression. -/
inductive Atom where
  | leaf (k : Key)
  | ph (k : Key)
  | nth (k : Key) (i : Nat)
  deriving DecidableEq, Repr

abbrev E := Ex Src
abbrev PE := Ex Atom

/-- The meaning of an operator; `none` is an error.  `I` gives the meaning of the other operators. -/
def applyOp (I : Nat → List V → Option V) : Op → List V → Option V
  | .add, [a, b] => some (a.add b)
  | .multiply, [a, b] => some (a.mul b)
  | .divide, [a, b] => some (a.div b)
  | .greater, [a, b] => some (a.greater b)
  | .whereOp, [c, a, b] => some (if c.present then a else b)
  | .fn n, args => I n args
  | _, _ => none

mutual
/-- The value of an expression. -/
def eval {α : Type} (I : Nat → List V → Option V) (ρ : α → Option V) : Ex α → Option V
  | .lit v => some v
  | .atom a => ρ a
  | .op o args =>
    match evalAll I ρ args with
    | none => none
    | some vs => applyOp I o vs
/-- The values of the arguments. -/
def evalAll {α : Type} (I : Nat → List V → Option V) (ρ : α → Option V) : List (Ex α) → Option (List V)
  | [] => some []
  | e :: es =>
    match eval I ρ e, evalAll I ρ es with
    | some v, some vs => some (v :: vs)
    | _, _ => none
end

mutual
/-- Replaces the atoms of an expression. -/
def bind {α β : Type} (σ : α → Ex β) : Ex α → Ex β
  | .lit v => .lit v
  | .atom a => σ a
  | .op o args => .op o (bindAll σ args)
def bindAll {α β : Type} (σ : α → Ex β) : List (Ex α) → List (Ex β)
  | [] => []
  | e :: es => bind σ e :: bindAll σ es
end

/-- `SubstitutePlaceholders` with `must_substitute_all = false` — visitors/substitution.cc:78-97: the placeholders with a value
in `params` are replaced. -/
def subst (params : List (Key × PE)) : E → PE :=
  bind fun
    | .leaf k => .atom (.leaf k)
    | .ph k =>
      match params.lookup k with
      | some e => e
      | none => .atom (.ph k)

/-- A node which is not an operator. -/
inductive Tip where
  | lit (v : V)
  | src (a : Src)
  deriving DecidableEq, Repr

mutual
/-- The tips of the tree, with repetitions. -/
def tips : E → List Tip
  | .lit v => [.lit v]
  | .atom a => [.src a]
  | .op _ args => tipsAll args
def tipsAll : List E → List Tip
  | [] => []
  | e :: es => tips e ++ tipsAll es
end

/-- The nodes of `VisitorOrder` which are no operators: every tip once. -/
def visited (e : E) : List Tip := (tips e).dedup

/-- `GetNodeCountMap`, restricted to tips — forest_model.cc:151-169: the number of paths from the root. -/
def nodeCount (e : E) (t : Tip) : Nat := (tips e).count t

/-- The expression of a tip inside a processed expression. -/
def Tip.toPE : Tip → PE
  | .lit v => .lit v
  | .src (.leaf k) => .atom (.leaf k)
  | .src (.ph k) => .atom (.ph k)

mutual
/-- Every operator is `math.add` — `AnalyzeExpression`, forest_model.cc:427-429. -/
def plainSum : E → Bool
  | .lit _ => true
  | .atom _ => true
  | .op o args => o == .add && plainSumAll args
def plainSumAll : List E → Bool
  | [] => true
  | e :: es => plainSum e && plainSumAll es
end

/-- A tree, with the adjustment selected by its conditions. -/
structure T where
  tag : Tag
  weight : Rat
  adj : Rat

/-- `ForestModel::ConstructorArgs` — forest_model.h:74-102.  `required` are the keys of `GetRequiredQTypes()`. -/
structure Args where
  trees : List T
  required : List Int
  submodelIds : List (Key × List Int)
  inputs : List Key
  expression : E
  oob : Option (List E)
  truncation : Option Nat

inductive Err where
  | signature | collision | notEnoughArgs | leaves | unknown | unused | oobLeaves | oobUnknown
  | emptySubmodel | bagCounts | oobSize | internal
  deriving DecidableEq, Repr

/-- `ValidateInputs` — forest_model.cc:100-116; the comparison with `inputs.size()` is unsigned, so a negative key
fails. -/
def validateInputs (a : Args) : Except Err Unit :=
  if a.inputs.any (fun n => (a.submodelIds.lookup n).isSome) then .error .collision
  else if a.required.any (fun k => decide (k < 0 ∨ a.inputs.length ≤ k)) then .error .notEnoughArgs
  else .ok ()

/-- The loop of `ValidateExpression` over the nodes — forest_model.cc:72-87. -/
def validateTips (a : Args) : List Tip → Except Err Unit
  | [] => .ok ()
  | .src (.leaf _) :: _ => .error .leaves
  | .src (.ph k) :: rest =>
    if (a.submodelIds.lookup k).isSome || a.inputs.contains k then validateTips a rest else .error .unknown
  | .lit _ :: rest => validateTips a rest

/-- `ValidateExpression` — forest_model.cc:66-98. -/
def validateExpression (a : Args) : Except Err Unit :=
  match validateTips a (visited a.expression) with
  | .error e => .error e
  | .ok () =>
    if a.submodelIds.all (fun s => (visited a.expression).contains (.src (.ph s.1))) then .ok () else .error .unused

/-- The loop of `ValidateOOBFilters` over the nodes of one filter — forest_model.cc:126-137. -/
def validateOobTips (a : Args) : List Tip → Except Err Unit
  | [] => .ok ()
  | .src (.leaf _) :: _ => .error .oobLeaves
  | .src (.ph k) :: rest => if a.inputs.contains k then validateOobTips a rest else .error .oobUnknown
  | .lit _ :: rest => validateOobTips a rest

/-- `ValidateOOBFilters` — forest_model.cc:118-140. -/
def validateOob (a : Args) : List E → Except Err Unit
  | [] => .ok ()
  | f :: fs =>
    match validateOobTips a (visited f) with
    | .error e => .error e
    | .ok () => validateOob a fs

/-- `ExpressionAnalysisResult` — forest_model.h:165-170. -/
structure Info where
  plainSum : Bool
  bagCount : Nat
  submodelNodes : List Key
  plainSumNodes : List Tip

/-- The loop of `AnalyzeExpression` over the tips — forest_model.cc:426-446. -/
def analyzeTips (ids : List (Key × List Int)) : List Tip → Nat → Except Err (Nat × List Key × List Tip)
  | [], bags => .ok (bags, [], [])
  | t :: rest, bags =>
    match t with
    | .src (.ph k) =>
      match ids.lookup k with
      | some submodels =>
        if submodels.isEmpty then .error .emptySubmodel
        else if bags ≠ 0 ∧ bags ≠ submodels.length then .error .bagCounts
        else match analyzeTips ids rest submodels.length with
          | .error e => .error e
          | .ok (b, sn, pn) => .ok (b, k :: sn, pn)
      | none =>
        match analyzeTips ids rest bags with
        | .error e => .error e
        | .ok (b, sn, pn) => .ok (b, sn, t :: pn)
    | _ =>
      match analyzeTips ids rest bags with
      | .error e => .error e
      | .ok (b, sn, pn) => .ok (b, sn, t :: pn)

/-- `AnalyzeExpression` — forest_model.cc:422-449; `low` is `ToLowest(expression_)`. -/
def analyze (a : Args) (low : E) : Except Err Info :=
  match analyzeTips a.submodelIds (visited low) 0 with
  | .error e => .error e
  | .ok (b, sn, pn) => .ok ⟨plainSum low, max b 1, sn, pn⟩

/-- `AddAll` — forest_model.cc:142-149. -/
def addAll (first : PE) (nodes : List PE) : PE := nodes.foldl (fun r n => .op .add [r, n]) first

/-- What `Initialize` computes: `processed_expression_`, `tree_filters_` and `submodel_weight_multipliers_` (the latest
assignment first). -/
structure Plan where
  processed : PE
  filters : List Filter
  mult : List (Int × Nat)

/-- One node of the plain sum, multiplied by the number of its occurrences — forest_model.cc:465-471. -/
def plainNode (e : E) (t : Tip) : PE :=
  if nodeCount e t > 1 then .op .multiply [t.toPE, .lit (.val (nodeCount e t))] else t.toPE

/-- The pairs (placeholder, submodel id) visited by the loops of `HandlePlainSumExpression` — forest_model.cc:475-477. -/
def plainPairs (ids : List (Key × List Int)) (nodes : List Key) : List (Key × Int) :=
  nodes.flatMap fun k => ((ids.lookup k).getD []).map fun id => (k, id)

/-- `submodel_weight_multipliers_` after these loops — forest_model.cc:479. -/
def plainMult (e : E) (pairs : List (Key × Int)) : List (Int × Nat) :=
  pairs.foldl (fun m p =>
    if nodeCount e (.src (.ph p.1)) > 1 then (p.2, nodeCount e (.src (.ph p.1))) :: m else m) []

/-- `HandlePlainSumExpression` — forest_model.cc:451-484. -/
def handlePlainSum (a : Args) (key : Key) (info : Info) : Plan where
  processed := addAll (.atom (.nth key 0)) (info.plainSumNodes.map (plainNode a.expression))
  filters := [{ submodels := (plainPairs a.submodelIds info.submodelNodes).map Prod.snd }]
  mult := plainMult a.expression (plainPairs a.submodelIds info.submodelNodes)

/-- The loop of `HandleExpressionWithoutBags` — forest_model.cc:487-497. -/
def noBagParams (key : Key) : List (Key × List Int) → Nat → List (Key × PE) × List Filter
  | [], _ => ([], [])
  | (k, submodels) :: rest, i =>
    let r := noBagParams key rest (i + 1)
    ((k, .atom (.nth key i)) :: r.1, { submodels := submodels } :: r.2)

/-- `HandleExpressionWithoutBags` — forest_model.cc:486-501. -/
def handleNoBags (a : Args) (key : Key) : Plan :=
  let r := noBagParams key a.submodelIds 0
  ⟨subst r.1 a.expression, r.2, []⟩

/-- A filter expression inside the processed expression. -/
def embed : E → PE := subst []

/-- The inner loop of `HandleExpressionWithBags` — forest_model.cc:539-556: the parameters of one bag and the submodels
of the new filters; `i` is `tree_filters_.size()`. -/
def bagParams (key : Key) (bag : Nat) : List (Key × List Int) → Nat → Except Err (List (Key × PE) × List Int)
  | [], _ => .ok ([], [])
  | (k, submodels) :: rest, i =>
    match submodels[bag]? with
    | none => .error .internal
    | some id =>
      match bagParams key bag rest (i + 1) with
      | .error e => .error e
      | .ok r => .ok ((k, .atom (.nth key i)) :: r.1, id :: r.2)

/-- The expression of one bag — forest_model.cc:557-565. -/
def bagExpr (a : Args) (params : List (Key × PE)) (filter : Option E) : PE :=
  match filter with
  | none => subst params a.expression
  | some f => .op .whereOp [embed f, subst params a.expression, .lit (.val 0)]

/-- The loop of `HandleExpressionWithBags` over the bags `bag, bag + 1, …` — forest_model.cc:537-566.  `todo` is the list
of the filters of these bags (`none` without `oob_filters`). -/
def bagLoop (a : Args) (key : Key) : List (Option E) → Nat → Nat → Except Err (List PE × List Int)
  | [], _, _ => .ok ([], [])
  | f :: rest, bag, i =>
    match bagParams key bag a.submodelIds i with
    | .error e => .error e
    | .ok (params, ids) =>
      match bagLoop a key rest (bag + 1) (i + ids.length) with
      | .error e => .error e
      | .ok (bags, more) => .ok (bagExpr a params f :: bags, ids ++ more)

/-- One summand of `UsedBagCountExpr` — forest_model.cc:510-513. -/
def usedBag (f : E) : PE := .op .whereOp [embed f, .lit (.val 1), .lit (.val 0)]

/-- `UsedBagCountExpr` — forest_model.cc:503-531 (there are as many filters as bags, and at least one bag). -/
def usedBagCount (bags : Nat) : Option (List E) → PE
  | none => .lit (.val bags)
  | some [] => .lit (.val 0)
  | some (f :: fs) =>
    let c := addAll (usedBag f) (fs.map usedBag)
    .op .whereOp [.op .greater [c, .lit (.val 0)], c, .lit .missing]

/-- The filters of the bags. -/
def bagFilters (bags : Nat) : Option (List E) → List (Option E)
  | none => List.replicate bags none
  | some fs => fs.map some

/-- `HandleExpressionWithBags` — forest_model.cc:533-573. -/
def handleBags (a : Args) (key : Key) (bags : Nat) : Except Err Plan :=
  match bagLoop a key (bagFilters bags a.oob) 0 0 with
  | .error e => .error e
  | .ok ([], _) => .error .internal
  | .ok (b :: bs, ids) =>
    .ok ⟨.op .divide [addAll b bs, usedBagCount bags a.oob], ids.map (fun id => { submodels := [id] }),
      ids.reverse.map fun id => (id, bags)⟩

/-- Conversion of a `size_t` to `int`. -/
def toInt (n : Nat) : Int := if n % 2 ^ 32 < 2 ^ 31 then n % 2 ^ 32 else (n % 2 ^ 32 : Int) - 2 ^ 32

/-- The truncation of the filters — forest_model.cc:603-607. -/
def truncate (t : Option Nat) (fs : List Filter) : List Filter :=
  match t with
  | none => fs
  | some n => fs.map fun f => { f with stepTo := toInt n }

/-- The test of the number of filters — forest_model.cc:591-594. -/
def oobSizeOk (oob : Option (List E)) (bags : Nat) : Bool :=
  match oob with
  | none => true
  | some fs => fs.length == bags

/-- A created model. -/
structure Model where
  args : Args
  key : Option Key
  plan : Plan
  bagCount : Nat

/-- `Initialize` — forest_model.cc:575-616. -/
def initModel (a : Args) (low : E) : Except Err Model :=
  match a.submodelIds with
  | [] => .ok ⟨a, none, ⟨embed a.expression, [], []⟩, 1⟩
  | (key, _) :: _ =>
    match analyze a low with
    | .error e => .error e
    | .ok info =>
      if ¬ oobSizeOk a.oob info.bagCount then .error .oobSize
      else
        match (if info.plainSum && a.oob.isNone then .ok (handlePlainSum a key info)
          else if info.bagCount == 1 && a.oob.isNone then .ok (handleNoBags a key)
          else handleBags a key info.bagCount : Except Err Plan) with
        | .error e => .error e
        | .ok p => .ok ⟨a, some key, { p with filters := truncate a.truncation p.filters }, info.bagCount⟩

/-- `ForestModel::Create` — forest_model.cc:173-230; `ValidateSignature` rejects repeated names. -/
def create (a : Args) (low : E) : Except Err Model :=
  if ¬ a.inputs.Nodup then .error .signature
  else match validateInputs a with
    | .error e => .error e
    | .ok () => match validateExpression a with
      | .error e => .error e
      | .ok () => match validateOob a (a.oob.getD []) with
        | .error e => .error e
        | .ok () => initModel a low

/-- The combined step filter of `GetMaybeUsedTrees` — forest_model.cc:628-641. -/
def combined (f : Filter) (fs : List Filter) : Filter :=
  fs.foldl (fun (c : Filter) (g : Filter) =>
    { stepFrom := min c.stepFrom g.stepFrom
      stepTo := if g.stepTo == -1 || c.stepTo == -1 then -1 else max c.stepTo g.stepTo })
    { stepFrom := f.stepFrom, stepTo := f.stepTo }

/-- `GetMaybeUsedTrees` — forest_model.cc:622-649. -/
def maybeUsed (trees : List T) : List Filter → List T
  | [] => []
  | f :: fs => trees.filter fun t => (combined f fs).accepts t.tag

/-- The weight of a tree in the evaluated forest — forest_model.cc:660-665. -/
def scale (mult : List (Int × Nat)) (t : T) : T :=
  match mult.lookup t.tag.submodel with
  | some m => { t with weight := t.weight * m }
  | none => t

/-- The trees of the operator — `CreateDecisionForestOperator`, forest_model.cc:653-670. -/
def operatorTrees (trees : List T) (mult : List (Int × Nat)) (filters : List Filter) : List T :=
  if mult.isEmpty then trees else (maybeUsed trees filters).map (scale mult)

/-- What a forest computes for one filter: the sum of the weighted adjustments of the accepted trees. -/
def filterSum (trees : List T) (f : Filter) : Rat :=
  ((trees.filter fun t => f.accepts t.tag).map fun t => t.adj * t.weight).sum

/-- The tuple computed by the operator of `CreateDecisionForestOperator`. -/
def forestTuple (trees : List T) (mult : List (Int × Nat)) (filters : List Filter) : List Rat :=
  filters.map (filterSum (operatorTrees trees mult filters))

/-- The parameters of `ApplyPostprocessing` — forest_model.cc:259-271: `inputs` are the values of the inputs, `tuple` is
the value of `raw_result`.  A placeholder without a value is an error (`must_substitute_all`). -/
def postEnv (inputs : List (Key × V)) (key : Option Key) (tuple : List Rat) : Atom → Option V
  | .leaf _ => none
  | .ph k => if key = some k then none else inputs.lookup k
  | .nth k i => if key = some k then (tuple[i]?).map .val else none

/-- `ApplyPostprocessing`, evaluated — forest_model.cc:256-281. -/
def postprocess (I : Nat → List V → Option V) (m : Model) (inputs : List V) (tuple : List Rat) : Option V :=
  eval I (postEnv (m.args.inputs.zip inputs) m.key tuple) m.plan.processed

/-- The value of the expression produced by `ToLowerLevel` — forest_model.cc:283-303. -/
def lowered (I : Nat → List V → Option V) (m : Model) (inputs : List V) : Option V :=
  postprocess I m inputs (forestTuple m.args.trees m.plan.mult m.plan.filters)

/-- The filters of `CreatePartialEvaluator` — forest_model.cc:308-318. -/
def partialFilters (filters : List Filter) : List (Int × Int) → Option (List Filter)
  | [] => some []
  | (lo, hi) :: rest =>
    if filters.any (fun f => f.stepFrom > lo || (f.stepTo ≥ 0 && f.stepTo < hi)) then none
    else match partialFilters filters rest with
      | none => none
      | some fs => some (filters.map (fun f => { stepFrom := lo, stepTo := hi, submodels := f.submodels }) ++ fs)

/-- `CreatePartialEvaluator`, evaluated — forest_model.cc:305-322; `none` is an error. -/
def partialEval (m : Model) (ranges : List (Int × Int)) : Option (List Rat) :=
  (partialFilters m.plan.filters ranges).map (forestTuple m.args.trees m.plan.mult)

end Verif.FModel
