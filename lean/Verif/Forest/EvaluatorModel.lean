import Verif.Forest.SingleModel
import Verif.Forest.RegularModel
import Mathlib.Algebra.Ring.Defs

/-!
# Model of `forest_evaluator.{h,cc}` and of the builder in `single_input_eval.{h,cc}`

In `arolla/decision_forest/pointwise_evaluation/`.

* Adjustments, weights and outputs are elements of a semiring `M`: the rounding of products and sums of `float` and
  `double` is not modelled.
* The input slots have the types of the signatures of the conditions (checked by `ValidateInputSlots`), so that binding a
  condition to its slots and `ToSlot` succeed, and input ids are in range.
* The regular compiler reports the error of a tree when the tree is added, the code reports some of them in `Build`.
* `none` is undefined behaviour or too little fuel.  Iteration over a `flat_hash_map` or `std::map` is an oracle.
-/

namespace Verif.Forest

/-- The type of an input: `OPTIONAL_FLOAT32`, `OPTIONAL_INT64`, any other. -/
inductive QT where
  | f32 | i64 | other (n : Nat)
  deriving DecidableEq, Repr

/-- `GetInputSignatures` — split_condition.h:111-113; arbitrary for the other
conditions. -/
def Cond.sig (osig : Nat → List (Nat × QT)) : Cond → List (Nat × QT)
  | .interval i _ _ => [(i, .f32)]
  | .setF32 i _ _ => [(i, .f32)]
  | .setI64 i _ _ => [(i, .i64)]
  | .other k => osig k

/-- `CompilationParams` — forest_evaluator.h:43-48. -/
structure Params where
  regular : Bool := true
  bitmask : Bool := true
  single : Bool := true

inductive FErr where
  | noOutput | intersection | noEvaluator | unsupported | regular (e : CErr) | bitmask | forest (e : Err)
  deriving DecidableEq, Repr

/-- What is not part of the code: signatures of other conditions, equality of conditions (including the comparison of
addresses), sorting and iteration, fuel. -/
structure Ctx where
  osig : Nat → List (Nat × QT)
  condEq : Cond → Cond → Bool
  o : Oracles
  fuel : Nat

/-! ### Groups -/

/-- The inner loop of `SplitTreesByGroups` — forest_evaluator.cc:64-72. -/
def assignGroup {M : Type} (g : Nat) (f : Filter) :
    List (Tree Cond M) → List (Option Nat) → Except FErr (List (Option Nat))
  | t :: ts, a :: as =>
    if !f.accepts t.tag then (assignGroup g f ts as).map (a :: ·)
    else if a.isSome then .error .intersection
    else (assignGroup g f ts as).map (some g :: ·)
  | _, as => .ok as

/-- The outer loop — forest_evaluator.cc:63-73. -/
def assignGroups {M : Type} (trees : List (Tree Cond M)) :
    Nat → List Filter → List (Option Nat) → Except FErr (List (Option Nat))
  | _, [], as => .ok as
  | g, f :: fs, as =>
    match assignGroup g f trees as with
    | .error e => .error e
    | .ok as => assignGroups trees (g + 1) fs as

/-- `SplitTreesByGroups` — forest_evaluator.cc:56-75; `none` is -1. -/
def splitTreesByGroups {M : Type} (trees : List (Tree Cond M)) (outputs : List Filter) : Except FErr (List (Option Nat)) :=
  if outputs.isEmpty then .error .noOutput
  else assignGroups trees 0 outputs (List.replicate trees.length none)

/-! ### Classification of trees -/

/-- `HasOnlyIntervalSplitConditions` — forest_evaluator.cc:47-54. -/
def onlyIntervals {M : Type} (t : Tree Cond M) : Bool :=
  t.splits.all fun n => match n.cond with
    | .interval .. => true
    | _ => false

/-- The loop of `GetSingleInputSignature` — forest_evaluator.cc:79-88; outer `none`: `return std::nullopt`. -/
def singleInputLoop (osig : Nat → List (Nat × QT)) :
    List (SplitNode Cond) → Option (Nat × QT) → Option (Option (Nat × QT))
  | [], cur => some cur
  | n :: rest, cur =>
    match n.cond.sig osig with
    | [s] => if cur.any fun c => c.1 != s.1 then none else singleInputLoop osig rest (some s)
    | _ => none

/-- `GetSingleInputSignature` — forest_evaluator.cc:77-89. -/
def singleInput {M : Type} (osig : Nat → List (Nat × QT)) (t : Tree Cond M) : Option (Nat × QT) :=
  (singleInputLoop osig t.splits none).join

/-- `IsInputTypeSupported` — single_input_eval.h:132-135. -/
def QT.supported : QT → Bool
  | .f32 => true
  | .i64 => true
  | .other _ => false

/-! ### The builders -/

/-- `PerGroupCompilers` — single_input_eval.h:157-161: maps from the input to its trees. -/
structure Singles (M : Type) where
  f32 : List (Nat × List (Tree Cond M)) := []
  i64 : List (Nat × List (Tree Cond M)) := []

/-- `SingleInputBuilder::AddTree` for one group — single_input_eval.cc:240-249. -/
def Singles.add {M : Type} (s : Singles M) (id : Nat) (q : QT) (t : Tree Cond M) : Singles M :=
  match q with
  | .f32 => { s with f32 := upsert id [] (· ++ [t]) s.f32 }
  | .i64 => { s with i64 := upsert id [] (· ++ [t]) s.i64 }
  | .other _ => s

/-- The builders in `ForestEvaluator::Compile` — forest_evaluator.cc:183-186: the trees of `universal_compilers_` and
`interval_splits_compilers_` with their submodels, the bitmask builder, the single input builder and `consts`, by group. -/
structure Parts (M : Type) where
  universal : List (List (Compact Cond M × Int))
  interval : List (List (Compact Cond M × Int))
  bitmask : BBuilder M
  singles : List (Singles M)
  consts : List (List (Int × M))

/-- The empty builders for a number of groups. -/
def newParts (M : Type) (groups : Nat) : Parts M :=
  ⟨List.replicate groups [], List.replicate groups [], {}, List.replicate groups {}, List.replicate groups []⟩

/-- `RegularPredictorsBuilder::AddTree` — forest_evaluator.cc:102-120, 136-163. -/
def Parts.addRegular {M : Type} [Semiring M] (p : Parts M) (t : Tree Cond M) (g : Nat) : Option (Except FErr (Parts M)) :=
  match compileRegular (fun a w => a * w) t with
  | none => none
  | some (.error e) => some (.error (.regular e))
  | some (.ok c) =>
    if onlyIntervals t then some (.ok { p with interval := p.interval.modify g (· ++ [(c, t.tag.submodel)]) })
    else some (.ok { p with universal := p.universal.modify g (· ++ [(c, t.tag.submodel)]) })

/-- The regular builder, if enabled — forest_evaluator.cc:232-237. -/
def Parts.addRegularIf {M : Type} [Semiring M] (p : Parts M) (enabled : Bool) (t : Tree Cond M) (g : Nat) :
    Option (Except FErr (Parts M)) :=
  if enabled then p.addRegular t g else some (.error .noEvaluator)

/-- `AddSmallTree`, if the tree is small — forest_evaluator.cc:226-237. -/
def Parts.addSmallOr {M : Type} [Semiring M] (ctx : Ctx) (p : Parts M) (params : Params) (t : Tree Cond M) (g : Nat) :
    Option (Except FErr (Parts M)) :=
  if t.adjustments.length ≤ 64 then
    (addSmallTree (fun a w => a * w) ctx.fuel p.bitmask t g).map fun b => .ok { p with bitmask := b }
  else p.addRegularIf params.regular t g

/-- The bitmask builder, then the regular builder — forest_evaluator.cc:217-237. -/
def Parts.addBitmaskOr {M : Type} [Semiring M] (ctx : Ctx) (p : Parts M) (params : Params) (t : Tree Cond M) (g : Nat) :
    Option (Except FErr (Parts M)) :=
  if params.bitmask && t.splits.all fun n => n.cond.supported then
    (toOblivious ctx.condEq (fun a w => a * w) t ctx.fuel).bind fun
      | some obl =>
        if obl.layers.length ≤ 64 then some (.ok { p with bitmask := addOblivious p.bitmask obl t.tag g })
        else p.addSmallOr ctx params t g
      | none => p.addSmallOr ctx params t g
  else p.addRegularIf params.regular t g

/-- The body of the loop over the trees for a tree of group `g` — forest_evaluator.cc:197-237. -/
def Parts.addTree {M : Type} [Semiring M] (ctx : Ctx) (p : Parts M) (params : Params) (t : Tree Cond M) (g : Nat) :
    Option (Except FErr (Parts M)) :=
  if params.regular && t.splits.isEmpty then
    (t.adjustments[0]?).bind fun a =>
      some (.ok { p with consts := p.consts.modify g (upsert t.tag.submodel 0 (· + a * t.weight)) })
  else
    match (if params.single then (singleInput ctx.osig t).filter (·.2.supported) else none) with
    | some (id, q) => some (.ok { p with singles := p.singles.modify g (·.add id q t) })
    | none => p.addBitmaskOr ctx params t g

/-- The loop over the trees — forest_evaluator.cc:190-238. -/
def addTrees {M : Type} [Semiring M] (ctx : Ctx) (params : Params) :
    List (Tree Cond M) → List (Option Nat) → Parts M → Option (Except FErr (Parts M))
  | t :: ts, some g :: as, p =>
    match p.addTree ctx params t g with
    | none => none
    | some (.error e) => some (.error e)
    | some (.ok p) => addTrees ctx params ts as p
  | _ :: ts, none :: as, p => addTrees ctx params ts as p
  | _, _, p => some (.ok p)

/-- The tree made for the constants of a submodel — forest_evaluator.cc:241-243. -/
def constTree {M : Type} [Semiring M] (c : Int × M) : Tree Cond M := ⟨[], [c.2], 1, ⟨0, c.1⟩⟩

/-- The loop over the constants of a group. -/
def addConstsOf {M : Type} [Semiring M] (g : Nat) : List (Int × M) → Parts M → Option (Except FErr (Parts M))
  | [], p => some (.ok p)
  | c :: rest, p =>
    match p.addRegular (constTree c) g with
    | none => none
    | some (.error e) => some (.error e)
    | some (.ok p) => addConstsOf g rest p

/-- The loop over the groups — forest_evaluator.cc:239-246. -/
def addConsts {M : Type} [Semiring M] (o : Oracles) : Nat → List (List (Int × M)) → Parts M → Option (Except FErr (Parts M))
  | _, [], p => some (.ok p)
  | g, cs :: rest, p =>
    match addConstsOf g (o.order cs) p with
    | none => none
    | some (.error e) => some (.error e)
    | some (.ok p) => addConsts o (g + 1) rest p

/-- All loops of `Compile` — forest_evaluator.cc:176-246. -/
def fillParts {M : Type} [Semiring M] (ctx : Ctx) (params : Params) (trees : List (Tree Cond M)) (outputs : List Filter) :
    Option (Except FErr (Parts M)) :=
  match splitTreesByGroups trees outputs with
  | .error e => some (.error e)
  | .ok as =>
    match addTrees ctx params trees as (newParts M outputs.length) with
    | none => none
    | some (.error e) => some (.error e)
    | some (.ok p) => addConsts ctx.o 0 p.consts p

/-! ### Regular and bitmask predictors -/

/-- `RegularPredictorsList` and `bitmask_predictor_`. -/
structure Core (M : Type) where
  regular : List (List (Compact Cond M × Int) × List (Compact Cond M × Int))
  bitmask : BEval M

/-- `Build` of the regular and the bitmask builder — forest_evaluator.cc:248-249, 122-134. -/
def Parts.buildCore {M : Type} (ctx : Ctx) (p : Parts M) (groups : Nat) : Except FErr (Core M) :=
  match p.bitmask.build ctx.o groups with
  | none => .error .bitmask
  | some b => .ok ⟨p.universal.zip p.interval, b⟩

/-- `RegularPredictors::Predict` for all outputs — forest_evaluator.cc:259-262, forest_evaluator.h:84-87: both predictors
start with zero. -/
def predictRegular {M : Type} [Semiring M] (fuel : Nat) (env : Env) :
    List (List (Compact Cond M × Int) × List (Compact Cond M × Int)) → Option (List M)
  | [] => some []
  | (u, i) :: rest => do
    let a ← predictBoosted (· + ·) (Cond.eval env) (fun _ => true) fuel u 0
    let b ← predictBoosted (· + ·) (Cond.eval env) (fun _ => true) fuel i 0
    let outs ← predictRegular fuel env rest
    pure ((a + b) :: outs)

/-- `ForestEvaluator::Eval` without the last step — forest_evaluator.cc:257-267. -/
def Core.eval {M : Type} [Semiring M] (ctx : Ctx) (c : Core M) (env : Env) : Option (List M) := do
  let outs ← predictRegular ctx.fuel env c.regular
  c.bitmask.eval 0 (· + ·) env outs

/-! ### Single input predictors -/

/-- `SimpleForestEvaluator::Compile` with single input evaluation disabled — forest_evaluator.h:111-125,
single_input_eval.cc:122-126.  The single input builder is empty, so its `Build` does nothing. -/
def compileInner {M : Type} [Semiring M] (ctx : Ctx) (trees : List (Tree Cond M)) : Option (Except FErr (Core M)) :=
  match fillParts ctx ⟨true, true, false⟩ trees [{}] with
  | none => none
  | some (.error e) => some (.error e)
  | some (.ok p) => some (p.buildCore ctx 1)

/-- `InternalEvaluator::Eval` — single_input_eval.cc:131-134, forest_evaluator.h:127-132. -/
def evalInner {M : Type} [Semiring M] (ctx : Ctx) (c : Core M) (env : Env) : Option M :=
  (c.eval ctx env).bind fun outs => outs[0]?

/-- `PiecewiseConstantCompiler<T>::Build` — single_input_eval.cc:146-179. -/
def buildSingle {M T : Type} [Semiring M] (ctx : Ctx) (k : NumKind T) (trees : List (Tree Cond M)) :
    Option (Except FErr (Piecewise T M)) :=
  match splitPoints k ctx.o trees with
  | none => some (.error .unsupported)
  | some points =>
    match fromTrees (Cond.sig ctx.osig) trees with
    | .error e => some (.error (.forest e))
    | .ok _ =>
      match compileInner ctx trees with
      | none => none
      | some (.error e) => some (.error e)
      | some (.ok core) => (buildPiecewise k (fun v => evalInner ctx core (k.frame v)) points).map .ok

/-- `BuildEvaluatorsVector` — single_input_eval.cc:253-268. -/
def buildVector {M T : Type} [Semiring M] (ctx : Ctx) (k : NumKind T) :
    List (Nat × List (Tree Cond M)) → Option (Except FErr (List (Nat × Piecewise T M)))
  | [] => some (.ok [])
  | (id, ts) :: rest =>
    match buildSingle ctx k ts with
    | none => none
    | some (.error e) => some (.error e)
    | some (.ok pw) =>
      match buildVector ctx k rest with
      | none => none
      | some (.error e) => some (.error e)
      | some (.ok pws) => some (.ok ((id, pw) :: pws))

/-- `PiecewiseConstantEvaluators` — single_input_eval.h:80-97: the evaluators with their inputs. -/
structure SingleEval (M : Type) where
  f32 : List (Nat × Piecewise Fl M)
  i64 : List (Nat × Piecewise Int M)

/-- One iteration of `SingleInputBuilder::Build` — single_input_eval.cc:270-283. -/
def buildGroup {M : Type} [Semiring M] (ctx : Ctx) (s : Singles M) : Option (Except FErr (SingleEval M)) :=
  match buildVector ctx f32Kind (ctx.o.order s.f32) with
  | none => none
  | some (.error e) => some (.error e)
  | some (.ok f) =>
    match buildVector ctx i64Kind (ctx.o.order s.i64) with
    | none => none
    | some (.error e) => some (.error e)
    | some (.ok i) => some (.ok ⟨f, i⟩)

/-- `SingleInputBuilder::Build` — single_input_eval.cc:270-283. -/
def buildSingles {M : Type} [Semiring M] (ctx : Ctx) : List (Singles M) → Option (Except FErr (List (SingleEval M)))
  | [] => some (.ok [])
  | s :: rest =>
    match buildGroup ctx s with
    | none => none
    | some (.error e) => some (.error e)
    | some (.ok x) =>
      match buildSingles ctx rest with
      | none => none
      | some (.error e) => some (.error e)
      | some (.ok xs) => some (.ok (x :: xs))

/-- The loop over the predictors of one type — single_input_eval.cc:216-221. -/
def sumPredictors {M T : Type} [Semiring M] (k : NumKind T) (env : Env) : List (Nat × Piecewise T M) → M → Option M
  | [], acc => some acc
  | (id, pw) :: rest, acc => do
    let v ← pw.eval k (k.read env id)
    sumPredictors k env rest (acc + v)

/-- `SingleInputEval::IncrementalEval` — single_input_eval.cc:213-223, 227-232. -/
def evalSingles {M : Type} [Semiring M] (env : Env) : List (SingleEval M) → List M → Option (List M)
  | [], outs => some outs
  | _ :: _, [] => none
  | s :: ss, out :: outs => do
    let a ← sumPredictors f32Kind env s.f32 0
    let b ← sumPredictors i64Kind env s.i64 a
    let rest ← evalSingles env ss outs
    pure ((out + b) :: rest)

/-! ### The forest evaluator -/

/-- `ForestEvaluator`. -/
structure Evaluator (M : Type) where
  core : Core M
  singles : List (SingleEval M)

/-- `ForestEvaluator::Compile` — forest_evaluator.cc:172-255. -/
def compileForest {M : Type} [Semiring M] (ctx : Ctx) (params : Params) (trees : List (Tree Cond M)) (outputs : List Filter) :
    Option (Except FErr (Evaluator M)) :=
  match fillParts ctx params trees outputs with
  | none => none
  | some (.error e) => some (.error e)
  | some (.ok p) =>
    match p.buildCore ctx outputs.length with
    | .error e => some (.error e)
    | .ok core =>
      match buildSingles ctx p.singles with
      | none => none
      | some (.error e) => some (.error e)
      | some (.ok singles) => some (.ok ⟨core, singles⟩)

/-- `ForestEvaluator::Eval` — forest_evaluator.cc:257-267. -/
def Evaluator.eval {M : Type} [Semiring M] (ctx : Ctx) (e : Evaluator M) (env : Env) : Option (List M) := do
  let outs ← e.core.eval ctx env
  evalSingles env e.singles outs

end Verif.Forest
