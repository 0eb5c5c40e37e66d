import Verif.Forest.EvaluatorModel
import Verif.Frames.IterModel

/-!
# Model of `BatchedForestEvaluator`

`arolla/decision_forest/batched_evaluation/batched_forest_evaluator.{h,cc}`, on top of the models of `ForestEvaluator`
(`Verif.Forest`) and `FrameIterator` (`Verif.Frames`).

* The sums computed by the evaluators are elements of a semiring `M` (see `Verif.Forest.EvaluatorModel`); inside of arrays
  and frames they are the values `Val.out`.
* Evaluation always uses one thread (`thread_count = 1`), as in the code.
* Everything else which is not determined by the arguments — iteration over hash maps, uninitialised memory, the contents
  of the frame buffers — is given by oracles, separately for every run of an evaluator.
* `none` is undefined behaviour (or too little fuel in `ForestEvaluator`).
-/

namespace Verif.Batched
open Verif.Forest (Cond Tree Filter QT Fl Env Meta FErr Ctx Evaluator fromTrees compileForest i64)
open Verif.Frames (Frame In InArr Scalar OutSlot Key Mem)
open Verif.Dense (DArr)
open Verif.Arr (Arr)

/-- Values in arrays and frames: inputs of type `float` and `int64_t`, inputs of other types, and computed sums. -/
inductive Val (M : Type) where
  | f32 (x : Fl)
  | i64 (n : Int)
  | obj (n : Nat)
  | out (y : M)
  deriving DecidableEq

/-- Value types as numbers: FLOAT32, INT64, others. -/
def tyOf : QT → Nat
  | .f32 => 0
  | .i64 => 1
  | .other n => n + 2

/-- What is not part of the code: the context of `ForestEvaluator`, which of the other types are optional, how a custom
condition depends on the values of its inputs, and the sums as `float`s. -/
structure BCtx (M : Type) where
  ctx : Ctx
  optional : Nat → Bool
  custom : Nat → List (Option (Val M)) → Bool
  toFloat : M → Fl

variable {M : Type}

/-- Is an input of this type an `OptionalValue`? -/
def BCtx.opt (c : BCtx M) : QT → Bool
  | .f32 => true
  | .i64 => true
  | .other n => c.optional n

/-! ## Compilation -/

/-- `split_count` — batched_forest_evaluator.cc:91-94. -/
def splitCount (trees : List (Tree Cond M)) : Int := (trees.map fun t => (t.splits.length : Int)).sum

/-- `evaluator_count` — batched_forest_evaluator.cc:95-97; division by zero and overflow are undefined. -/
def evaluatorCount (splits optimal : Int) : Option Int := do
  let a ← i64 (splits + optimal)
  let b ← i64 (a - 1)
  if optimal = 0 then none
  let q ← i64 (b.tdiv optimal)
  pure (max 1 q)

/-- The trees of the partial forests — batched_forest_evaluator.cc:115-137: `cur` are the trees collected so far, with
`count` splits.  The code compiles a partial forest as soon as it is complete. -/
def chunks (limit : Int) : List (Tree Cond M) → List (Tree Cond M) → Int → List (List (Tree Cond M))
  | [], cur, _ => if cur.isEmpty then [] else [cur]
  | t :: rest, cur, count =>
    if count + t.splits.length ≥ limit then (cur ++ [t]) :: chunks limit rest [] 0
    else chunks limit rest (cur ++ [t]) (count + t.splits.length)

/-- `DecisionForest::FromTrees` and `ForestEvaluator::Compile` for every partial forest — batched_forest_evaluator.cc:121-124,
132-135. -/
def compileAll [Semiring M] (ctx : Ctx) (outputs : List Filter) :
    List (List (Tree Cond M)) → Option (Except FErr (List (Evaluator M)))
  | [] => some (.ok [])
  | ts :: rest =>
    match fromTrees (Cond.sig ctx.osig) ts with
    | .error e => some (.error (.forest e))
    | .ok _ =>
      match compileForest ctx {} ts outputs with
      | none => none
      | some (.error e) => some (.error e)
      | some (.ok e) =>
        match compileAll ctx outputs rest with
        | none => none
        | some (.error e) => some (.error e)
        | some (.ok es) => some (.ok (e :: es))

/-- `CreatePointwiseEvaluators` — batched_forest_evaluator.cc:87-139. -/
def createEvaluators [Semiring M] (ctx : Ctx) (optimal : Int) (trees : List (Tree Cond M)) (outputs : List Filter) :
    Option (Except FErr (List (Evaluator M))) :=
  match evaluatorCount (splitCount trees) optimal with
  | none => none
  | some n =>
    if n = 1 then
      match compileForest ctx {} trees outputs with
      | none => none
      | some (.error e) => some (.error e)
      | some (.ok e) => some (.ok [e])
    else
      match i64 (splitCount trees + n) with
      | none => none
      | some a => compileAll ctx outputs (chunks ((a - 1).tdiv n) trees [] 0)

/-- `BatchedForestEvaluator`: `input_mapping_` (the `k`-th input has the pointwise slot `k`), the number of outputs (their
pointwise slots follow) and the evaluators. -/
structure Batched (M : Type) where
  required : List (Nat × QT)
  outputs : Nat
  evals : List (Evaluator M)

/-- `BatchedForestEvaluator::Compile` — batched_forest_evaluator.cc:147-187; `required` is `GetRequiredQTypes()` in the
order of the hash map. -/
def compileBatched [Semiring M] (ctx : Ctx) (optimal : Int) (required : List (Nat × QT)) (trees : List (Tree Cond M))
    (groups : List Filter) : Option (Except FErr (Batched M)) :=
  match createEvaluators ctx optimal trees groups with
  | none => none
  | some (.error e) => some (.error e)
  | some (.ok es) => some (.ok ⟨required, groups.length, es⟩)

/-- `input_pointwise_slots_`. -/
def inSlotsFrom (c : BCtx M) : Nat → List (Nat × QT) → List Scalar
  | _, [] => []
  | k, r :: rs => ⟨k, tyOf r.2, c.opt r.2⟩ :: inSlotsFrom c (k + 1) rs

/-- `output_pointwise_slots_`: `float` slots after the inputs. -/
def Batched.outSlots (b : Batched M) : List Scalar :=
  (List.range b.outputs).map fun g => ⟨b.required.length + g, 0, false⟩

/-- `input_count_` — batched_forest_evaluator.h:98-102. -/
def Batched.inputCount (b : Batched M) : Nat := (b.required.map fun r => r.1 + 1).foldl max 0

/-! ## Evaluation of one row -/

/-- The value of the input `x.1`, of type `x.2`, in a pointwise frame; other inputs are never read. -/
def readFrom (c : BCtx M) (f : Frame (Val M)) (x : Nat × QT) : Nat → List (Nat × QT) → Option (Val M)
  | _, [] => none
  | k, r :: rs =>
    if r = x then (if c.opt r.2 && !(f k).1 then none else some (f k).2) else readFrom c f x (k + 1) rs

/-- A `float`: an input, or a sum computed before. -/
def BCtx.asF32 (c : BCtx M) : Val M → Option Fl
  | .f32 x => some x
  | .out y => some (c.toFloat y)
  | _ => none

/-- An `int64_t`. -/
def Val.asI64 : Val M → Option Int
  | .i64 n => some n
  | _ => none

/-- What the conditions read in a pointwise frame. -/
def frameEnv (c : BCtx M) (required : List (Nat × QT)) (f : Frame (Val M)) : Env where
  f id := (readFrom c f (id, .f32) 0 required).bind c.asF32
  i id := (readFrom c f (id, .i64) 0 required).bind Val.asI64
  o k := c.custom k ((c.ctx.osig k).map fun s => readFrom c f s 0 required)

/-- `eval.Eval(f, f)`: the outputs go to the slots after the inputs.  (Where evaluation is undefined, anything is written:
then `runEvaluator` is undefined.) -/
def evalFrame [Semiring M] (c : BCtx M) (required : List (Nat × QT)) (e : Evaluator M) (f : Frame (Val M)) : Frame (Val M) :=
  fun t =>
    if t < required.length then f t
    else
      match (e.eval c.ctx (frameEnv c required f)).bind (fun outs => outs[t - required.length]?) with
      | some y => (true, .out y)
      | none => (false, .obj 0)

/-! ## Evaluation of a batch -/

inductive BErr where
  | notEnoughInputs
  | iter (e : Frames.Err)
  | addType
  deriving DecidableEq

/-- Contents of the evaluation frame: slot ↦ array. -/
abbrev Arrays (M : Type) := Nat → In (Val M)

/-- Oracles for one run of an evaluator. -/
structure RunOracle (M : Type) where
  inKeys : List Key
  outKeys : List Key
  mem : Mem (Val M)
  init : List (Frame (Val M))
  junk : Val M

/-- The assignments of `StoreOutput`. -/
def store (arrays : Arrays M) : List (Nat × In (Val M)) → Arrays M
  | [] => arrays
  | (s, a) :: rest => store (fun t => if t = s then a else arrays t) rest

/-- `run_evaluator` — batched_forest_evaluator.cc:238-255.  `inputs` are the slots of `input_arrays`, which are references
to the frame. -/
def runEvaluator [Semiring M] (c : BCtx M) (b : Batched M) (inputs : List Nat) (outputs : List OutSlot)
    (rowCount : Option Nat) (ora : RunOracle M) (e : Evaluator M) (arrays : Arrays M) :
    Option (Except BErr (Arrays M)) :=
  match Frames.create ora.inKeys ora.outKeys (inputs.map arrays) (inSlotsFrom c 0 b.required) outputs b.outSlots
      ⟨rowCount, 64⟩ with
  | .error e => some (.error (.iter e))
  | .ok it =>
    match Frames.run ora.junk ora.mem it (evalFrame c b.required e) ora.init (it.rowCount + 1) with
    | none => none
    | some (res, calls) =>
      if calls.all fun f => (e.eval c.ctx (frameEnv c b.required f)).isSome then some (.ok (store arrays res)) else none

/-- `sr[i] = sa[i] + sb[i]` for all `i < va.size()`. -/
def addValues [Add M] : List (Val M) → List (Val M) → Option (List (Val M))
  | [], _ => some []
  | .out x :: xs, .out y :: ys => (addValues xs ys).map (.out (x + y) :: ·)
  | _, _ => none

/-- `AddFullFloatArrays` — batched_forest_evaluator.cc:53-85. -/
def addFull [Add M] (a b : In (Val M)) : Option (Except BErr (In (Val M))) :=
  if a.ty ≠ 0 ∨ b.ty ≠ 0 then some (.error .addType)
  else
    match a.arr, b.arr with
    | .dense x, .dense y => (addValues x.values y.values).map fun vs => .ok ⟨0, .dense ⟨vs, [], 0⟩⟩
    | .sparse x, .sparse y =>
      (addValues x.data.values y.data.values).map fun vs => .ok ⟨0, .sparse (Arr.ofDense ⟨vs, [], 0⟩)⟩
    | _, _ => some (.error .addType)

/-- The loop over the outputs which adds the arrays in the frame to `res_sum` — batched_forest_evaluator.cc:269-274. -/
def addToSums [Add M] (arrays : Arrays M) : List OutSlot → List (In (Val M)) → Option (Except BErr (List (In (Val M))))
  | o :: os, s :: ss =>
    match addFull s (arrays o.id) with
    | none => none
    | some (.error e) => some (.error e)
    | some (.ok s) =>
      match addToSums arrays os ss with
      | none => none
      | some (.error e) => some (.error e)
      | some (.ok ss) => some (.ok (s :: ss))
  | [], _ => some (.ok [])
  | _ :: _, [] => none

/-- The last loop, which adds `res_sum` to the arrays in the frame — batched_forest_evaluator.cc:277-283. -/
def finishSums [Add M] : List OutSlot → List (In (Val M)) → Arrays M → Option (Except BErr (Arrays M))
  | o :: os, s :: ss, arrays =>
    match addFull s (arrays o.id) with
    | none => none
    | some (.error e) => some (.error e)
    | some (.ok s) => finishSums os ss (fun t => if t = o.id then s else arrays t)
  | [], _, arrays => some (.ok arrays)
  | _ :: _, [], _ => none

/-- The evaluators after the first one — batched_forest_evaluator.cc:266-283; `k` is `eval_id`. -/
def runRest [Semiring M] (run : RunOracle M → Evaluator M → Arrays M → Option (Except BErr (Arrays M)))
    (oracles : Nat → RunOracle M) (outputs : List OutSlot) :
    Nat → List (Evaluator M) → List (In (Val M)) → Arrays M → Option (Except BErr (Arrays M))
  | _, [], _, _ => none
  | k, e :: rest, sums, arrays =>
    match run (oracles k) e arrays with
    | none => none
    | some (.error e) => some (.error e)
    | some (.ok arrays) =>
      if rest.isEmpty then finishSums outputs sums arrays
      else
        match addToSums arrays outputs sums with
        | none => none
        | some (.error e) => some (.error e)
        | some (.ok sums) => runRest run oracles outputs (k + 1) rest sums arrays

/-- The row count for the iterators — batched_forest_evaluator.cc:216-223. -/
def rowCountOf (rowCount : Option Nat) (inputs inputSlots : List Nat) (arrays : Arrays M) : Option Nat :=
  match rowCount, inputs, inputSlots with
  | some n, _, _ => some n
  | none, i :: _, _ => some (arrays i).arr.size
  | none, [], s :: _ => some (arrays s).arr.size
  | none, [], [] => none

/-- `BatchedForestEvaluator::EvalBatch` — batched_forest_evaluator.cc:189-286. -/
def evalBatch [Semiring M] (c : BCtx M) (oracles : Nat → RunOracle M) (b : Batched M) (inputSlots : List Nat)
    (outputs : List OutSlot) (rowCount : Option Nat) (arrays : Arrays M) : Option (Except BErr (Arrays M)) :=
  if inputSlots.length < b.inputCount then some (.error .notEnoughInputs)
  else
    match b.required.mapM (fun r => inputSlots[r.1]?) with
    | none => none
    | some inputs =>
      let run := runEvaluator c b inputs outputs (rowCountOf rowCount inputs inputSlots arrays)
      match b.evals with
      | [] => none
      | [e] => run (oracles 0) e arrays
      | e :: rest =>
        match run (oracles 0) e arrays with
        | none => none
        | some (.error e) => some (.error e)
        | some (.ok arrays) => runRest run oracles outputs 1 rest (outputs.map fun o => arrays o.id) arrays

end Verif.Batched
