import Verif.Group.IterModel
import Verif.Agg.AccModel
import Verif.Util.SearchModel

/-!
# Model of the group operations

`DenseGroupOpsImpl` (`arolla/dense_array/ops/dense_group_ops.h`) and `ArrayGroupOpImpl`
(`arolla/array/group_op.h`), for an arbitrary accumulator.

As in `IterModel`, all arguments have one value type `V`, which includes `int64_t` (`idOf` reads an id).  The
calls of a result builder are collected in a list and performed when the array is built; a builder gives
nothing back but the number of added ids, which is counted.  `absl::flat_hash_map` is a list of pairs which is
iterated in an arbitrary order.  Integers are unbounded.
-/

namespace Verif.Group
open Verif.Bits Verif.Bitmap Verif.Dense Verif.Arr Verif.Agg

variable {V P A R E S β : Type}

/-- `AccumulatorType` — qexpr/aggregation_ops_interface.h:72-83. -/
inductive Kind where
  | aggregator
  | partial'
  | full
  deriving DecidableEq

/-- An instance of the class templates — dense_group_ops.h:44-67, group_op.h:53-95: the accumulator,
`empty_accumulator_`, `ForwardId`, and how the arguments are passed; `opt` is the conversion of a result to
`OptionalValue<ResT>`. -/
structure GroupOp (V P A R E S β : Type) where
  acc : Acc P A R E S
  empty : S
  kind : Kind
  forward : Bool
  idOf : V → Int
  parg : List (Option V) → P
  carg : Option Int → List (Option V) → A
  opt : R → Option β

inductive GErr (E : Type) where
  | sizeMismatch
  | splits
  | acc (e : E)

/-- What the operation gets from its environment: uninitialised memory, the answer of pointer comparisons and the
iteration order of the hash map. -/
structure Env (V S β : Type) where
  vmem : Nat → V
  bmem : Nat → Word
  pe : List Int → List Int → Bool
  rmem : Nat → β
  idmem : Nat → Int
  order : List (Nat × S) → List (Nat × S)

/-- `Add` — dense_group_ops.h:310-318, group_op.h:591-599. -/
def GroupOp.add (op : GroupOp V P A R E S β) (c : Int) (args : List (Option V)) (s : S) : S :=
  op.acc.add (op.carg (if op.forward then some c else none) args) s

/-- The loop of `AddN` — group_op.h:604-606. -/
def GroupOp.addEach (op : GroupOp V P A R E S β) (first : Int) (args : List (Option V)) : Nat → S → S
  | 0, s => s
  | n + 1, s => op.addEach (first + 1) args n (op.add first args s)

/-- `AddN` — group_op.h:601-611. -/
def GroupOp.addN (op : GroupOp V P A R E S β) (first : Int) (n : Nat) (args : List (Option V)) (s : S) : S :=
  if op.forward then op.addEach first args n s else op.acc.addN n (op.carg none args) s

/-- `RETURN_IF_ERROR(accumulator.GetStatus())`. -/
def GroupOp.checked (op : GroupOp V P A R E S β) (s : S) (r : Option α) : Option (Except (GErr E) α) :=
  match op.acc.status s with
  | some e => some (.error (.acc e))
  | none => r.map .ok

/-- The accumulator shared by all groups, the calls of `builder.Set` and `processed_rows`. -/
structure GState (S R : Type) where
  acc : S
  sets : List (Nat × R)
  rows : List Nat

/-- The loop `for (row_id : processed_rows) builder.Set(row_id, GetResult())` — dense_group_ops.h:141-143, 303-305,
group_op.h:542-544. -/
def getEach (acc : Acc P A R E S) : List Nat → S → List (Nat × R) × S
  | [], s => ([], s)
  | c :: cs, s =>
    let (r, s) := acc.get s
    let (rs, s) := getEach acc cs s
    ((c, r) :: rs, s)

/-- The callback for a valid child row — dense_group_ops.h:126-137, 285-296, group_op.h:526-533. -/
def GroupOp.rowFn (op : GroupOp V P A R E S β) (c : Nat) (args : List (Option V)) (st : GState S R) : GState S R :=
  let s := op.add c args st.acc
  match op.kind with
  | .aggregator => { st with acc := s }
  | .partial' => let (r, s) := op.acc.get s; { st with acc := s, sets := st.sets ++ [(c, r)] }
  | .full => { st with acc := s, rows := st.rows ++ [c] }

/-- After the rows of a group — dense_group_ops.h:299-307, group_op.h:540-546. -/
def GroupOp.groupEnd (op : GroupOp V P A R E S β) (parent : Nat) (st : GState S R) : GState S R :=
  match op.kind with
  | .aggregator => let (r, s) := op.acc.get st.acc; { st with acc := s, sets := st.sets ++ [(parent, r)] }
  | .partial' => st
  | .full =>
    let (rs, s) := getEach op.acc st.rows (op.acc.finalize st.acc)
    ⟨s, st.sets ++ rs, []⟩

/-- The array of a `DenseArrayBuilder` after the calls of `Set`. -/
def GroupOp.buildDense (op : GroupOp V P A R E S β) (mem : Nat → β) (n : Nat) (sets : List (Nat × R)) :
    Option (DArr β) := do
  let b ← (DBuilder.new ((List.range n).map mem)).applyAll (sets.map fun x => .set x.1 (op.opt x.2))
  some b.build

/-- A raw value `splits[i]`. -/
def GroupOp.split (op : GroupOp V P A R E S β) (splits : List V) (i : Nat) : Option Nat :=
  (splits[i]?).bind fun v => Arr.toIdx (op.idOf v)

/-! ## dense_group_ops.h -/

/-- `DenseArrayEdge` or `ArrayEdge` with values of type `X`. -/
structure GEdge (X : Type) where
  isSplit : Bool
  parentSize : Nat
  childSize : Nat
  values : X

/-- The callback over all rows of a range. -/
def GroupOp.denseRows (op : GroupOp V P A R E S β) (rows : List (Row V)) (st : GState S R) : GState S R :=
  rows.foldl (fun st x => if x.2.1 then op.rowFn x.1 x.2.2 st else st) st

/-- The callback over parents — dense_group_ops.h:261-269 with `ProcessSingleGroupWithSplitPoints` (275-308). -/
def GroupOp.denseGroups (op : GroupOp V P A R E S β) (splits : List V) (cargs : List (Arg V)) :
    List (Row V) → GState S R → Option (GState S R)
  | [], st => some st
  | (p, valid, args) :: rest, st =>
    if valid then do
      let lo ← op.split splits p
      let hi ← op.split splits (p + 1)
      let rows ← denseIterate cargs lo hi
      op.denseGroups splits cargs rest
        (op.groupEnd p (op.denseRows rows { st with acc := op.acc.reset (op.parg args) st.acc }))
    else op.denseGroups splits cargs rest st

/-- `ApplyWithSplitPoints` — dense_group_ops.h:243-273. -/
def GroupOp.denseSplits (op : GroupOp V P A R E S β) (mem : Nat → β) (np nc : Nat) (splits : DArr V)
    (pargs cargs : List (Arg V)) : Option (Except (GErr E) (DArr β)) :=
  if splits.values.length ≠ np + 1 then some (.error .splits)
  else do
    let ps ← denseIterateFromZero pargs np
    let st ← op.denseGroups splits.values cargs ps ⟨op.empty, [], []⟩
    op.checked st.acc (op.buildDense mem (if op.kind = .aggregator then np else nc) st.sets)

/-- The accumulators of all groups and which of them are valid. -/
structure MState (S : Type) where
  accs : List S
  valid : List Bool

/-- The callback over parents — dense_group_ops.h:170-173. -/
def GroupOp.denseResets (op : GroupOp V P A R E S β) : List (Row V) → MState S → Option (MState S)
  | [], st => some st
  | (i, valid, args) :: rest, st => do
    let accs ← if valid then do wrV st.accs i (op.acc.reset (op.parg args) (← st.accs[i]?)) else some st.accs
    op.denseResets rest ⟨accs, ← wrV st.valid i valid⟩

/-- The accumulators, the calls of `builder.Set`, and the rows for post-processing with their parents. -/
structure CState' (S R : Type) where
  accs : List S
  sets : List (Nat × R)
  rows : List (Nat × Nat)

/-- The callback for a row whose group is valid — dense_group_ops.h:193-202, group_op.h:287-295, 397-400. -/
def GroupOp.mapRow (op : GroupOp V P A R E S β) (c i : Nat) (args : List (Option V)) (st : CState' S R) :
    Option (CState' S R) := do
  let s := op.add c args (← st.accs[i]?)
  match op.kind with
  | .aggregator => some { st with accs := ← wrV st.accs i s }
  | .partial' =>
    let (r, s) := op.acc.get s
    some { st with accs := ← wrV st.accs i s, sets := st.sets ++ [(c, r)] }
  | .full => some { st with accs := ← wrV st.accs i s, rows := st.rows ++ [(c, i)] }

/-- The first value of a row of `MappingAndChildUtil`, the id of the parent. -/
def GroupOp.parentId (op : GroupOp V P A R E S β) (args : List (Option V)) : Option Nat :=
  args.head?.join.bind fun v => Arr.toIdx (op.idOf v)

/-- The callback over child rows — dense_group_ops.h:188-203. -/
def GroupOp.denseMapRows (op : GroupOp V P A R E S β) (validGroups : List Bool) :
    List (Row V) → CState' S R → Option (CState' S R)
  | [], st => some st
  | (c, valid, args) :: rest, st =>
    if valid then do
      let i ← op.parentId args
      if ← validGroups[i]? then op.denseMapRows validGroups rest (← op.mapRow c i args.tail st)
      else op.denseMapRows validGroups rest st
    else op.denseMapRows validGroups rest st

/-- `FinalizeFullGroup` for all valid groups — dense_group_ops.h:209-213, group_op.h:301-305. -/
def finalizeAll (acc : Acc P A R E S) : List Bool → List S → List S
  | v :: vs, s :: ss => (if v then acc.finalize s else s) :: finalizeAll acc vs ss
  | _, ss => ss

/-- `GetResult` for all processed rows — dense_group_ops.h:214-222, group_op.h:306-309.  The code reads the parents of the
dense case from `mapping.values`. -/
def getRows (acc : Acc P A R E S) : List (Nat × Nat) → List S → Option (List (Nat × R) × List S)
  | [], ss => some ([], ss)
  | (c, i) :: rest, ss => do
    let (r, s) := acc.get (← ss[i]?)
    let (rs, ss) ← getRows acc rest (← wrV ss i s)
    some ((c, r) :: rs, ss)

/-- The last loop over parents from parent `i` — dense_group_ops.h:225-233, group_op.h:312-318, 405-414: the results and the
first error. -/
def GroupOp.lastLoop (op : GroupOp V P A R E S β) : Nat → List Bool → List S → List (Nat × R) × Option E
  | i, v :: vs, s :: ss =>
    if v then
      let (out, s) := if op.kind = .aggregator then let (r, s) := op.acc.get s; ([(i, r)], s) else ([], s)
      match op.acc.status s with
      | some e => (out, some e)
      | none => let (outs, e) := op.lastLoop (i + 1) vs ss; (out ++ outs, e)
    else op.lastLoop (i + 1) vs ss
  | _, _, _ => ([], none)

/-- `processed_child_rows` with the parents read from `mapping.values` — dense_group_ops.h:214-222. -/
def GroupOp.reread (op : GroupOp V P A R E S β) (mapping : List V) (rows : List (Nat × Nat)) :
    Option (List (Nat × Nat)) :=
  rows.mapM fun x => do some (x.1, ← op.split mapping x.1)

/-- `ApplyWithMapping` — dense_group_ops.h:154-236.  The bitmap `processed_child_rows` is the list of its rows, which are
visited in increasing order. -/
def GroupOp.denseMapping (op : GroupOp V P A R E S β) (mem : Nat → β) (np nc : Nat) (mapping : DArr V)
    (pargs cargs : List (Arg V)) : Option (Except (GErr E) (DArr β)) := do
  let ps ← denseIterateFromZero pargs np
  let ms ← op.denseResets ps ⟨List.replicate np op.empty, List.replicate np false⟩
  let rows ← denseIterate (⟨false, mapping⟩ :: cargs) 0 nc
  let cs ← op.denseMapRows ms.valid rows ⟨ms.accs, [], []⟩
  let accs := if op.kind = .full then finalizeAll op.acc ms.valid cs.accs else cs.accs
  let (rs, accs) ← getRows op.acc (← op.reread mapping.values cs.rows) accs
  let (outs, e) := op.lastLoop 0 ms.valid accs
  match e with
  | some e => some (.error (.acc e))
  | none => (op.buildDense mem (if op.kind = .aggregator then np else nc) (cs.sets ++ rs ++ outs)).map .ok

/-- `Apply` — dense_group_ops.h:77-100. -/
def GroupOp.denseApply (op : GroupOp V P A R E S β) (mem : Nat → β) (e : GEdge (DArr V)) (pargs cargs : List (Arg V)) :
    Option (Except (GErr E) (DArr β)) :=
  if pargs.any (fun a => decide (a.arr.values.length ≠ e.parentSize)) then some (.error .sizeMismatch)
  else if cargs.any (fun a => decide (a.arr.values.length ≠ e.childSize)) then some (.error .sizeMismatch)
  else if e.isSplit then op.denseSplits mem e.parentSize e.childSize e.values pargs cargs
  else op.denseMapping mem e.parentSize e.childSize e.values pargs cargs

/-- `Apply` to one group: the result of an aggregator, or an array. -/
inductive ScalarRes (R D : Type) where
  | value (r : R)
  | array (d : D)

/-- `Apply(DenseArrayGroupScalarEdge)` — dense_group_ops.h:102-148. -/
def GroupOp.denseScalar (op : GroupOp V P A R E S β) (mem : Nat → β) (nc : Nat) (p : P) (cargs : List (Arg V)) :
    Option (Except (GErr E) (ScalarRes R (DArr β))) :=
  if cargs.any (fun a => decide (a.arr.values.length ≠ nc)) then some (.error .sizeMismatch)
  else do
    let rows ← denseIterate cargs 0 nc
    let st := op.denseRows rows ⟨op.acc.reset p op.empty, [], []⟩
    match op.kind with
    | .aggregator => let (r, s) := op.acc.get st.acc; op.checked s (some (.value r))
    | _ =>
      let st := op.groupEnd 0 st
      op.checked st.acc ((op.buildDense mem nc st.sets).map .array)

/-! ## group_op.h -/

/-- `ArrayOpsUtil`, also without arguments — ops_util.h:276-310. -/
inductive GUtil (V : Type) where
  | noArgs (size : Nat)
  | args (u : Util V)

def GUtil.make (env : Env V S β) (size : Nat) : List (AArg V) → Option (GUtil V)
  | [] => some (.noArgs size)
  | a :: as => (Util.make env.vmem env.bmem env.pe size a as).map .args

def GUtil.estimate : GUtil V → Nat
  | .noArgs n => n
  | .args u => u.estimate

def GUtil.iterate (fr en : Nat) : GUtil V → Option (List (Call V))
  | .noArgs _ => some (iterateNoArgs fr en)
  | .args u => u.iterate fr en

def GUtil.iterateSimple : GUtil V → Option (List (Int × List (Option V)))
  | .noArgs n => some ((List.range n).map fun (i : Nat) => ((i : Int), []))
  | .args u => u.iterateSimple

/-- The calls of `fn` by `Iterate(from, to, fn)` — ops_util.h:113-125, 292-295. -/
def Call.each : Call V → List (Int × List (Option V))
  | .fn id args => [(id, args)]
  | .rep id n args => (List.range n.toNat).map fun (k : Nat) => (id + k, args)
  | .miss _ _ => []

def GUtil.iterateFn (u : GUtil V) (fr en : Nat) : Option (List (Int × List (Option V))) := do
  some ((← u.iterate fr en).flatMap Call.each)

/-- Ids as indices. -/
def natIds (l : List (Int × X)) : Option (List (Nat × X)) := l.mapM fun x => do some (← Arr.toIdx x.1, x.2)

/-- `AggregateSingleGroup` — group_op.h:438-449. -/
def GroupOp.aggregateCall (op : GroupOp V P A R E S β) (s : S) : Call V → S
  | .fn id args => op.add id args s
  | .rep id n args => op.addN id n.toNat args s
  | .miss _ _ => s

/-- `ApplyAggregatorWithSplitPoints` — group_op.h:419-436. -/
def GroupOp.aggSplits (op : GroupOp V P A R E S β) (splits : List V) (cu : GUtil V) :
    List (Nat × List (Option V)) → GState S R → Option (GState S R)
  | [], st => some st
  | (p, args) :: rest, st => do
    let lo ← op.split splits p
    let hi ← op.split splits (p + 1)
    let calls ← cu.iterate lo hi
    op.aggSplits splits cu rest
      (op.groupEnd p { st with acc := calls.foldl op.aggregateCall (op.acc.reset (op.parg args) st.acc) })

/-- `process_group` of `ApplyDenseWithSplitPoints` — group_op.h:535-547. -/
def GroupOp.denseFormSplits (op : GroupOp V P A R E S β) (splits : List V) (cu : GUtil V) :
    List (Nat × List (Option V)) → GState S R → Option (GState S R)
  | [], st => some st
  | (p, args) :: rest, st => do
    let lo ← op.split splits p
    let hi ← op.split splits (p + 1)
    let rows ← natIds (← cu.iterateFn lo hi)
    op.denseFormSplits splits cu rest (op.groupEnd p
      (rows.foldl (fun st x => op.rowFn x.1 x.2 st) { st with acc := op.acc.reset (op.parg args) st.acc }))

/-- The accumulator, the calls of `SparseArrayBuilder` and its `NextOffset`. -/
structure SState (S β : Type) where
  acc : S
  ops : List (SOp β)
  next : Nat

/-- The callback for a valid child row — group_op.h:233-239, 565-571. -/
def GroupOp.sparseRow (op : GroupOp V P A R E S β) (st : SState S β) (x : Nat × List (Option V)) : SState S β :=
  let s := op.add x.1 x.2 st.acc
  if op.kind = .partial' then
    let (r, s) := op.acc.get s
    ⟨s, st.ops ++ [.setByOffset st.next (op.opt r), .addId x.1], st.next + 1⟩
  else ⟨s, st.ops ++ [.addId x.1], st.next + 1⟩

/-- `SetByOffset(offset, GetResult())` for `n` offsets — group_op.h:243-245, 581-583. -/
def GroupOp.setOffsets (op : GroupOp V P A R E S β) : Nat → Nat → S → List (SOp β) × S
  | _, 0, s => ([], s)
  | o, n + 1, s =>
    let (r, s) := op.acc.get s
    let (rs, s) := op.setOffsets (o + 1) n s
    (.setByOffset o (op.opt r) :: rs, s)

/-- The rows of a group and the results of a full accumulator — group_op.h:577-584. -/
def GroupOp.sparseGroup (op : GroupOp V P A R E S β) (rows : List (Nat × List (Option V))) (st : SState S β) :
    SState S β :=
  let st' := rows.foldl op.sparseRow st
  if op.kind = .full then
    let (ops, s) := op.setOffsets st.next (st'.next - st.next) (op.acc.finalize st'.acc)
    ⟨s, st'.ops ++ ops, st'.next⟩
  else st'

/-- `process_group` of `ApplySparseWithSplitPoints` — group_op.h:573-585. -/
def GroupOp.sparseSplits (op : GroupOp V P A R E S β) (splits : List V) (cu : GUtil V) :
    List (Nat × List (Option V)) → SState S β → Option (SState S β)
  | [], st => some st
  | (p, args) :: rest, st => do
    let lo ← op.split splits p
    let hi ← op.split splits (p + 1)
    let rows ← natIds (← cu.iterateFn lo hi)
    op.sparseSplits splits cu rest (op.sparseGroup rows { st with acc := op.acc.reset (op.parg args) st.acc })

/-- The array of a `SparseArrayBuilder` for `cnt` values after the calls. -/
def buildSparse (env : Env V S β) (size cnt : Nat) (ops : List (SOp β)) : Option (Arr β) := do
  let b ← (SBuilder.new size ((List.range cnt).map env.rmem) ((List.range cnt).map env.idmem)).applyAll ops
  some b.build

/-- State of `ApplyAggregatorWithSplitPointsOnVerySparseData` — group_op.h:468-477. -/
structure VState (S R E : Type) where
  next : Nat
  acc : S
  status : Option E
  out : List (Nat × R)

/-- `add_previous_to_results` — group_op.h:481-489; `cap` is `max_res_dense_count`. -/
def GroupOp.addPrevious (op : GroupOp V P A R E S β) (cap : Nat) (st : VState S R E) : Option (VState S R E) :=
  if st.next > 0 ∧ st.status.isNone then
    if st.out.length < cap then
      let (r, s) := op.acc.get st.acc
      some ⟨st.next, op.acc.reset (op.parg []) s, op.acc.status s, st.out ++ [(st.next - 1, r)]⟩
    else none
  else some st

/-- Crossing a split point — group_op.h:493-498. -/
def GroupOp.cross (op : GroupOp V P A R E S β) (cap : Nat) (splits : List V) (c : Nat) (st : VState S R E) :
    Option (VState S R E) := do
  let v ← op.split splits st.next
  if c ≥ v then do
    let st ← op.addPrevious cap st
    let d ← Verif.Search.gallopingLowerBound (splits.drop st.next) (fun v => decide (op.idOf v < (c : Int) + 1))
    some { st with next := st.next + d }
  else some st

/-- The callback over child rows — group_op.h:491-500. -/
def GroupOp.verySplitRows (op : GroupOp V P A R E S β) (cap : Nat) (splits : List V) :
    List (Nat × List (Option V)) → VState S R E → Option (VState S R E)
  | [], st => some st
  | (c, args) :: rest, st => do
    let st ← op.cross cap splits c st
    op.verySplitRows cap splits rest { st with acc := op.add c args st.acc }

/-- The sparse array of results with a value for missing ids — group_op.h:359-378, 504-513. -/
def GroupOp.buildGroups (op : GroupOp V P A R E S β) (env : Env V S β) (np cap : Nat) (out : List (Nat × R))
    (miss : Option β) : Option (Arr β) := do
  let b ← (DBuilder.new ((List.range cap).map env.rmem)).applyAll
    (out.zipIdx.map fun x => .set x.2 (op.opt x.1.2))
  some (.make np (mkFilter np (out.map fun x => (x.1 : Int)) 0) (b.buildSize out.length) miss)

/-- `ApplyAggregatorWithSplitPointsOnVerySparseData` — group_op.h:461-514. -/
def GroupOp.verySplits (op : GroupOp V P A R E S β) (env : Env V S β) (np : Nat) (cu : GUtil V) (splits : List V) :
    Option (Except (GErr E) (Arr β)) := do
  let cap := min np cu.estimate
  let rows ← natIds (← cu.iterateSimple)
  let st ← op.verySplitRows cap splits rows ⟨0, op.acc.reset (op.parg []) op.empty, none, []⟩
  let st ← op.addPrevious cap st
  match st.status with
  | some e => some (.error (.acc e))
  | none =>
    if st.out.length < np then
      let (r, s) := op.acc.get st.acc
      op.checked s (op.buildGroups env np cap st.out (op.opt r))
    else (op.buildGroups env np cap st.out none).map .ok

/-- Apply a function to the value of a key, starting with `init` if there is none. -/
def upsert (k : Nat) (init : S) (f : S → S) : List (Nat × S) → List (Nat × S)
  | [] => [(k, f init)]
  | (k', s) :: rest => if k' = k then (k', f s) :: rest else (k', s) :: upsert k init f rest

/-- The callback over child rows — group_op.h:339-346. -/
def GroupOp.veryMapRows (op : GroupOp V P A R E S β) :
    List (Nat × List (Option V)) → List (Nat × S) → Option (List (Nat × S))
  | [], m => some m
  | (c, args) :: rest, m => do
    let i ← op.parentId args
    op.veryMapRows rest (upsert i (op.acc.reset (op.parg []) op.empty) (op.add c args.tail) m)

/-- The loop over the hash map — group_op.h:352-355: the results up to the first error. -/
def GroupOp.veryResults (op : GroupOp V P A R E S β) : List (Nat × S) → List (Nat × R) × Option E
  | [] => ([], none)
  | (i, s) :: rest =>
    let (r, s) := op.acc.get s
    match op.acc.status s with
    | some e => ([(i, r)], some e)
    | none => let (rs, e) := op.veryResults rest; ((i, r) :: rs, e)

/-- `ApplyAggregatorWithMappingOnVerySparseData` — group_op.h:332-379; the ids sorted by `std::sort` are distinct. -/
def GroupOp.veryMapping (op : GroupOp V P A R E S β) (env : Env V S β) (np : Nat) (mu : GUtil V) :
    Option (Except (GErr E) (Arr β)) := do
  let rows ← natIds (← mu.iterateSimple)
  let accs ← op.veryMapRows rows []
  let (rs, e) := op.veryResults (env.order accs)
  match e with
  | some e => some (.error (.acc e))
  | none =>
    let sorted := rs.mergeSort fun a b => decide (a.1 ≤ b.1)
    if accs.length < np then
      let (r, s) := op.acc.get (op.acc.reset (op.parg []) op.empty)
      op.checked s (op.buildGroups env np accs.length sorted (op.opt r))
    else (op.buildGroups env np accs.length sorted none).map .ok

/-- The callback over parents — group_op.h:263-266. -/
def GroupOp.resets (op : GroupOp V P A R E S β) : List (Nat × List (Option V)) → MState S → Option (MState S)
  | [], st => some st
  | (i, args) :: rest, st => do
    op.resets rest ⟨← wrV st.accs i (op.acc.reset (op.parg args) (← st.accs[i]?)), ← wrV st.valid i true⟩

/-- The callback over child rows — group_op.h:284-296 and 389-402; an aggregator adds values also to groups which are not
valid. -/
def GroupOp.mapRows (op : GroupOp V P A R E S β) (validParents : List Bool) :
    List (Nat × List (Option V)) → CState' S R → Option (CState' S R)
  | [], st => some st
  | (c, args) :: rest, st => do
    let i ← op.parentId args
    if op.kind = .aggregator then op.mapRows validParents rest (← op.mapRow c i args.tail st)
    else if ← validParents[i]? then op.mapRows validParents rest (← op.mapRow c i args.tail st)
    else op.mapRows validParents rest st

/-- The calls of `SparseArrayBuilder` for a partial accumulator — group_op.h:290, 295. -/
def GroupOp.partialOps (op : GroupOp V P A R E S β) (sets : List (Nat × R)) : List (SOp β) :=
  sets.zipIdx.flatMap fun x => [.setByOffset x.2 (op.opt x.1.2), .addId x.1.1]

/-- The calls of `SparseArrayBuilder` for a full accumulator — group_op.h:295, 306-309. -/
def GroupOp.fullOps (op : GroupOp V P A R E S β) (rows : List (Nat × Nat)) (rs : List (Nat × R)) : List (SOp β) :=
  rows.map (fun x => .addId x.1) ++ rs.zipIdx.map fun x => .setByOffset x.2 (op.opt x.1.2)

/-- `ApplyWithMapping` — group_op.h:253-321 and `ApplyAggregatorOrDensePartialWithMapping` — 381-417. -/
def GroupOp.mapping (op : GroupOp V P A R E S β) (env : Env V S β) (np nc : Nat) (pu mu : GUtil V) :
    Option (Except (GErr E) (Arr β)) := do
  let ms ← op.resets (← natIds (← pu.iterateSimple)) ⟨List.replicate np op.empty, List.replicate np false⟩
  let rows ← natIds (← mu.iterateSimple)
  let cs ← op.mapRows ms.valid rows ⟨ms.accs, [], []⟩
  if op.kind = .aggregator ∨ (op.kind = .partial' ∧ 4 * mu.estimate > nc) then
    let (outs, e) := op.lastLoop 0 ms.valid cs.accs
    match e with
    | some e => some (.error (.acc e))
    | none =>
      (op.buildDense env.rmem (if op.kind = .aggregator then np else nc) (cs.sets ++ outs)).map
        fun d => .ok (.ofDense d)
  else do
    let accs := if op.kind = .full then finalizeAll op.acc ms.valid cs.accs else cs.accs
    let (rs, accs) ← getRows op.acc cs.rows accs
    match (op.lastLoop 0 ms.valid accs).2 with
    | some e => some (.error (.acc e))
    | none =>
      (buildSparse env nc mu.estimate
        (if op.kind = .partial' then op.partialOps cs.sets else op.fullOps cs.rows rs)).map .ok

/-- `Apply` for split points — group_op.h:133-158. -/
def GroupOp.splits (op : GroupOp V P A R E S β) (env : Env V S β) (e : GEdge (Arr V)) (pargs cargs : List (AArg V)) :
    Option (Except (GErr E) (Arr β)) := do
  let sp := e.values.data.values
  let cu ← GUtil.make env e.childSize cargs
  if op.kind = .aggregator ∧ pargs = [] ∧ 4 * cu.estimate < e.parentSize then
    op.verySplits env e.parentSize cu sp
  else do
    let pu ← GUtil.make env e.parentSize pargs
    let ps ← natIds (← pu.iterateSimple)
    if op.kind = .aggregator then do
      let st ← op.aggSplits sp cu ps ⟨op.empty, [], []⟩
      op.checked st.acc ((op.buildDense env.rmem e.parentSize st.sets).map .ofDense)
    else if 4 * cu.estimate > e.childSize then do
      let st ← op.denseFormSplits sp cu ps ⟨op.empty, [], []⟩
      op.checked st.acc ((op.buildDense env.rmem e.childSize st.sets).map .ofDense)
    else do
      let st ← op.sparseSplits sp cu ps ⟨op.empty, [], 0⟩
      op.checked st.acc (buildSparse env e.childSize cu.estimate st.ops)

/-- `Apply` for a mapping — group_op.h:159-171. -/
def GroupOp.mappings (op : GroupOp V P A R E S β) (env : Env V S β) (e : GEdge (Arr V)) (pargs cargs : List (AArg V)) :
    Option (Except (GErr E) (Arr β)) := do
  let mu ← GUtil.make env e.childSize (⟨false, e.values⟩ :: cargs)
  if op.kind = .aggregator ∧ pargs = [] ∧ 4 * mu.estimate < e.parentSize then
    op.veryMapping env e.parentSize mu
  else do
    let pu ← GUtil.make env e.parentSize pargs
    op.mapping env e.parentSize e.childSize pu mu

/-- `IsDenseForm`. -/
def isDenseForm (a : Arr V) : Bool := decide (a.flt.typ = .full)

/-- The dense data of an argument. -/
def AArg.denseData (a : AArg V) : Arg V := ⟨a.optional, a.arr.data⟩

/-- `Apply` — group_op.h:105-175; `useDense` is `UseDenseGroupOps`. -/
def GroupOp.apply (op : GroupOp V P A R E S β) (env : Env V S β) (useDense : Bool) (e : GEdge (Arr V))
    (pargs cargs : List (AArg V)) : Option (Except (GErr E) (Arr β)) :=
  if useDense && isDenseForm e.values && pargs.all (fun a => isDenseForm a.arr) &&
      cargs.all (fun a => isDenseForm a.arr) then
    (op.denseApply env.rmem ⟨e.isSplit, e.parentSize, e.childSize, e.values.data⟩ (pargs.map AArg.denseData)
      (cargs.map AArg.denseData)).map fun r => r.map .ofDense
  else if pargs.any (fun a => decide (a.arr.size ≠ e.parentSize)) then some (.error .sizeMismatch)
  else if cargs.any (fun a => decide (a.arr.size ≠ e.childSize)) then some (.error .sizeMismatch)
  else if e.isSplit then op.splits env e pargs cargs
  else op.mappings env e pargs cargs

/-- `Apply(ArrayGroupScalarEdge)` — group_op.h:181-250. -/
def GroupOp.scalar (op : GroupOp V P A R E S β) (env : Env V S β) (useDense : Bool) (nc : Nat) (p : P)
    (cargs : List (AArg V)) : Option (Except (GErr E) (ScalarRes R (Arr β))) :=
  if useDense && cargs.all (fun a => isDenseForm a.arr) then
    (op.denseScalar env.rmem nc p (cargs.map AArg.denseData)).map fun r => r.map fun
      | .value r => .value r
      | .array d => .array (.ofDense d)
  else if cargs.any (fun a => decide (a.arr.size ≠ nc)) then some (.error .sizeMismatch)
  else do
    let u ← GUtil.make env nc cargs
    let s := op.acc.reset p op.empty
    if op.kind = .aggregator then do
      let (r, s) := op.acc.get ((← u.iterate 0 nc).foldl op.aggregateCall s)
      op.checked s (some (.value r))
    else do
      let rows ← natIds (← u.iterateFn 0 nc)
      if op.kind = .partial' ∧ 4 * u.estimate > nc then
        let st := rows.foldl (fun st x => op.rowFn x.1 x.2 st) ⟨s, [], []⟩
        op.checked st.acc ((op.buildDense env.rmem nc st.sets).map fun d => .array (.ofDense d))
      else
        let st := op.sparseGroup rows ⟨s, [], 0⟩
        op.checked st.acc ((buildSparse env nc u.estimate st.ops).map .array)

end Verif.Group
