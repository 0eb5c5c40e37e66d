/-!
# Model of group operations with a state for every group

`DenseArrayMultiEdgeUtil` (`arolla/dense_array/ops/multi_edge_util.h`) and `ArrayMultiEdgeUtil` (`arolla/array/multi_edge_util.h`).

The arguments of a child row are of any type `A`; `arg c` is `none` if a required argument is missing in row `c`.  That `Iterate`,
`IterateFromZero` and `IterateSimple` visit the valid rows of a range in increasing order is C67.  The function gets a state, the id of the child
and the arguments, and gives the new state and the value to set (`none` if it is missing).  `DenseArrayBuilder::Set` writes to the row of the
child.  Reads outside of the states or of the split points give `none`, errors of sizes `SizeMismatch`.
-/

namespace Verif.MultiEdge

variable {S A R : Type}

/-- `DenseArrayEdge`, `ArrayEdge`. -/
inductive Edge
  | splitPoints (splits : List Nat)
  | mapping (parents : List (Option Nat)) (parentSize : Nat)

/-- `edge.parent_size()`, `edge.child_size()` — dense_array/edge.h. -/
def Edge.parentSize : Edge → Nat
  | .splitPoints s => s.length - 1
  | .mapping _ n => n

def Edge.childSize : Edge → Nat
  | .splitPoints s => s.getLast?.getD 0
  | .mapping l _ => l.length

/-- The states and the rows of the result. -/
structure Work (S R : Type) where
  states : List S
  out : List (Option R)

/-- `process_result_fn` — multi_edge_util.h:149-152: the function for one child. -/
def child (fn : S → Nat → A → S × Option R) (parent c : Nat) (a : A) (w : Work S R) : Option (Work S R) :=
  match w.states[parent]? with
  | none => none
  | some s => some ⟨w.states.set parent (fn s c a).1, w.out.set c (fn s c a).2⟩

/-- `ChildUtil::Iterate` with `fn_with_state` — multi_edge_util.h:103-110: `n` rows from `c` on, all of one parent. -/
def rangeLoop (fn : S → Nat → A → S × Option R) (arg : Nat → Option A) (parent : Nat) : Nat → Nat → Work S R → Option (Work S R)
  | _, 0, w => some w
  | c, n + 1, w =>
    match arg c with
    | none => rangeLoop fn arg parent (c + 1) n w
    | some a => (child fn parent c a w).bind (rangeLoop fn arg parent (c + 1) n)

/-- The loop over the parents — multi_edge_util.h:101-110; array/multi_edge_util.h:111-118, 178-185. -/
def parentLoop (fn : S → Nat → A → S × Option R) (arg : Nat → Option A) (splits : List Nat) : Nat → Nat → Work S R → Option (Work S R)
  | _, 0, w => some w
  | p, n + 1, w =>
    match splits[p]?, splits[p + 1]? with
    | some lo, some hi => (rangeLoop fn arg p lo (hi - lo) w).bind (parentLoop fn arg splits (p + 1) n)
    | _, _ => none

/-- `MappingAndChildUtil::IterateFromZero` — multi_edge_util.h:113-124; array/multi_edge_util.h:122-135, 199-213: rows from `c` on. -/
def mappingLoop (fn : S → Nat → A → S × Option R) (arg : Nat → Option A) : Nat → List (Option Nat) → Work S R → Option (Work S R)
  | _, [], w => some w
  | c, p :: rest, w =>
    match p, arg c with
    | some p, some a => (child fn p c a w).bind (mappingLoop fn arg (c + 1) rest)
    | _, _ => mappingLoop fn arg (c + 1) rest w

/-- The result of a call: a `SizeMismatchError`, undefined behaviour, or the states and the result. -/
inductive Outcome (S R : Type)
  | sizeMismatch
  | undefined
  | ok (w : Work S R)

def toOutcome : Option (Work S R) → Outcome S R
  | none => .undefined
  | some w => .ok w

/-- `ProduceResult`, with `ApplyChildArgs` — multi_edge_util.h:84-128, 143-156; array/multi_edge_util.h:90-139, 154-229. -/
def produceResult (fn : S → Nat → A → S × Option R) (states : List S) (edge : Edge) (argSizes : List Nat) (arg : Nat → Option A) : Outcome S R :=
  if states.length ≠ edge.parentSize then .sizeMismatch
  else if argSizes.any (fun n => n ≠ edge.childSize) then .sizeMismatch
  else
    let w : Work S R := ⟨states, List.replicate edge.childSize none⟩
    match edge with
    | .splitPoints splits => toOutcome (parentLoop fn arg splits 0 edge.parentSize w)
    | .mapping parents _ => toOutcome (mappingLoop fn arg 0 parents w)

/-- `ApplyParentArgs` — multi_edge_util.h:52-68; array/multi_edge_util.h:57-74: the states of the parents whose arguments are present. -/
def applyParentArgs (fn : S → A → S) (states : List S) (argSizes : List Nat) (arg : Nat → Option A) : Option (List S) :=
  if argSizes.any (fun n => n ≠ states.length) then none
  else some (states.zipIdx.map fun (s, i) => match arg i with
    | some a => fn s a
    | none => s)

end Verif.MultiEdge
