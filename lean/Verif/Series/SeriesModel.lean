import Mathlib.Algebra.Order.Field.Rat
import Verif.Group.GroupModel

/-!
# Model of the operators on time series

`arolla/qexpr/operators/experimental/dense_array/timeseries.h`.

Floating point numbers are rational numbers: rounding, infinities and NaN are not modelled.  The loops of `EWMA` run over the rows
of the series as `ForEach` visits them (C53) and write into the rows of a `DenseArrayBuilder` (C12).
-/

namespace Verif.Series
open Verif.Dense Verif.Agg Verif.Group

/-! ## Moving average -/

/-- The members `current_window_` (front first) and `window_sum_` — timeseries.h:72-74. -/
structure MaState where
  window : List Rat
  sum : Rat
  deriving DecidableEq

/-- `Add` — timeseries.h:51-58. -/
def maAdd (v : Option Rat) (s : MaState) : MaState :=
  match v with
  | some x => ⟨x :: s.window, s.sum + x⟩
  | none => ⟨[], 0⟩

/-- `GetResult`; the outer `none` is the undefined behaviour of `back()` on an empty deque — timeseries.h:60-69.  The size is
compared with the `int` converted to `size_t`: a negative one differs from all sizes. -/
def maGet (windowSize : Int) (s : MaState) : Option (Option Rat) × MaState :=
  if (s.window.length : Int) = windowSize then
    match s.window.getLast? with
    | none => (none, s)
    | some back => (some (some (s.sum / windowSize)), ⟨s.window.dropLast, s.sum - back⟩)
  else (some none, s)

/-- `MovingAverageAccumulator` — timeseries.h:38-75; `AddN` is the default one. -/
def movingAverage (windowSize : Int) : Acc Unit (Option Rat) (Option (Option Rat)) Empty MaState where
  reset := fun _ _ => ⟨[], 0⟩
  add := maAdd
  addN := repeatAdd maAdd
  get := maGet windowSize

/-- Conversion of `int64_t` to `int` — timeseries.h:93. -/
def toInt32 (w : Int) : Int := (BitVec.ofInt 32 w).toInt

/-- `AggMovingAverageOp`: the group operation — timeseries.h:83-95.  Values of the series and of the edge are of one type here; the
argument of the accumulator is optional, so all rows are added. -/
def maOp (idOf : Rat → Int) (windowSize : Int) : GroupOp Rat Unit (Option Rat) (Option (Option Rat)) Empty MaState Rat where
  acc := movingAverage (toInt32 windowSize)
  empty := ⟨[], 0⟩
  kind := .partial'
  forward := false
  idOf := idOf
  parg := fun _ => ()
  carg := fun _ l => match l with | [v] => v | _ => none
  opt := fun r => r.join

/-- `AggMovingAverageOp::operator()` — timeseries.h:85-95. -/
def aggMovingAverage (idOf : Rat → Int) (mem : Nat → Rat) (series : DArr Rat) (windowSize : Int) (edge : GEdge (DArr Rat)) :
    Option (Except (GErr Empty) (DArr Rat)) :=
  (maOp idOf windowSize).denseApply mem edge [] [⟨true, series⟩]

/-! ## Exponentially weighted average -/

/-- The variables of `AdjustedEWMA` and the rows of the builder — timeseries.h:108-112. -/
structure AdjState where
  rows : List (Option Rat)
  prevId : Int
  prev : Rat
  num : Rat
  den : Rat

/-- The loop over the skipped rows; the second argument is their number — timeseries.h:119-125. -/
def adjFill (alpha : Rat) (ignoreMissing : Bool) : Nat → Nat → AdjState → AdjState
  | _, 0, s => s
  | i, n + 1, s =>
    let s := { s with rows := s.rows.set i (some s.prev) }
    let s := if !ignoreMissing then { s with num := s.num * (1 - alpha), den := s.den * (1 - alpha) } else s
    adjFill alpha ignoreMissing (i + 1) n s

/-- The callback of `AdjustedEWMA` — timeseries.h:114-136. -/
def adjStep (alpha : Rat) (ignoreMissing : Bool) (id : Nat) (v : Option Rat) (s : AdjState) : AdjState :=
  match v with
  | none => s
  | some x =>
    let s := if s.prevId ≥ 0 then adjFill alpha ignoreMissing (s.prevId + 1).toNat (id - (s.prevId + 1).toNat) s else s
    let num := x + (1 - alpha) * s.num
    let den := 1 + (1 - alpha) * s.den
    let prev := num / den
    ⟨s.rows.set id (some prev), id, prev, num, den⟩

/-- `ForEach` over the rows from `id` on. -/
def adjLoop (alpha : Rat) (ignoreMissing : Bool) : Nat → List (Option Rat) → AdjState → AdjState
  | _, [], s => s
  | id, v :: rest, s => adjLoop alpha ignoreMissing (id + 1) rest (adjStep alpha ignoreMissing id v s)

/-- `AdjustedEWMA` — timeseries.h:104-139. -/
def adjustedEwma (series : List (Option Rat)) (alpha : Rat) (ignoreMissing : Bool) : List (Option Rat) :=
  (adjLoop alpha ignoreMissing 0 series ⟨List.replicate series.length none, -1, 0, 0, 0⟩).rows

/-- The variables of `UnadjustedEWMA` — timeseries.h:145-147. -/
structure UnadjState where
  rows : List (Option Rat)
  prevId : Int
  prev : Rat

/-- The loop over the skipped rows: the rows and the weight — timeseries.h:156-161. -/
def unadjFill (alpha prev : Rat) (ignoreMissing : Bool) : Nat → Nat → List (Option Rat) → Rat → List (Option Rat) × Rat
  | _, 0, rows, weight => (rows, weight)
  | i, n + 1, rows, weight =>
    unadjFill alpha prev ignoreMissing (i + 1) n (rows.set i (some prev)) (if !ignoreMissing then weight * (1 - alpha) else weight)

/-- The callback of `UnadjustedEWMA` — timeseries.h:149-172. -/
def unadjStep (alpha : Rat) (ignoreMissing : Bool) (id : Nat) (v : Option Rat) (s : UnadjState) : UnadjState :=
  match v with
  | none => s
  | some x =>
    let weight := 1 - alpha
    let r : List (Option Rat) × Rat × Rat :=
      if s.prevId ≥ 0 then
        let f := unadjFill alpha s.prev ignoreMissing (s.prevId + 1).toNat (id - (s.prevId + 1).toNat) s.rows weight
        (f.1, f.2, s.prev)
      else (s.rows, weight, x)
    let prev := (alpha * x + r.2.1 * r.2.2) / (alpha + r.2.1)
    ⟨r.1.set id (some prev), id, prev⟩

/-- `ForEach` over the rows from `id` on. -/
def unadjLoop (alpha : Rat) (ignoreMissing : Bool) : Nat → List (Option Rat) → UnadjState → UnadjState
  | _, [], s => s
  | id, v :: rest, s => unadjLoop alpha ignoreMissing (id + 1) rest (unadjStep alpha ignoreMissing id v s)

/-- `UnadjustedEWMA` — timeseries.h:141-175. -/
def unadjustedEwma (series : List (Option Rat)) (alpha : Rat) (ignoreMissing : Bool) : List (Option Rat) :=
  (unadjLoop alpha ignoreMissing 0 series ⟨List.replicate series.length none, -1, 0⟩).rows

/-- `ExponentialWeightedMovingAverageOp::operator()`; `none` is the error — timeseries.h:177-192. -/
def ewma (series : List (Option Rat)) (alpha : Rat) (adjust ignoreMissing : Bool) : Option (List (Option Rat)) :=
  if alpha ≤ 0 ∨ alpha > 1 then none
  else if adjust then some (adjustedEwma series alpha ignoreMissing)
  else some (unadjustedEwma series alpha ignoreMissing)

end Verif.Series
