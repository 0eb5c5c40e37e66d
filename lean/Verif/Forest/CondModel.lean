import Verif.Forest.ForestModel

/-!
# Model of the split conditions

`arolla/decision_forest/split_condition.h`, `split_conditions/interval_split_condition.h`,
`split_conditions/set_of_values_split_condition.h`, `pointwise_evaluation/bound_split_conditions.h`.

A `float` is NaN, an infinity or a finite number, given by an integer multiple of 2^-149 (every finite `float` is one);
the two zeros are one number (they compare equal and hash equal).  Only comparisons matter here, so all integers are
allowed; the single input evaluator, which computes midpoints, restricts them.
-/

namespace Verif.Forest

inductive Fl where
  | nan
  | ninf
  | num (n : Int)
  | pinf
  deriving DecidableEq, Repr

/-- `a <= b` on floats. -/
def Fl.le : Fl → Fl → Bool
  | .nan, _ => false
  | _, .nan => false
  | .ninf, _ => true
  | _, .pinf => true
  | .num a, .num b => a ≤ b
  | _, _ => false

/-- `a < b` on floats. -/
def Fl.lt (a b : Fl) : Bool := Fl.le a b && !Fl.le b a

/-- `a == b` on floats. -/
def Fl.eq (a b : Fl) : Bool := Fl.le a b && Fl.le b a

/-- `-a` on floats. -/
def Fl.neg : Fl → Fl
  | .nan => .nan
  | .ninf => .pinf
  | .num a => .num (-a)
  | .pinf => .ninf

/-- A split condition.  `other k` stands for any condition which is neither an interval nor a set of `int64_t` or
`float` values. -/
inductive Cond where
  /-- `IntervalSplitCondition` — interval_split_condition.h:36-84 -/
  | interval (input : Nat) (left right : Fl)
  /-- `SetOfValuesSplitCondition<int64_t>` — set_of_values_split_condition.h:43-135 -/
  | setI64 (input : Nat) (values : List Int) (ifMissed : Bool)
  /-- `SetOfValuesSplitCondition<float>` -/
  | setF32 (input : Nat) (values : List Fl) (ifMissed : Bool)
  | other (k : Nat)
  deriving DecidableEq, Repr

/-- The inputs of one evaluation: the values of the slots of type `OptionalValue<float>` and `OptionalValue<int64_t>`,
and the results of the other conditions. -/
structure Env where
  f : Nat → Option Fl
  i : Nat → Option Int
  o : Nat → Bool

/-- `EvaluateCondition` — interval_split_condition.h:45-47, set_of_values_split_condition.h:54-57; the bound conditions
(bound_split_conditions.h:48-51, 71-75, 95-97) compute the same expressions. -/
def Cond.eval (env : Env) : Cond → Bool
  | .interval input l r =>
    match env.f input with
    | none => false
    | some v => Fl.le l v && Fl.le v r
  | .setI64 input vs d =>
    match env.i input with
    | none => d
    | some v => vs.contains v
  | .setF32 input vs d =>
    match env.f input with
    | none => d
    | some v => vs.any (Fl.eq v)
  | .other k => env.o k

/-- `SplitCondition::operator==` — split_condition.h:65-67, interval_split_condition.h:72-78,
set_of_values_split_condition.h:118-126; `same` is the comparison of the addresses. -/
def Cond.equals (same : Bool) : Cond → Cond → Bool
  | .interval i l r, .interval i' l' r' => same || (i == i' && Fl.eq l l' && Fl.eq r r')
  | .setI64 i vs d, .setI64 i' vs' d' =>
    same || (i == i' && vs.all (fun v => vs'.contains v) && vs'.all (fun v => vs.contains v) && d == d')
  | .setF32 i vs d, .setF32 i' vs' d' =>
    same || (i == i' && vs.all (fun v => vs'.any (Fl.eq v)) && vs'.all (fun v => vs.any (Fl.eq v)) && d == d')
  | .other k, .other k' => same || k == k'
  | _, _ => same

end Verif.Forest
