import Mathlib.Algebra.Order.Field.Rat

/-!
# Specification of the operators on time series
-/

namespace Verif.Series

/-- The mean of the last `w` values up to row `i`, if there are so many and none is missing. -/
def trailingMean (w : Nat) (xs : List (Option Rat)) (i : Nat) : Option Rat :=
  let last := (xs.take (i + 1)).drop (i + 1 - w)
  if w ≤ i + 1 ∧ none ∉ last then some ((last.filterMap id).sum / w) else none

/-- How old row `j` is at row `i`: the number of rows since, or of present rows since. -/
def age (ignoreMissing : Bool) (xs : List (Option Rat)) (i j : Nat) : Nat :=
  if ignoreMissing then ((xs.take (i + 1)).drop (j + 1)).countP Option.isSome else i - j

/-- The sum of `f x` over the present rows up to `i`, weighted with `q` to the power of their age. -/
def weightedSum (f : Rat → Rat) (q : Rat) (ignoreMissing : Bool) (xs : List (Option Rat)) (i : Nat) : Rat :=
  ((List.range (i + 1)).map fun j => ((xs[j]?.join).map fun x => q ^ age ignoreMissing xs i j * f x).getD 0).sum

/-- The weighted mean of the present rows up to `i`. -/
def weightedMean (alpha : Rat) (ignoreMissing : Bool) (xs : List (Option Rat)) (i : Nat) : Rat :=
  weightedSum (fun x => x) (1 - alpha) ignoreMissing xs i / weightedSum (fun _ => 1) (1 - alpha) ignoreMissing xs i

/-- Row `i` is present. -/
def Present (xs : List (Option Rat)) (i : Nat) : Prop := (xs[i]?.join).isSome = true

/-- Missing rows have the value of the last present row before, if there is a present row after; no others have values. -/
structure Filled (xs ys : List (Option Rat)) : Prop where
  length : ys.length = xs.length
  between : ∀ p i n, p < i → i < n → Present xs p → Present xs n → (∀ j, p < j → j ≤ i → ¬ Present xs j) → ys[i]?.join = ys[p]?.join
  before : ∀ i, (∀ p, p ≤ i → ¬ Present xs p) → ys[i]?.join = none
  after : ∀ i, (∀ n, i ≤ n → ¬ Present xs n) → ys[i]?.join = none

/-- The values of the children of group `i`, in order. -/
def members (parentOf : Nat → Option Nat) (value : Nat → Option Rat) (n i : Nat) : List (Option Rat) :=
  ((List.range n).filter fun c => decide (parentOf c = some i)).map value

/-- The position of child `c` in group `i`. -/
def position (parentOf : Nat → Option Nat) (i c : Nat) : Nat := ((List.range c).filter fun c' => decide (parentOf c' = some i)).length

/-- The rows since the last present row `p` count as one if missing rows are ignored. -/
def steps (ignoreMissing : Bool) (p i : Nat) : Nat := if ignoreMissing then 1 else i - p

end Verif.Series
