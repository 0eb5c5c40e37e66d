import Verif.Forest.ForestModel

/-!
# Model of `arolla/decision_forest/pointwise_evaluation/oblivious.{h,cc}`
-/

namespace Verif.Forest

/-- `IsPowerOf2` — oblivious.cc:31. -/
def isPowerOf2 (x : Nat) : Bool := x &&& (x - 1) == 0

/-- `__builtin_ctz` of a positive number. -/
def ctz : Nat → Nat → Nat
  | 0, _ => 0
  | fuel + 1, x => if x % 2 = 1 then 0 else ctz fuel (x / 2) + 1

/-- `__builtin_ctz(region_count)` — oblivious.cc:67: the argument is converted to `unsigned int`, zero is undefined. -/
def ctz32 (x : Nat) : Option Nat := if x % 2 ^ 32 = 0 then none else some (ctz 32 (x % 2 ^ 32))

/-- `ObliviousDecisionTree` — oblivious.h. -/
structure Oblivious (C M : Type) where
  layers : List C
  adjustments : List M
  deriving Repr, DecidableEq

/-- `TraverseTree` with `process_node` — oblivious.cc:40-58 and 73-97.  The stack is a list with its top first.  Outer
`none`: out of fuel or an access out of bounds; inner `none`: the callback returned false. -/
def traverse {C A M : Type} (condEq : C → C → Bool) (scale : A → A → M) (t : Tree C A) (depth : Nat) :
    Nat → List (Ref × Nat) → List C → List M → Option (Option (Oblivious C M))
  | _, [], layers, adjustments => some (some ⟨layers, adjustments⟩)
  | 0, _ :: _, _, _ => none
  | fuel + 1, (.leaf i, d) :: stack, layers, adjustments =>
    if d ≠ depth then some none
    else do
      let a ← t.adjustments[i]?
      traverse condEq scale t depth fuel stack layers (adjustments ++ [scale a t.weight])
  | fuel + 1, (.split k, d) :: stack, layers, adjustments =>
    if d ≥ depth then some none
    else do
      let n ← t.splits[k]?
      if layers.length = d then
        traverse condEq scale t depth fuel ((n.ifFalse, d + 1) :: (n.ifTrue, d + 1) :: stack) (layers ++ [n.cond]) adjustments
      else
        let c ← layers[d]?
        if !condEq c n.cond then some none
        else traverse condEq scale t depth fuel ((n.ifFalse, d + 1) :: (n.ifTrue, d + 1) :: stack) layers adjustments

/-- `ToObliviousTree` — oblivious.cc:62-103. -/
def toOblivious {C A M : Type} (condEq : C → C → Bool) (scale : A → A → M) (t : Tree C A) (fuel : Nat) :
    Option (Option (Oblivious C M)) :=
  let regions := t.adjustments.length
  if !isPowerOf2 regions then some none
  else if regions = 0 then traverse condEq scale t 0 fuel [(t.root, 0)] [] []
  else do
    let depth ← ctz32 regions
    traverse condEq scale t depth fuel [(t.root, 0)] [] []

end Verif.Forest
