import Verif.Text.Utf8Spec

/-!
# What the operators that search in strings mean
-/

namespace Verif.Text

/-- The position denoted by the index `v` in a string of length `n`: negative indices count from the end. -/
def position (n : Nat) (v : Int) : Int := if v < 0 then n + v else v

/-- The elements from `i` (inclusive) to `j` (exclusive) lie between `start` and `stop`. -/
def Within (n : Nat) (start stop : Option Int) (i j : Nat) : Prop :=
  i ≤ j ∧ j ≤ n ∧ (∀ v, start = some v → position n v ≤ i) ∧ (∀ v, stop = some v → (j : Int) ≤ position n v)

/-- `sub` stands in `s` at `i`, between `start` and `stop`. -/
def MatchAt {α : Type} (s sub : List α) (start stop : Option Int) (i : Nat) : Prop :=
  OccursAt sub s i ∧ Within s.length start stop i (i + sub.length)

/-- `r` is the least number with the property `P`, if there is one. -/
def IsFirst (P : Nat → Prop) : Option Int → Prop
  | none => ∀ i, ¬ P i
  | some v => ∃ i : Nat, v = i ∧ P i ∧ ∀ j, j < i → ¬ P j

/-- `r` is the largest number with the property `P`, if there is one. -/
def IsLast (P : Nat → Prop) : Option Int → Prop
  | none => ∀ i, ¬ P i
  | some v => ∃ i : Nat, v = i ∧ P i ∧ ∀ j, i < j → ¬ P j

/-- `r` consists of the elements of `s` at the positions between `start` and `stop`. -/
def IsSlice {α : Type} (s : List α) (start stop : Option Int) (r : List α) : Prop :=
  ∃ a b, s = a ++ r ++ b ∧ ∀ p, Within s.length start stop p (p + 1) ↔ a.length ≤ p ∧ p < a.length + r.length

end Verif.Text
