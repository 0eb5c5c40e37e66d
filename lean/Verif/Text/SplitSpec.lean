import Verif.Text.Utf8Spec

/-!
# What splitting and joining mean
-/

namespace Verif.Text

/-- The parts of `s` between the non-overlapping occurrences, from the left, of the non-empty separator. -/
inductive SplitBy {α : Type} (sep : List α) : List α → List (List α) → Prop
  | last (s) : (∀ i, ¬ OccursAt sep s i) → SplitBy sep s [s]
  | more (a b ps) : (∀ i, i < a.length → ¬ OccursAt sep (a ++ sep ++ b) i) → SplitBy sep b ps → SplitBy sep (a ++ sep ++ b) (a :: ps)

/-- The maximal runs of elements that are not spaces. -/
inductive Words {α : Type} (space : α → Prop) : List α → List (List α) → Prop
  | nil : Words space [] []
  | skip (c s ws) : space c → Words space s ws → Words space (c :: s) ws
  | word (w s ws) : w ≠ [] → (∀ c ∈ w, ¬ space c) → (∀ c, s.head? = some c → space c) → Words space s ws → Words space (w ++ s) (w :: ws)

/-- White space in `strings.split`. -/
def IsSplitSpace (c : Nat) : Prop := (9 ≤ c ∧ c ≤ 13) ∨ c = 32

/-- `s` is the concatenation of the parts with `sep` between them. -/
inductive Joined {α : Type} (sep : List α) : List (List α) → List α → Prop
  | none : Joined sep [] []
  | one (p) : Joined sep [p] p
  | more (p q ps s) : Joined sep (q :: ps) s → Joined sep (p :: q :: ps) (p ++ sep ++ s)

end Verif.Text
