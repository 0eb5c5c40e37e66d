import Verif.Text.Utf8Spec

/-!
# What replacing means
-/

namespace Verif.Text

/-- The limit on the number of replacements: no limit if it is absent or negative. -/
def limitOf : Option Int → Option Nat
  | none => none
  | some v => if v < 0 then none else some v.toNat

/-- `r` is `s` where the non-overlapping occurrences of the non-empty `old`, from the left, up to the limit, are replaced. -/
inductive Replaced {α : Type} (old new : List α) : Option Nat → List α → List α → Prop
  | limit (s) : Replaced old new (some 0) s s
  | done (k s) : (∀ i, ¬ OccursAt old s i) → Replaced old new k s s
  | step (k a b r) : k ≠ some 0 → (∀ i, i < a.length → ¬ OccursAt old (a ++ old ++ b) i) →
      Replaced old new (k.map (· - 1)) b r → Replaced old new k (a ++ old ++ b) (a ++ new ++ r)

/-- `r` is `s` where `new` is inserted before, between and after the elements, up to the limit. -/
inductive Spread {α : Type} (new : List α) : Option Nat → List α → List α → Prop
  | limit (s) : Spread new (some 0) s s
  | last (k) : k ≠ some 0 → Spread new k [] new
  | step (k c s r) : k ≠ some 0 → Spread new (k.map (· - 1)) s r → Spread new k (c :: s) (new ++ c :: r)

/-- Both cases. -/
def ReplacedBy {α : Type} (old new : List α) (k : Option Nat) (s r : List α) : Prop :=
  (old = [] → Spread new k s r) ∧ (old ≠ [] → Replaced old new k s r)

end Verif.Text
