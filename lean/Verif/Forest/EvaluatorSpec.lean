import Verif.Forest.ForestSpec
import Verif.Forest.FloatLemmas
import Verif.Forest.BitmaskLemmas
import Verif.Forest.EvaluatorModel

/-!
# Specification of forest evaluation

`TreeValue` is what one tree contributes.  The other definitions are the preconditions under which the evaluators agree
with it.
-/

namespace Verif.Forest

variable {M : Type}

/-- The value of a tree: the adjustment at the end of the path of the conditions times the weight. -/
def TreeValue [Semiring M] (env : Env) (t : Tree Cond M) (v : M) : Prop :=
  ∃ i a, Path (Cond.eval env) t t.root i ∧ t.adjustments[i]? = some a ∧ v = a * t.weight

/-- A proper tree with less than 2^32 leaves and without NaN as bound of an interval. -/
structure TreeOk (t : Tree Cond M) : Prop extends Proper t where
  size : t.adjustments.length < 2 ^ 32
  nonan : ∀ n ∈ t.splits, n.cond.NoNan

/-- Two conditions are taken for equal only if they are the same object or have equal parameters. -/
def CondEqOk (condEq : Cond → Cond → Bool) : Prop :=
  ∀ a b, condEq a b = true → a = b ∨ Cond.equals false a b = true

/-- A bound or a value of a set which is safe as a split point: a finite `float` of at most `FLT_MAX / 2`. -/
def Fl.Safe : Fl → Prop
  | .num n => Rep n ∧ 2 * n.natAbs ≤ maxF
  | _ => False

/-- The conditions for which the single input evaluators are right. -/
def Cond.Safe : Cond → Prop
  | .interval _ l r => (l = .ninf ∨ l.Safe) ∧ (r = .pinf ∨ r.Safe)
  | .setI64 _ vs _ => ∀ v ∈ vs, -2 ^ 62 ≤ v ∧ v < 2 ^ 62
  | .setF32 _ vs _ => ∀ v ∈ vs, v.Safe
  | .other _ => True

/-- A condition other than intervals and sets does not have a single input of type `OPTIONAL_FLOAT32` or
`OPTIONAL_INT64`. -/
def Cond.Basic (osig : Nat → List (Nat × QT)) : Cond → Prop
  | .other k => ∀ id, osig k ≠ [(id, .f32)] ∧ osig k ≠ [(id, .i64)]
  | _ => True

/-- The inputs are values of their types. -/
structure EnvOk (env : Env) : Prop where
  f : ∀ id v, env.f id = some v → v.Ok
  i : ∀ id v, env.i id = some v → -2 ^ 63 ≤ v ∧ v < 2 ^ 63

/-- No input of a set of `float`s which is true for missing values is NaN. -/
def NanOk (env : Env) (trees : List (Tree Cond M)) : Prop :=
  ∀ t ∈ trees, ∀ n ∈ t.splits, ∀ id vs, n.cond = .setF32 id vs true → env.f id ≠ some .nan

end Verif.Forest
