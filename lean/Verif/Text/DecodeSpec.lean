import Verif.Text.Utf8Spec

/-!
# What decoding and parsing mean
-/

namespace Verif.Text

/-- The bytes begin a scalar value. -/
def Begins (x : List Nat) : Prop := ∃ c, Scalar c ∧ x <+: enc c

/-- `x` is the maximal subpart of an ill-formed sequence at the beginning of `x ++ s` (The Unicode Standard, D93b): nothing
well-formed begins there, and `x` is one byte, or the longest part which begins a scalar value. -/
def MaximalSubpart (x s : List Nat) : Prop :=
  (∀ c, Scalar c → ¬ enc c <+: x ++ s) ∧ x ≠ [] ∧ (x.length = 1 ∨ Begins x) ∧
  ∀ y, y <+: x ++ s → x.length < y.length → ¬ Begins y

/-- The text of the bytes; each maximal ill-formed subpart gives `rep`. -/
inductive Decoded (rep : List Nat) : List Nat → List Nat → Prop
  | nil : Decoded rep [] []
  | ok (c s t) : Scalar c → Decoded rep s t → Decoded rep (enc c ++ s) (c :: t)
  | bad (x s t) : MaximalSubpart x s → Decoded rep s t → Decoded rep (x ++ s) (rep ++ t)

/-- A number in decimal notation. -/
inductive Decimal : List Nat → Nat → Prop
  | digit (d) : d < 10 → Decimal [48 + d] d
  | more (s n d) : Decimal s n → d < 10 → Decimal (s ++ [48 + d]) (n * 10 + d)

/-- An integer in decimal notation with an optional sign. -/
def DecimalInt (s : List Nat) (v : Int) : Prop :=
  ∃ ds n, Decimal ds n ∧ ((s = ds ∧ v = n) ∨ (s = 43 :: ds ∧ v = n) ∨ (s = 45 :: ds ∧ v = -(n : Int)))

end Verif.Text
