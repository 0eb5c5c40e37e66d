import Verif.Text.SplitSpec

/-!
# What formatting means
-/

namespace Verif.Text

/-- A letter or an underscore. -/
def IdentStart (c : Nat) : Prop := c = 95 ∨ (65 ≤ c ∧ c ≤ 90) ∨ (97 ≤ c ∧ c ≤ 122)

/-- An identifier. -/
def Ident (s : List Nat) : Prop := ∃ c t, s = c :: t ∧ IdentStart c ∧ ∀ d ∈ t, IdentStart d ∨ (48 ≤ d ∧ d ≤ 57)

/-- A format specification renders to a result: doubled braces stand for a brace, `{name}` and `{name:format}` for the value
(of the name, with the format), other bytes for themselves. -/
inductive Renders (value : List Nat → List Nat → Option (List Nat)) : List Nat → List Nat → Prop
  | nil : Renders value [] []
  | char (c s r) : c ≠ 123 → c ≠ 125 → Renders value s r → Renders value (c :: s) (c :: r)
  | left (s r) : Renders value s r → Renders value (123 :: 123 :: s) (123 :: r)
  | right (s r) : Renders value s r → Renders value (125 :: 125 :: s) (125 :: r)
  | arg (name txt s r) : Ident name → value name [] = some txt → Renders value s r →
      Renders value (123 :: name ++ 125 :: s) (txt ++ r)
  | argFormat (name format txt s r) : Ident name → 125 ∉ format → value name format = some txt → Renders value s r →
      Renders value (123 :: name ++ 58 :: format ++ 125 :: s) (txt ++ r)

end Verif.Text
