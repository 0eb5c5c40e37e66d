/-!
# UTF-8

The encoding form of The Unicode Standard, section 3.9 (table 3-6), on which the statements about texts are based.  A byte is a
number below 256, a text is a list of scalar values.
-/

namespace Verif.Text

/-- Unicode scalar values. -/
def Scalar (c : Nat) : Prop := c < 0xD800 ∨ (0xE000 ≤ c ∧ c < 0x110000)

instance (c : Nat) : Decidable (Scalar c) := inferInstanceAs (Decidable (_ ∨ _))

/-- The bytes of a scalar value. -/
def enc (c : Nat) : List Nat :=
  if c < 0x80 then [c]
  else if c < 0x800 then [0xC0 + c / 64, 0x80 + c % 64]
  else if c < 0x10000 then [0xE0 + c / 4096, 0x80 + c / 64 % 64, 0x80 + c % 64]
  else [0xF0 + c / 262144, 0x80 + c / 4096 % 64, 0x80 + c / 64 % 64, 0x80 + c % 64]

/-- The bytes of a text. -/
def encs (s : List Nat) : List Nat := s.flatMap enc

/-- A text: all its elements are scalar values. -/
def IsText (s : List Nat) : Prop := ∀ c ∈ s, Scalar c

/-- `sub` stands in `s` at position `i`. -/
def OccursAt {α : Type} (sub s : List α) (i : Nat) : Prop := ∃ a b, s = a ++ sub ++ b ∧ a.length = i

end Verif.Text
