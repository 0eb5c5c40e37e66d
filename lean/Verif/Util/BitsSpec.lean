/-!
# Specification vocabulary for bitmaps

An array of 32-bit words is read as an infinite sequence of bits (false past the end).
-/

namespace Verif.Bits

/-- Word `k`, or 0 past the end. -/
def wd (ws : List (BitVec 32)) (k : Nat) : BitVec 32 := (ws[k]?).getD 0

/-- Bit `i` of the array, or false past the end. -/
def bitAt (ws : List (BitVec 32)) (i : Nat) : Bool := (wd ws (i / 32)).getLsbD (i % 32)

/-- Number of set bits in `[start, stop)`. -/
def countRange (b : Nat → Bool) (start stop : Nat) : Nat :=
  (List.range' start (stop - start)).countP b

/-- `r` is the first set bit of `b` in `[lo, limit)`, or `limit` if there is none. -/
def IsNextSet (b : Nat → Bool) (lo limit r : Nat) : Prop :=
  (lo ≤ r ∧ r < limit ∧ b r = true ∧ ∀ i, lo ≤ i → i < r → b i = false) ∨
  (r = limit ∧ ∀ i, lo ≤ i → i < limit → b i = false)

end Verif.Bits
