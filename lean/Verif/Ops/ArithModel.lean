/-!
# Model of the integer cases of `arolla/qexpr/operators/math/arithmetic.h`

A value of the signed type `T` with `n` bits, and of its unsigned counterpart `UT`, is a `BitVec n`; `static_cast`
between the two keeps the bits.  The built-in `/`, `%`, `-` and `std::abs` on `T` have undefined behaviour (`none`) if
the result is not representable.  `absl::StatusOr` is `Except`.
-/

namespace Verif.Ops

variable {n : Nat}

/-- The result of a signed operation: undefined if it is out of range. -/
def signed (n : Nat) (x : Int) : Option (BitVec n) :=
  if -2 ^ (n - 1) ≤ x ∧ x < 2 ^ (n - 1) then some (BitVec.ofInt n x) else none

/-- Built-in `lhs / rhs`. -/
def cDiv (a b : BitVec n) : Option (BitVec n) :=
  if b.toInt = 0 then none else signed n (a.toInt.tdiv b.toInt)

/-- Built-in `lhs % rhs`; undefined if the quotient is. -/
def cMod (a b : BitVec n) : Option (BitVec n) := do
  let _ ← cDiv a b
  signed n (a.toInt.tmod b.toInt)

/-- `AddOp` — arithmetic.h:41-56: the fold over the arguments in `UT`. -/
def addOp (a : BitVec n) (args : List (BitVec n)) : BitVec n := args.foldl (· + ·) a

/-- `SubtractOp` — arithmetic.h:58-71. -/
def subtractOp (a b : BitVec n) : BitVec n := a - b

/-- `MultiplyOp` — arithmetic.h:73-86. -/
def multiplyOp (a b : BitVec n) : BitVec n := a * b

/-- `NegOp` — arithmetic.h:204-216. -/
def negOp (a : BitVec n) : BitVec n := 0#n - a

/-- `AbsOp` — arithmetic.h:218-235. -/
def absOp (a : BitVec n) : Option (BitVec n) :=
  if a = BitVec.intMin n then some (BitVec.intMin n)
  else if a.toInt < 0 then signed n (-a.toInt) else some a

/-- `SignOp` for integers — arithmetic.h:33-39. -/
def signOp (a : BitVec n) : Option (BitVec n) :=
  signed n ((if a.toInt > 0 then 1 else 0) - (if a.toInt < 0 then 1 else 0))

/-- `MaxOp` for integers — arithmetic.h:246-252. -/
def maxOp (a b : BitVec n) : BitVec n := if a.toInt ≥ b.toInt then a else b

/-- `MinOp` for integers — arithmetic.h:255-261. -/
def minOp (a b : BitVec n) : BitVec n := if a.toInt ≤ b.toInt then a else b

inductive Err where
  | divisionByZero
  deriving DecidableEq, Repr

/-- `FloorDivOp` for signed integers — arithmetic.h:91-113. -/
def floorDivOp (a b : BitVec n) : Option (Except Err (BitVec n)) :=
  if b.toInt = 0 then some (.error .divisionByZero)
  else if (a ^^^ b).toInt ≥ 0 then
    if b.toInt ≠ -1 then (cDiv a b).map .ok
    else some (.ok (0#n - a))
  else do
    let q ← cDiv a b
    let r ← cMod a b
    pure (.ok (q - (if r.toInt ≠ 0 then 1#n else 0#n)))

/-- `ModOp` for signed integers — arithmetic.h:130-147. -/
def modOp (a b : BitVec n) : Option (Except Err (BitVec n)) :=
  if b.toInt = 0 then some (.error .divisionByZero)
  else if (a ^^^ b).toInt ≥ 0 then
    if b.toInt ≠ -1 then (cMod a b).map .ok
    else some (.ok 0#n)
  else do
    let r ← cMod a b
    let m ← cMod (b + r) b
    pure (.ok m)

/-- `FloorDivOp` for unsigned integers — arithmetic.h:91-100. -/
def floorDivUnsigned (a b : BitVec n) : Except Err (BitVec n) :=
  if b = 0 then .error .divisionByZero else .ok (a.udiv b)

/-- `ModOp` for unsigned integers — arithmetic.h:130-139. -/
def modUnsigned (a b : BitVec n) : Except Err (BitVec n) :=
  if b = 0 then .error .divisionByZero else .ok (a.umod b)

end Verif.Ops
