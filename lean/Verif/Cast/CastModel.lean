import Mathlib.Data.Rat.Floor

/-!
# Model of the casts between numeric types

`arolla/qexpr/operators/core/cast_operator.h`.

A finite floating point number is a rational number; the constants that the code computes in floating point are rounded as in IEEE 754
(to nearest, ties to even; the exponents stay in range).  Conversion of a floating point number to an integer type that cannot represent
the truncated value is undefined: `none`.  Casts to floating point types round and are not modelled.
-/

namespace Verif.Cast

/-- The integer types — cast_operator.h:36-40. -/
inductive IType
  | bool | i32 | i64 | u64
  deriving DecidableEq

/-- `numeric_limits::min`. -/
def IType.min : IType → Int
  | .bool => 0
  | .i32 => -2147483648
  | .i64 => -9223372036854775808
  | .u64 => 0

/-- `numeric_limits::max`. -/
def IType.max : IType → Int
  | .bool => 1
  | .i32 => 2147483647
  | .i64 => 9223372036854775807
  | .u64 => 18446744073709551615

/-- `numeric_limits::digits`. -/
def IType.digits : IType → Nat
  | .bool => 1
  | .i32 => 31
  | .i64 => 63
  | .u64 => 64

/-- `numeric_limits::is_signed`. -/
def IType.signed : IType → Bool
  | .i32 | .i64 => true
  | .bool | .u64 => false

/-- `static_cast` between integer types: modulo the number of values, and "not zero" for `bool`. -/
def IType.wrap (t : IType) (x : Int) : Int :=
  match t with
  | .bool => if x = 0 then 0 else 1
  | t => (x - t.min) % (t.max - t.min + 1) + t.min

/-- `safe_range` for integer types — cast_operator.h:106-128. -/
def safeRange (dst src : IType) : Option (Int × Int) :=
  if src = dst then none
  else
    let safeMin := Max.max dst.min src.min
    let safeMax := Min.min dst.max src.max
    if safeMin ≤ src.min ∧ safeMax ≥ src.max then none else some (safeMin, safeMax)

/-- The cast between integer types — cast_operator.h:155-175. -/
def castInt (dst src : IType) (x : Int) : Except Unit Int :=
  match safeRange dst src with
  | none => .ok (dst.wrap x)
  | some (lo, hi) => if lo ≤ x ∧ x ≤ hi then .ok (dst.wrap x) else .error ()

/-! ## Floating point numbers -/

/-- The floating point types. -/
inductive FType
  | f32 | f64

/-- `numeric_limits::digits`: the bits of the significand. -/
def FType.digits : FType → Nat
  | .f32 => 24
  | .f64 => 53

/-- A positive number `m / 2 ^ e`. -/
structure Dyadic where
  m : Nat
  e : Nat
  deriving DecidableEq

/-- Rounding of a natural number to `p` significant bits, to nearest, ties to even. -/
def roundNat (p m : Nat) : Nat :=
  let s := (if m = 0 then 0 else Nat.log2 m + 1) - p
  let q := m / 2 ^ s
  let r := m % 2 ^ s
  if s = 0 then m
  else (if 2 * r > 2 ^ s ∨ (2 * r = 2 ^ s ∧ q % 2 = 1) then q + 1 else q) * 2 ^ s

/-- `x *= 2`. -/
def Dyadic.double (p : Nat) (x : Dyadic) : Dyadic := ⟨roundNat p (2 * x.m), x.e⟩

/-- `x += 1`. -/
def Dyadic.inc (p : Nat) (x : Dyadic) : Dyadic := ⟨roundNat p (x.m + 2 ^ x.e), x.e⟩

/-- `x /= 2`. -/
def Dyadic.half (p : Nat) (x : Dyadic) : Dyadic := ⟨roundNat p x.m, x.e + 1⟩

/-- The number. -/
def Dyadic.val (x : Dyadic) : Rat := (x.m : Rat) / 2 ^ x.e

/-- A loop that is executed `n` times. -/
def times (f : Dyadic → Dyadic) : Nat → Dyadic → Dyadic
  | 0, x => x
  | n + 1, x => times f n (f x)

/-- `max_float_to_int_safe_value` — cast_operator.h:51-69. -/
def maxSafe (src : FType) (dst : IType) : Dyadic :=
  let p := src.digits
  let result := times (fun x => (x.double p).inc p) p ⟨0, 0⟩
  let result := times (Dyadic.double p) (dst.digits - p) result
  times (Dyadic.half p) (p - dst.digits) result

/-- The absolute value of `min_float_to_int_safe_value` — cast_operator.h:78-100. -/
def minSafe (src : FType) (dst : IType) : Dyadic :=
  let p := src.digits
  if !dst.signed then ⟨0, 0⟩
  else
    let result := times (Dyadic.double p) p ⟨1, 0⟩
    let result := times (Dyadic.double p) (dst.digits - p) result
    times (fun x => (x.inc p).half p) (p - dst.digits) result

/-- A floating point value. -/
inductive Flt
  | fin (x : Rat) | inf (negative : Bool) | nan

/-- `lo <= x && x <= hi`. -/
def Flt.within (lo hi : Rat) : Flt → Bool
  | .fin x => lo ≤ x && x ≤ hi
  | .inf _ => false
  | .nan => false

/-- `static_cast` of a floating point value to an integer type. -/
def truncTo (dst : IType) : Flt → Option Int
  | .fin x =>
    if dst = .bool then some (if x = 0 then 0 else 1)
    else
      let n : Int := if 0 ≤ x then ⌊x⌋ else ⌈x⌉
      if dst.min ≤ n ∧ n ≤ dst.max then some n else none
  | _ => none

/-- The cast from a floating point type to an integer type — cast_operator.h:129-133, 156-176. -/
def castFlt (src : FType) (dst : IType) (x : Flt) : Option (Except Unit Int) :=
  if x.within (-(minSafe src dst).val) (maxSafe src dst).val then (truncTo dst x).map .ok else some (.error ())

end Verif.Cast
