import Mathlib.Algebra.Order.Field.Basic

/-!
# Model of piecewise linear curves

`arolla/pwlcurve/curves.cc`.  Numbers are those of an ordered field `K` with two infinities and NaN; arithmetic on finite numbers is exact
(no rounding), and arithmetic on other numbers is not modelled: it gives `none`.  The variants for `float` differ only in rounding and are not
modelled apart.
-/

namespace Verif.Curve

variable {K : Type} [Field K] [LinearOrder K]

/-- A coordinate. -/
inductive Ext (K : Type)
  | neg
  | fin (k : K)
  | pos
  | nan

/-- `a < b` -/
def Ext.lt : Ext K → Ext K → Bool
  | .neg, .fin _ => true
  | .neg, .pos => true
  | .fin a, .fin b => decide (a < b)
  | .fin _, .pos => true
  | _, _ => false

/-- `a == b` -/
def Ext.eq : Ext K → Ext K → Bool
  | .neg, .neg => true
  | .fin a, .fin b => decide (a = b)
  | .pos, .pos => true
  | _, _ => false

/-- `a <= b` -/
def Ext.le (a b : Ext K) : Bool := a.lt b || a.eq b

/-- `isinf` -/
def Ext.isInf : Ext K → Bool
  | .neg | .pos => true
  | _ => false

/-- `Point<double>` — curves.h:47-61. -/
structure Pt (K : Type) where
  x : Ext K
  y : Ext K

/-- What a variant provides: `Hook::In` and `Hook::ValidateMin`. -/
structure Hook (K : Type) where
  inn : Ext K → Ext K
  minOk : Ext K → Bool

/-- `IdentityHook` — curves.cc:332-342. -/
def identityHook : Hook K := ⟨id, fun _ => true⟩

/-- The errors. -/
inductive Err
  | notEnoughFinitePoints | xNotIncreasing | asymptoteConstant | belowMin | wrongSign | horizontalAsymptote | verticalAsymptote | interiorInf
  deriving DecidableEq

/-- The first loop of `TrimDuplicateYPointsAtEnds` — curves.cc:243-244. -/
def trimFront : List (Pt K) → List (Pt K)
  | a :: b :: rest => if a.y.eq b.y then trimFront (b :: rest) else a :: b :: rest
  | l => l

/-- The second loop, which goes from the end: the first one on the reversed range — curves.cc:245-246. -/
def trimBack (l : List (Pt K)) : List (Pt K) := (trimFront l.reverse).reverse

/-- The loop over neighbours — curves.cc:262-268. -/
def increasing : List (Pt K) → Bool
  | a :: b :: rest => if b.x.le a.x then false else increasing (b :: rest)
  | _ => true

/-- The first point is infinite and the second and third trimmed points have the same `y`. -/
def badAsymptote (p : Pt K) : List (Pt K) → Bool
  | _ :: b :: c :: _ => (p.x.isInf || p.y.isInf) && b.y.eq c.y
  | _ => false

/-- `CommonChecks`: the range `[*begin, *end)` — curves.cc:256-288. -/
def commonChecks (h : Hook K) (points : List (Pt K)) : Except Err (List (Pt K)) :=
  match points.head?, points.getLast? with
  | some first, some last =>
    if !increasing points then .error .xNotIncreasing
    else
      let t := trimBack (trimFront points)
      if t.length = 1 then .ok t
      else if badAsymptote first t then .error .asymptoteConstant
      else if badAsymptote last t.reverse then .error .asymptoteConstant
      else if h.minOk first.x then .ok t
      else .error .belowMin
  | _, _ => .error .notEnoughFinitePoints

/-- `LinearCoefficients` — curves.cc:356-359. -/
structure Coef (K : Type) where
  max : Ext K
  m : K
  b : K

/-- The coefficients between neighbours — curves.cc:392-404. -/
def segments : List (K × K) → List (Coef K)
  | p :: q :: rest =>
    let m := (q.2 - p.2) / (q.1 - p.1)
    ⟨.fin q.1, m, p.2 - m * p.1⟩ :: segments (q :: rest)
  | _ => []

/-- `PWLCoefficientsFor` — curves.cc:368-405. -/
def coefficientsFor (netIncreasing : Bool) : List (K × K) → List (Coef K)
  | [p] => let m : K := if netIncreasing then 1 else -1
    [⟨.pos, m, p.2 - m * p.1⟩]
  | l => segments l

/-- `FindCoefficients`: `std::lower_bound` over all but the last; the range is sorted (`segments_sorted`), so that it is the first element that
is not less — curves.cc:326-330. -/
def findCoef (t : K) : List (Coef K) → Option (Coef K)
  | [] => none
  | [c] => some c
  | c :: d :: rest => if c.max.lt (.fin t) then findCoef t (d :: rest) else some c

/-- A curve: constant, or with `front_`, `back_` and the coefficients, which are `none` if arithmetic was done on numbers that are not finite. -/
inductive Curve (K : Type)
  | const (y : Ext K)
  | pwl (front back : Pt K) (coefs : Option (List (Coef K)))

/-- `IsStrictlyMonotonic` — curves.cc:542-544. -/
def strictlyMonotonic (a b c : Ext K) : Bool := (a.lt b && b.lt c) || (b.lt a && c.lt b)

/-- An infinite `y` at an end that the next segment does not reach — curves.cc:607-620. -/
def wrongSignAt (y : Ext K) : List (Pt K) → Bool
  | _ :: b :: c :: _ => y.isInf && !strictlyMonotonic y b.y c.y
  | _ => false

/-- The finite transformed points. -/
def finitePts (h : Hook K) : List (Pt K) → Option (List (K × K))
  | [] => some []
  | p :: ps =>
    match h.inn p.x, p.y, finitePts h ps with
    | .fin a, .fin b, some l => some ((a, b) :: l)
    | _, _, _ => none

/-- The adjustment of `begin_` — curves.cc:622-651. -/
def adjustFront (h : Hook K) (front : Pt K) (t : List (Pt K)) : Except Err (List (Pt K)) :=
  if (h.inn front.x).isInf then
    if !front.y.isInf then .error .horizontalAsymptote
    else if t.tail.isEmpty then .error .horizontalAsymptote
    else .ok t.tail
  else if front.y.isInf then .error .verticalAsymptote
  else .ok t

/-- The adjustment of `end_` — curves.cc:653-670. -/
def adjustBack (h : Hook K) (back : Pt K) (t : List (Pt K)) : Except Err (List (Pt K)) :=
  if (h.inn back.x).isInf then
    if !back.y.isInf then .error .horizontalAsymptote
    else if t.dropLast.isEmpty then .error .notEnoughFinitePoints
    else .ok t.dropLast
  else if back.y.isInf then .error .verticalAsymptote
  else .ok t

/-- `PWLCurveBuilder` and `Build` — curves.cc:565-716; the points kept in `transformed_front_` and `transformed_back_` are those that
`TransformControlPoint` (346-349) gives again. -/
def build (h : Hook K) (points : List (Pt K)) : Except Err (Curve K) :=
  match commonChecks h points with
  | .error e => .error e
  | .ok t =>
    match t.head?, t.getLast? with
    | some front, some back =>
      if t.length = 1 then .ok (.const front.y)
      else if wrongSignAt front.y t then .error .wrongSign
      else if wrongSignAt back.y t.reverse then .error .wrongSign
      else match adjustFront h front t with
        | .error e => .error e
        | .ok t1 => match adjustBack h back t1 with
          | .error e => .error e
          | .ok t2 =>
            if t2.any (·.y.isInf) then .error .interiorInf
            else .ok (.pwl front back ((finitePts h t2).map (coefficientsFor (front.y.lt back.y))))
    | _, _ => .error .notEnoughFinitePoints

/-- `EvaluateLinearEquation` — curves.cc:409-414. -/
def linear (c : Coef K) (t : K) : K := c.m * t + c.b

/-- `Eval` — curves.cc:305, 452-460. -/
def Curve.eval (h : Hook K) : Curve K → Ext K → Option (Ext K)
  | .const y, _ => some y
  | .pwl front back coefs, x =>
    if x.le front.x then some front.y
    else if back.x.le x then some back.y
    else match h.inn x, coefs with
      | .fin t, some cs => (findCoef t cs).map fun c => .fin (linear c t)
      | _, _ => none

end Verif.Curve
