import Verif.Curve.CurveModel

/-! # Specification of piecewise linear curves -/

namespace Verif.Curve

variable {K : Type} [Field K] [LinearOrder K]

/-- The line through two points. -/
def line (a b : K × K) (t : K) : K := a.2 + (t - a.1) * ((b.2 - a.2) / (b.1 - a.1))

/-- No coordinate is NaN. -/
def NoNan (points : List (Pt K)) : Prop := ∀ p ∈ points, p.x ≠ .nan ∧ p.y ≠ .nan

/-- The transformation of a variant is strictly increasing from every point on that the variant accepts as the first. -/
def Hook.Increasing (h : Hook K) : Prop := ∀ a x y, h.minOk a = true → a.le x = true → x.lt y = true → (h.inn x).lt (h.inn y) = true

/-- A point as finite numbers after the transformation. -/
def IsFin (h : Hook K) (p : Pt K) (q : K × K) : Prop := h.inn p.x = .fin q.1 ∧ p.y = .fin q.2

end Verif.Curve
