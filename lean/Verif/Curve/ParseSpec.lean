import Mathlib.Data.List.Forall2
import Verif.Curve.ParseModel

/-! # Specification of the text form of curves -/

namespace Verif.Curve

/-- The text of a point. -/
def pointText (sep : Char) (xy : List Char × List Char) : List Char := ['{'] ++ xy.1 ++ [sep] ++ xy.2 ++ ['}']

/-- The texts of the coordinates of a point and their values. -/
def PointOk {D : Type} (atod : List Char → Option D) (sep : Char) (xy : List Char × List Char) (p : D × D) : Prop :=
  sep ∉ xy.1 ∧ '}' ∉ xy.1 ∧ '}' ∉ xy.2 ∧ atod xy.1 = some p.1 ∧ atod xy.2 = some p.2

/-- The texts that stand for a curve. -/
def IsText {D : Type} (atod : List Char → Option D) (sep : Char) (text : List Char) (type : CurveType) (points : List (D × D)) : Prop :=
  (sep = ';' ∨ sep = '|') ∧ ∃ name xys, parseType name = some type ∧ xys ≠ [] ∧ List.Forall₂ (PointOk atod sep) xys points ∧
    text = name ++ "({".toList ++ joinWith sep (xys.map (pointText sep)) ++ "})".toList

end Verif.Curve
