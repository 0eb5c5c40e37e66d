/-!
# Model of IsWithinOneTypo

`arolla/util/string.cc:35-52`.  An index out of range gives `none`.
-/

namespace Verif.Text

/-- `std::mismatch(...).first - begin`: the length of the common prefix. -/
def mismatch : List Nat → List Nat → Nat
  | a :: s, b :: t => if a = b then mismatch s t + 1 else 0
  | _, _ => 0

/-- `IsWithinOneTypo` — lines 35-52. -/
def isWithinOneTypo (lhs rhs : List Nat) : Option Bool :=
  let n := lhs.length
  let m := rhs.length
  let l := mismatch lhs rhs
  let r := mismatch (lhs.drop l).reverse (rhs.drop l).reverse
  if n - l - r ≤ 1 ∧ m - l - r ≤ 1 then some true
  else if l + r + 2 = n ∧ n = m then
    match lhs[l]?, rhs[l + 1]?, lhs[l + 1]?, rhs[l]? with
    | some a, some b', some a', some b => some (a = b' && a' = b)
    | _, _, _, _ => none
  else some false

end Verif.Text
