import Verif.Util.SearchLemmas

/-!
# C02–C04: search functions

The specification is a count: on a sorted array the lower bound is the number of elements less
than the key and the upper bound the number of elements the key is not less than.
-/

namespace Verif.Search
variable {α : Type}

/-! ## C02 -/

/-- C02, integers: every read is in range and the result is the number of smaller elements. -/
theorem lower_bound_int (value : Int) (arr : List Int) (hs : arr.Pairwise (· ≤ ·)) :
    lowerBoundInt value arr = some (arr.countP (fun a => decide (a < value))) := by
  have h : IsPoint arr (fun arg => !decide (arg < value))
      (arr.countP (fun a => !(!decide (a < value)))) :=
    isPoint_countP (hs.imp (by intro a b hab; simp; omega))
  have := bound_spec (q := fun arg => decide (arg ≥ value)) h (by
    intro a _; simp [← decide_not])
  simp only [Bool.not_not] at this
  exact this

/-- C02, integers: the upper bound counts the elements that are not greater than the key. -/
theorem upper_bound_int (value : Int) (arr : List Int) (hs : arr.Pairwise (· ≤ ·)) :
    upperBoundInt value arr = some (arr.countP (fun a => decide (a ≤ value))) := by
  have h : IsPoint arr (fun arg => decide (value < arg))
      (arr.countP (fun a => !decide (value < a))) :=
    isPoint_countP (hs.imp (by intro a b hab; simp; omega))
  have := bound_spec (q := fun arg => decide (arg > value)) h (by intro a _; rfl)
  have e : (fun a : Int => !decide (value < a)) = fun a => decide (a ≤ value) := by
    funext a; simp [← decide_not]
  rw [e] at this
  exact this

example : lowerBoundInt 3 [1, 3, 3, 4, 9] = some 1 ∧ upperBoundInt 3 [1, 3, 3, 4, 9] = some 3 ∧
    [1, 3, 3, 4, 9].Pairwise (fun a b : Int => a ≤ b) := by
  refine ⟨by decide, by decide, by decide⟩

/-- A sorted array of floats without NaN. -/
def Flt.Sorted [LinearOrder α] (arr : List (Flt α)) : Prop :=
  arr.Pairwise (fun a b => a.le b = true) ∧ ∀ a ∈ arr, a.isnan = false

section
variable [LinearOrder α]

/-- C02, floats: for any key, NaN included, the lower bound counts the smaller elements (so it is 0
for NaN). -/
theorem lower_bound_flt (value : Flt α) (arr : List (Flt α)) (hs : Flt.Sorted arr) :
    lowerBoundFlt value arr = some (arr.countP (fun a => a.lt value)) := by
  have h : IsPoint arr (fun arg => !(arg.lt value)) (arr.countP (fun a => !(!(a.lt value)))) := by
    apply isPoint_countP (hs.1.imp _)
    intro a b hab
    cases a <;> cases b <;> cases value <;> simp_all [Flt.le, Flt.lt]
    intro h; exact le_trans h hab
  have := bound_spec (q := fun arg => !(arg.lt value)) h (by intro a _; rfl)
  simp only [Bool.not_not] at this
  exact this

/-- C02, floats: the upper bound counts the elements that the key is not less than; for a NaN key
that is the whole array, on the small-array path as well as on the large one. -/
theorem upper_bound_flt (value : Flt α) (arr : List (Flt α)) (hs : Flt.Sorted arr) :
    upperBoundFlt value arr = some (arr.countP (fun a => !(value.lt a))) := by
  have h : IsPoint arr (fun arg => value.lt arg) (arr.countP (fun a => !(value.lt a))) := by
    apply isPoint_countP (hs.1.imp _)
    intro a b hab
    cases a <;> cases b <;> cases value <;> simp_all [Flt.le, Flt.lt]
    intro h; exact lt_of_lt_of_le h hab
  cases value with
  | nan =>
    have e : arr.countP (fun a => !((Flt.nan : Flt α).lt a)) = arr.length := by
      rw [List.countP_eq_length]; intro a _; simp [Flt.lt]
    rw [e] at h ⊢
    unfold upperBoundFlt
    rw [small_spec h]
    by_cases h2 : arr.length ≤ 2 <;> simp [h2, upperBoundFltImpl, Flt.isnan]
  | num x =>
    have := bound_spec (q := fun arg => !(arg.le (Flt.num x))) h (by
      intro a ha
      have := hs.2 a ha
      cases a <;> simp_all [Flt.le, Flt.lt, Flt.isnan]
      rw [← decide_not, decide_eq_decide, not_lt])
    simp only [upperBoundFlt, upperBoundFltImpl, Flt.isnan]
    exact this

/-- C02, floats: consequence for NaN keys. -/
theorem bounds_nan (arr : List (Flt α)) (hs : Flt.Sorted arr) :
    lowerBoundFlt .nan arr = some 0 ∧ upperBoundFlt .nan arr = some arr.length := by
  rw [lower_bound_flt _ _ hs, upper_bound_flt _ _ hs]
  constructor
  · congr 1; rw [List.countP_eq_zero]; intro a _; cases a <;> simp [Flt.lt]
  · congr 1; rw [List.countP_eq_length]; intro a _; simp [Flt.lt]
end

example : Flt.Sorted [Flt.num 1, .num 3, .num 3, .num (8 : Int)] ∧
    upperBoundFlt (.num 3) [Flt.num 1, .num 3, .num 3, .num (8 : Int)] = some 3 := by
  refine ⟨⟨by decide, by decide⟩, by decide⟩

/-! ## C03 -/

/-- C03: on a sorted range `GallopingLowerBound` reads only inside the range, terminates and returns
the number of elements less than the key. -/
theorem galloping_lower_bound [LinearOrder α] (value : α) (arr : List α)
    (hs : arr.Pairwise (· ≤ ·)) :
    gallopingLowerBound arr (fun a => decide (a < value)) =
      some (arr.countP (fun a => decide (a < value))) := by
  have h : IsPoint arr (fun arg => !decide (arg < value))
      (arr.countP (fun a => !(!decide (a < value)))) :=
    isPoint_countP (hs.imp (by intro a b hab; simp; exact fun h => le_trans h hab))
  simp only [Bool.not_not] at h
  exact galloping_spec h

/-- C03: and therefore agrees with `LowerBound`. -/
theorem galloping_eq_lower_bound (value : Int) (arr : List Int) (hs : arr.Pairwise (· ≤ ·)) :
    gallopingLowerBound arr (fun a => decide (a < value)) = lowerBoundInt value arr := by
  rw [lower_bound_int value arr hs, galloping_lower_bound value arr hs]

example : gallopingLowerBound [1, 2, 4, 4, 6, 7, 9, (12 : Int)] (fun a => decide (a < 8)) = some 6 ∧
    [1, 2, 4, 4, 6, 7, 9, (12 : Int)].Pairwise (· ≤ ·) := by
  refine ⟨by decide, by decide⟩

/-! ## C04 -/

/-- C04: on a range partitioned by `comp(·, val)` — the precondition of `std::lower_bound` —
`exp_lower_bound` dereferences only valid positions and returns the partition point.  Partial: the
intermediate iterator position is only required to be harmless when it is not dereferenced (see the
counterexample below). -/
theorem exp_lower_bound_partial (comp : α → Bool) (arr : List α)
    (hs : arr.Pairwise (fun a b => comp b = true → comp a = true)) :
    expLowerBound false arr comp = some (arr.countP comp) := by
  have h : IsPoint arr (fun a => !comp a) (arr.countP (fun a => !(!comp a))) :=
    isPoint_countP (hs.imp (by intro a b hab; simp; intro h; by_contra hc; simp_all))
  simp only [Bool.not_not] at h
  exact exp_spec h

/-- C04 in terms of a strict weak order given by a linear order: same result as `LowerBound`. -/
theorem exp_lower_bound_sorted [LinearOrder α] (value : α) (arr : List α)
    (hs : arr.Pairwise (· ≤ ·)) :
    expLowerBound false arr (fun a => decide (a < value)) =
      some (arr.countP (fun a => decide (a < value))) :=
  exp_lower_bound_partial _ _ (hs.imp (by intro a b hab; simp; exact fun h => lt_of_le_of_lt hab h))

/-- C04, the part that does not hold: on four elements all less than the key the iterator is moved
past the end of the range (`std::advance(it, step)` leaves `[first, last]`), which is undefined
behaviour even though the position is never dereferenced. -/
theorem exp_lower_bound_iterator_counterexample :
    expLowerBound true [0, 0, 0, (0 : Int)] (fun a => decide (a < 1)) = none ∧
      expLowerBound false [0, 0, 0, (0 : Int)] (fun a => decide (a < 1)) = some 4 := by
  constructor <;> decide

example : expLowerBound false [1, 2, 4, 4, 6, 7, 9, (12 : Int)] (fun a => decide (a < 8)) = some 6 ∧
    [1, 2, 4, 4, 6, 7, 9, (12 : Int)].Pairwise
      (fun a b => decide (b < 8) = true → decide (a < 8) = true) := by
  refine ⟨by decide, by decide⟩

end Verif.Search
