import Verif.Series.MaLemmas
import Verif.Series.EwmaLemmas

/-!
# Properties of the operators on time series
-/

namespace Verif.Series
open Verif.Dense Verif.Agg Verif.Group

/-! ## C136: moving average -/

theorem toInt32_nat {w : Nat} (h : w < 2 ^ 31) : toInt32 w = w := by
  unfold toInt32
  rw [BitVec.toInt_ofInt]
  exact Int.bmod_eq_of_le (by omega) (by omega)

theorem kids_eq (parentOf : Nat → Option Nat) (value : Nat → Option Rat) (n i np : Nat) (prow) :
    (Rows.mk np n prow (fun c => some [value c]) parentOf : Rows Rat).kids i =
      ((List.range n).filter fun c => decide (parentOf c = some i)).map (fun c => (c, [value c])) := by
  unfold Rows.kids
  simp only [Option.map_some]
  induction List.range n with
  | nil => rfl
  | cons c l ih =>
    by_cases h : parentOf c = some i
    · rw [List.filterMap_cons_some (by rw [if_pos h]), List.filter_cons_of_pos (by simpa using h), List.map_cons, ih]
    · rw [List.filterMap_cons_none (by rw [if_neg h]), List.filter_cons_of_neg (by simpa using h), ih]

/-- C136: for a window of 1 to 2^31-1 values, a child of a group has the mean of the last `w` values of its group up to itself, and
no value if there are fewer than `w` or one of them is missing; a child without a group has no value. -/
theorem moving_average_partial (idOf : Rat → Int) (mem : Nat → Rat) {series : DArr Rat} {w : Nat} (hw : 1 ≤ w) (hw' : w < 2 ^ 31)
    {edge : GEdge (DArr Rat)} (hv : edge.values.Valid) (he : EdgeOk idOf edge (Dense.elem edge.values) edge.values.values.length)
    (hs : series.Valid) (hl : series.values.length = edge.childSize) :
    ∃ out, aggMovingAverage idOf mem series w edge = some (.ok out) ∧ out.Valid ∧
      Dense.elems out = (List.range edge.childSize).map fun c =>
        (edgeParent idOf edge (Dense.elem edge.values) c).bind fun i =>
          trailingMean w (members (edgeParent idOf edge (Dense.elem edge.values)) (Dense.elem series) edge.childSize i)
            (position (edgeParent idOf edge (Dense.elem edge.values)) i c) := by
  have hlaw : Lawful (maOp idOf w) Eq := lawful_eq (fun _ => rfl) (fun _ _ _ => rfl) (fun _ _ _ => rfl)
  have hc := dense_group_op hlaw mem (e := edge) (pargs := []) (cargs := [⟨true, series⟩]) hv he
    (fun a ha => by cases ha) (fun a ha => by
      rw [List.mem_singleton] at ha
      subst ha
      exact ⟨hs, hl⟩)
  obtain ⟨out, h1, h2, h3⟩ := hc.2 (by
    rintro ⟨i, a, _, _, hf⟩
    have hf : false = true := hf
    cases hf)
  refine ⟨out, h1, h2, h3.trans ?_⟩
  show (List.range edge.childSize).map _ = _
  apply List.map_congr_left
  intro c hcn
  rw [List.mem_range] at hcn
  have hrow : denseRow [(⟨true, series⟩ : Arg Rat)] = fun c => some [Dense.elem series c] := by
    funext c; rfl
  have hd : denseData (maOp idOf w).idOf edge [] [⟨true, series⟩] =
      ⟨edge.parentSize, edge.childSize, fun _ => some [], fun c => some [Dense.elem series c],
        edgeParent idOf edge (Dense.elem edge.values)⟩ := by
    unfold denseData
    rw [hrow]
    rfl
  rw [hd]
  generalize edgeParent idOf edge (Dense.elem edge.values) = par
  unfold GroupOp.expected
  rw [if_neg (by intro h; cases h)]
  cases hp : par c with
  | none => simp only [hp, Option.bind_none]
  | some i =>
    simp only [hp, Option.bind_some]
    rw [kids_eq]
    have hm : (((List.range edge.childSize).filter fun c => decide (par c = some i)).map fun c => (c, [Dense.elem series c])).map
        (maOp idOf w).child = members par (Dense.elem series) edge.childSize i := by
      unfold members
      rw [List.map_map]
      rfl
    have hfst : (((List.range edge.childSize).filter fun c => decide (par c = some i)).map fun c => (c, [Dense.elem series c])).map
        Prod.fst = (List.range edge.childSize).filter fun c => decide (par c = some i) := by
      rw [List.map_map]
      exact List.map_id _
    have hout : (maOp idOf w).groupOut i () (((List.range edge.childSize).filter fun c => decide (par c = some i)).map
        fun c => (c, [Dense.elem series c])) (maOp idOf w).empty =
        ((List.range edge.childSize).filter fun c => decide (par c = some i)).zip
          ((List.range ((List.range edge.childSize).filter fun c => decide (par c = some i)).length).map
            (fun j => some (trailingMean w (members par (Dense.elem series) edge.childSize i) j))) := by
      show List.zip _ (Acc.partialResults (movingAverage (toInt32 w)) _ _) = _
      rw [hfst, hm, toInt32_nat hw']
      have := partialResults_ma w hw (members par (Dense.elem series) edge.childSize i) (maOp idOf w).empty
      refine (congrArg _ this).trans ?_
      congr 2
      rw [members, List.length_map]
    rw [show (maOp idOf w).parg [] = () from rfl, hout, lookup_zip _ _ hcn (by simpa using hp)]
    rfl

/-- Non-vacuity: two groups of an edge with split points 0, 4, 6; windows of two values; the third value is missing. -/
example : ∃ out, aggMovingAverage (fun v => v.num) (fun _ => 0) ⟨[1, 3, 0, 5, 7, 9], [59], 0⟩ (2 : Nat)
    ⟨true, 2, 6, ⟨[0, 4, 6], [], 0⟩⟩ = some (.ok out) ∧ Dense.elems out = [none, some 2, none, none, none, some 8] := by
  obtain ⟨out, h1, _, h2⟩ := moving_average_partial (fun v => v.num) (fun _ => 0)
    (series := ⟨[1, 3, 0, 5, 7, 9], [59], 0⟩) (w := 2) (by omega) (by omega)
    (edge := ⟨true, 2, 6, ⟨[0, 4, 6], [], 0⟩⟩) (by decide +kernel) (by unfold EdgeOk; decide +kernel) (by decide +kernel) rfl
  exact ⟨out, h1, h2.trans (by decide +kernel)⟩

/-- C136: windows of at least 2^31 values are not handled: one of 2^32 + 1 values is taken for one of a single value. -/
theorem moving_average_window_counterexample :
    (∀ (idOf : Rat → Int) mem series edge, aggMovingAverage idOf mem series ((2 ^ 32 + 1 : Nat) : Int) edge =
      aggMovingAverage idOf mem series ((1 : Nat) : Int) edge) ∧
    trailingMean 1 [some 5] 0 = some 5 ∧ trailingMean (2 ^ 32 + 1) [some 5] 0 = none := by
  refine ⟨?_, by decide +kernel, by decide +kernel⟩
  intro idOf mem series edge
  have h : toInt32 ((2 ^ 32 + 1 : Nat) : Int) = toInt32 ((1 : Nat) : Int) := by decide +kernel
  unfold aggMovingAverage maOp
  rw [h]

/-- C136: with a window of no values, a missing value makes the accumulator read the last element of an empty deque, which is
undefined behaviour. -/
theorem moving_average_zero_counterexample (s : MaState) :
    ((movingAverage (toInt32 0)).get ((movingAverage (toInt32 0)).add none s)).1 = none := rfl

/-- C136: a negative window gives no values. -/
theorem moving_average_negative (w : Int) (hw : w < 0) (xs : List (Option Rat)) (s : MaState) :
    (movingAverage w).partialResults xs s = xs.map (fun _ => some none) := by
  induction xs generalizing s with
  | nil => rfl
  | cons v xs ih =>
    rw [Acc.partialResults]
    have : (movingAverage w).get ((movingAverage w).add v s) = (some none, (movingAverage w).add v s) := by
      show maGet w _ = _
      unfold maGet
      exact if_neg (by omega)
    rw [this]
    simp only [List.map_cons]
    rw [ih]

/-! ## C137: exponentially weighted average -/

theorem decay_steps (q : Rat) (ig : Bool) {p i : Nat} (h : p < i) : decay q ig (i - p - 1) = q ^ steps ig p i := by
  unfold decay steps
  cases ig with
  | true => simp
  | false => simp only [Bool.false_eq_true, if_false]; congr 1; omega

/-- C137: an `alpha` outside of (0, 1] is an error. -/
theorem ewma_rejects (xs : List (Option Rat)) (alpha : Rat) (adjust ig : Bool) :
    ewma xs alpha adjust ig = none ↔ ¬ (0 < alpha ∧ alpha ≤ 1) := by
  unfold ewma
  constructor
  · intro h ⟨h1, h2⟩
    rw [if_neg (by rintro (h | h) <;> linarith)] at h
    split at h <;> cases h
  · intro h
    rw [if_pos]
    by_contra hc
    exact h ⟨by by_contra h1; exact hc (Or.inl (by linarith)), by by_contra h1; exact hc (Or.inr (by linarith))⟩

/-- C137: the adjusted average of a present row is the weighted mean of the present rows up to it, where a row weighs `1 - alpha` to
the power of its age, in rows or in present rows; missing rows between present ones repeat the value before them. -/
theorem ewma_adjusted (xs : List (Option Rat)) {alpha : Rat} (h0 : 0 < alpha) (h1 : alpha ≤ 1) (ig : Bool) :
    ∃ ys, ewma xs alpha true ig = some ys ∧ Filled xs ys ∧
      ∀ i, Present xs i → ys[i]?.join = some (weightedMean alpha ig xs i) := by
  have h := adjusted_inv xs alpha ig
  refine ⟨_, ?_, rowsOk_filled h.rows (fun j hj hp => h.gap j hj (present_lt hp) hp) h.last, ?_⟩
  · unfold ewma
    rw [if_neg (by rintro (h | h) <;> linarith)]
    rfl
  · intro i hi
    refine h.rows.present i ?_ hi
    by_contra hc
    exact h.gap i (by omega) (present_lt hi) hi

/-- C137: the unadjusted average of the first present row is its value; that of a later one is the mean of its value, weighted
`alpha`, and of the average of the present row before, weighted `1 - alpha` to the power of the number of rows since then (one if
missing rows are ignored). -/
theorem ewma_unadjusted (xs : List (Option Rat)) {alpha : Rat} (h0 : 0 < alpha) (h1 : alpha ≤ 1) (ig : Bool) :
    ∃ ys, ewma xs alpha false ig = some ys ∧ Filled xs ys ∧
      (∀ i, Present xs i → (∀ j, j < i → ¬ Present xs j) → ys[i]?.join = xs[i]?.join) ∧
      ∀ p i x y, p < i → (∀ j, p < j → j < i → ¬ Present xs j) → Present xs p → ys[p]?.join = some y → xs[i]?.join = some x →
        ys[i]?.join = some ((alpha * x + (1 - alpha) ^ steps ig p i * y) / (alpha + (1 - alpha) ^ steps ig p i)) := by
  have h := uState_inv alpha ig xs xs.length (Nat.le_refl _)
  have hval : ∀ i, Present xs i → at' (uState alpha ig xs xs.length).rows i = some (uVal alpha ig xs i) := by
    intro i hi
    refine h.rows.present i ?_ hi
    by_contra hc
    exact h.gap i (by omega) (present_lt hi) hi
  refine ⟨_, ?_, rowsOk_filled h.rows (fun j hj hp => h.gap j hj (present_lt hp) hp) h.last, ?_, ?_⟩
  · unfold ewma
    rw [if_neg (by rintro (h | h) <;> linarith)]
    simp only [Bool.false_eq_true, if_false]
    unfold unadjustedEwma
    rw [← unadjLoop_eq alpha ig xs xs 0 rfl (by omega)]
    rfl
  · intro i hi hf
    obtain ⟨x, hx⟩ := present_iff.1 hi
    rw [show (uState alpha ig xs xs.length).rows[i]?.join = some (uVal alpha ig xs i) from hval i hi, uVal_first hx hf]
    exact hx.symm
  · intro p i x y hpi hgap hp hy hx
    rw [show (uState alpha ig xs xs.length).rows[p]?.join = some (uVal alpha ig xs p) from hval p hp] at hy
    rw [show (uState alpha ig xs xs.length).rows[i]?.join = some (uVal alpha ig xs i) from hval i (present_iff.2 ⟨x, hx⟩),
      uVal_next hpi hp hx hgap, Option.some.inj hy,
      decay_steps _ _ hpi]

/-- C137: without missing rows the unadjusted average is the usual recursion. -/
theorem ewma_recursion (xs : List (Option Rat)) {alpha : Rat} (h0 : 0 < alpha) (h1 : alpha ≤ 1) (ig : Bool) {ys}
    (h : ewma xs alpha false ig = some ys) {i : Nat} {x y : Rat} (hp : Present xs i) (hy : ys[i]?.join = some y)
    (hx : xs[i + 1]?.join = some x) : ys[i + 1]?.join = some (alpha * x + (1 - alpha) * y) := by
  obtain ⟨ys', h2, _, _, h3⟩ := ewma_unadjusted xs h0 h1 ig
  obtain rfl := Option.some.inj (h.symm.trans h2)
  rw [h3 i (i + 1) x y (by omega) (fun j h1 h2 => by omega) hp hy hx]
  have : steps ig i (i + 1) = 1 := by unfold steps; cases ig <;> simp
  rw [this, pow_one, show alpha + (1 - alpha) = 1 by ring, div_one]

/-- C137: averages stay between the smallest and the largest value. -/
theorem ewma_bounds (xs : List (Option Rat)) {alpha : Rat} {adjust ig : Bool} {ys : List (Option Rat)}
    (h : ewma xs alpha adjust ig = some ys) {lo hi : Rat} (hb : ∀ x, some x ∈ xs → lo ≤ x ∧ x ≤ hi) :
    ∀ y, some y ∈ ys → lo ≤ y ∧ y ≤ hi := by
  have ha : 0 < alpha ∧ alpha ≤ 1 := by
    by_contra hc
    rw [(ewma_rejects xs alpha adjust ig).2 hc] at h
    cases h
  obtain ⟨h0, h1⟩ := ha
  have hb' : ∀ i x, at' xs i = some x → lo ≤ x ∧ x ≤ hi := by
    intro i x hx
    refine hb x ?_
    unfold at' at hx
    cases he : xs[i]? with
    | none => rw [he] at hx; cases hx
    | some v =>
      rw [he] at hx
      have hx : v = some x := hx
      exact hx ▸ List.mem_of_getElem? he
  intro y hy
  obtain ⟨i, hi⟩ := List.getElem?_of_mem hy
  have hy' : at' ys i = some y := by unfold at'; rw [hi]; rfl
  unfold ewma at h
  rw [if_neg (by rintro (h | h) <;> linarith)] at h
  cases adjust with
  | true =>
    obtain rfl := Option.some.inj h
    have hi := adjusted_inv xs alpha ig
    exact rows_bounds hi.rows (fun i hp => weightedMean_bounds h1 ig xs hb' hp) hi.last i y hy'
  | false =>
    obtain rfl := Option.some.inj h
    have hi := uState_inv alpha ig xs xs.length (Nat.le_refl _)
    refine rows_bounds hi.rows (fun i hp => uVal_bounds h0 h1 ig xs hb' i hp) hi.last i y ?_
    rw [← unadjLoop_eq alpha ig xs xs 0 rfl (by omega)]
    exact hy'

/-- Non-vacuity: values in rows 1, 2 and 4 of six; row 3 is filled, row 5 is not. -/
example : ewma [none, some 1, some 4, none, some 8, none] (1 / 2) true false =
      some [none, some 1, some 3, some 3, some (73 / 11), none] ∧
    ewma [none, some 1, some 4, none, some 8, none] (1 / 2) true true =
      some [none, some 1, some 3, some 3, some (41 / 7), none] ∧
    ewma [none, some 1, some 4, none, some 8, none] (1 / 2) false true =
      some [none, some 1, some (5 / 2), some (5 / 2), some (21 / 4), none] ∧
    ewma [none, some 1, some 4, none, some 8, none] (1 / 2) false false =
      some [none, some 1, some (5 / 2), some (5 / 2), some (37 / 6), none] ∧
    ewma [some 1] 0 true true = none ∧ ewma [some 1] (3 / 2) false true = none := by decide +kernel

example : Present [none, some (1 : Rat), some 4, none, some 8, none] 4 ∧
    weightedMean (1 / 2) false [none, some 1, some 4, none, some 8, none] 4 = 73 / 11 ∧
    steps false 2 4 = 2 ∧ steps true 2 4 = 1 := by decide +kernel

end Verif.Series
