import Mathlib.Tactic.Ring
import Verif.Series.SeriesModel
import Verif.Series.SeriesSpec
import Verif.Group.GroupProps
import Verif.Group.GroupInst

/-!
# Lemmas about the moving average
-/

namespace Verif.Series
open Verif.Dense Verif.Agg Verif.Group

/-- The present values at the beginning. -/
def run (r : List (Option Rat)) : List Rat := (r.takeWhile Option.isSome).filterMap id

theorem run_none (r : List (Option Rat)) : run (none :: r) = [] := rfl

theorem run_some (x : Rat) (r : List (Option Rat)) : run (some x :: r) = x :: run r := rfl

theorem run_spec : ∀ (r : List (Option Rat)) (w : Nat),
    ((w ≤ r.length ∧ none ∉ r.take w) ↔ w ≤ (run r).length) ∧ (w ≤ (run r).length → (r.take w).filterMap id = (run r).take w) := by
  intro r
  induction r with
  | nil => intro w; constructor <;> simp [run]
  | cons v r ih =>
    intro w
    cases w with
    | zero => simp
    | succ w =>
      cases v with
      | none => rw [run_none]; simp
      | some x =>
        rw [run_some]
        obtain ⟨h1, h2⟩ := ih w
        simp only [List.length_cons, List.take_succ_cons, List.mem_cons, reduceCtorEq, false_or, Nat.add_le_add_iff_right]
        refine ⟨h1, fun h => ?_⟩
        rw [← h2 h]
        rfl

theorem sum_reverse_rat (l : List Rat) : l.reverse.sum = l.sum := by
  induction l with
  | nil => rfl
  | cons a l ih => rw [List.reverse_cons, List.sum_append, ih, List.sum_cons, List.sum_cons, List.sum_nil]; ring

theorem trailingMean_last (w : Nat) (q rest : List (Option Rat)) (hq : q ≠ []) :
    trailingMean w (q ++ rest) (q.length - 1) =
      if w ≤ (run q.reverse).length then some (((run q.reverse).take w).sum / w) else none := by
  have hl : 0 < q.length := List.length_pos_iff.2 hq
  unfold trailingMean
  simp only
  rw [show q.length - 1 + 1 = q.length by omega, List.take_left' rfl]
  have hd : q.drop (q.length - w) = (q.reverse.take w).reverse := by
    rw [List.take_reverse, List.reverse_reverse]
  obtain ⟨h1, h2⟩ := run_spec q.reverse w
  rw [hd]
  rw [List.length_reverse, ← List.mem_reverse] at h1
  by_cases h : w ≤ (run q.reverse).length
  · rw [if_pos (h1.2 h), if_pos h, List.filterMap_reverse, h2 h, sum_reverse_rat]
  · rw [if_neg (fun hc => h (h1.1 hc)), if_neg h]

theorem sum_dropLast (l : List Rat) (b : Rat) (h : l.getLast? = some b) : l.sum - b = l.dropLast.sum := by
  obtain ⟨t, rfl⟩ := List.getLast?_eq_some_iff.1 h
  rw [List.dropLast_concat, List.sum_append, List.sum_cons, List.sum_nil]
  ring

/-- The state after the values `p`, whose results were taken. -/
def maState (w : Nat) (p : List (Option Rat)) : MaState :=
  ⟨(run p.reverse).take (w - 1), ((run p.reverse).take (w - 1)).sum⟩

theorem maStep (w : Nat) (hw : 1 ≤ w) (p : List (Option Rat)) (v : Option Rat) (rest : List (Option Rat)) :
    maGet w (maAdd v (maState w p)) = (some (trailingMean w (p ++ v :: rest) p.length), maState w (p ++ [v])) := by
  have ht := trailingMean_last w (p ++ [v]) rest (by simp)
  rw [List.append_assoc, List.singleton_append, List.length_append, List.length_singleton, Nat.add_sub_cancel] at ht
  rw [ht]
  unfold maState
  rw [List.reverse_append, List.reverse_singleton, List.singleton_append]
  cases v with
  | none =>
    rw [run_none]
    unfold maAdd maGet
    simp only [List.length_nil, List.take_nil, List.sum_nil]
    rw [if_neg (by omega), if_neg (by omega)]
  | some x =>
    rw [run_some]
    generalize run p.reverse = r
    unfold maAdd maGet
    simp only
    have hcons : x :: r.take (w - 1) = (x :: r).take w := by
      obtain ⟨k, rfl⟩ : ∃ k, w = k + 1 := ⟨w - 1, by omega⟩
      simp
    have hsum : (r.take (w - 1)).sum + x = ((x :: r).take w).sum := by
      rw [← hcons, List.sum_cons]; ring
    rw [hcons, hsum]
    generalize x :: r = t
    by_cases hc : w ≤ t.length
    · rw [if_pos (by rw [List.length_take]; omega), if_pos hc]
      have hne : (t.take w).getLast? ≠ none := by
        rw [Ne, List.getLast?_eq_none_iff]
        intro h0
        have := congrArg List.length h0
        rw [List.length_take, List.length_nil] at this
        omega
      cases hg : (t.take w).getLast? with
      | none => exact absurd hg hne
      | some b =>
        simp only
        have hdl : (t.take w).dropLast = t.take (w - 1) := by
          rw [List.dropLast_eq_take, List.length_take, List.take_take]
          congr 1
          omega
        rw [sum_dropLast _ _ hg, hdl]
        simp
    · rw [if_neg (by rw [List.length_take]; omega), if_neg hc, List.take_of_length_le (by omega), List.take_of_length_le (by omega)]

theorem partialResults_from (w : Nat) (hw : 1 ≤ w) : ∀ (rest p : List (Option Rat)),
    (movingAverage w).partialResults rest (maState w p) =
      (List.range rest.length).map (fun i => some (trailingMean w (p ++ rest) (p.length + i))) := by
  intro rest
  induction rest with
  | nil => intro p; rfl
  | cons v rest ih =>
    intro p
    rw [Acc.partialResults]
    have hs : (movingAverage w).get ((movingAverage w).add v (maState w p)) =
        (some (trailingMean w (p ++ v :: rest) p.length), maState w (p ++ [v])) := maStep w hw p v rest
    rw [hs]
    simp only
    rw [ih (p ++ [v]), List.length_cons, List.range_succ_eq_map, List.map_cons, List.map_map]
    congr 1
    apply List.map_congr_left
    intro i _
    simp only [Function.comp, List.append_assoc, List.singleton_append, List.length_append, List.length_singleton]
    rw [show p.length + 1 + i = p.length + i.succ by omega]

theorem partialResults_ma (w : Nat) (hw : 1 ≤ w) (xs : List (Option Rat)) (s : MaState) :
    (movingAverage w).partialResults xs ((movingAverage w).reset () s) =
      (List.range xs.length).map (fun i => some (trailingMean w xs i)) := by
  have h := partialResults_from w hw xs []
  rw [show maState w [] = (movingAverage w).reset () s from rfl.trans (by unfold maState; simp [run, movingAverage])] at h
  rw [h]
  simp

/-- The position of `c` among the numbers that satisfy `P`. -/
theorem lookup_zip (P : Nat → Bool) (f : Nat → β) {n c : Nat} (hc : c < n) (hP : P c = true) :
    (((List.range n).filter P).zip ((List.range ((List.range n).filter P).length).map f)).lookup c =
      some (f ((List.range c).filter P).length) := by
  have hsplit : (List.range n).filter P = (List.range c).filter P ++ c :: ((List.range (n - c - 1)).map (c + 1 + ·)).filter P := by
    have h1 : List.range n = List.range c ++ (c :: (List.range (n - c - 1)).map (c + 1 + ·)) := by
      conv_lhs => rw [show n = c + (1 + (n - c - 1)) by omega]
      rw [List.range_add, List.range_add (n := 1)]
      simp [List.range_one, Function.comp_def, Nat.add_assoc]
    rw [h1, List.filter_append, List.filter_cons_of_pos hP]
  rw [hsplit]
  generalize hA : (List.range c).filter P = A
  generalize ((List.range (n - c - 1)).map (c + 1 + ·)).filter P = B
  have hAc : ∀ a ∈ A, a ≠ c := by
    intro a ha
    rw [← hA] at ha
    have := List.mem_range.1 (List.mem_filter.1 ha).1
    omega
  rw [List.length_append, List.range_add, List.map_append, List.zip_append (by simp), List.lookup_append]
  have h0 : (A.zip ((List.range A.length).map f)).lookup c = none := by
    rw [List.lookup_eq_none_iff]
    rintro ⟨a, b⟩ hab
    have := (List.of_mem_zip hab).1
    simpa using (hAc a this).symm
  rw [h0, List.length_cons, List.range_succ_eq_map]
  simp
end Verif.Series
