import Verif.DebugText.DebugTextModel
import Mathlib.Algebra.BigOperators.Group.Finset.Basic
import Mathlib.Algebra.Order.BigOperators.Group.Finset
import Mathlib.Algebra.BigOperators.Ring.Finset
import Mathlib.Algebra.Module.Defs
import Mathlib.Algebra.Module.NatInt

/-!
# Counting the parts of the text
-/

namespace Verif.DebugText

open Finset

theorem sum_count (f : Nat → Nat) {n : Nat} {l : List Nat} (h : ∀ j ∈ l, j < n) : (l.map f).sum = ∑ j ∈ range n, l.count j * f j := by
  rw [Finset.sum_list_map_count]
  simp only [smul_eq_mul]
  refine Finset.sum_subset (fun j hj => by simpa using h j (by simpa using hj)) ?_
  intro j _ hj
  rw [List.count_eq_zero.2 (by simpa using hj), Nat.zero_mul]

theorem sum_map_le {f g : Nat → Nat} {l : List Nat} (h : ∀ j ∈ l, f j ≤ g j) : (l.map f).sum ≤ (l.map g).sum := by
  induction l with
  | nil => simp
  | cons a l ih =>
    have h1 := h a (by simp)
    have h2 := ih (fun j hj => h j (by simp [hj]))
    simp only [List.map_cons, List.sum_cons]
    omega

theorem sum_map_add (f g : Nat → Nat) (l : List Nat) : (l.map fun j => f j + g j).sum = (l.map f).sum + (l.map g).sum := by
  induction l with
  | nil => simp
  | cons a l ih => simp only [List.map_cons, List.sum_cons, ih]; omega

/-- What the loops compute, as functions of the number of a node. -/
structure Facts (n : Nat) (deps : Nat → List Nat) (st : Nat → Bool) (depth tok : Nat → Nat) : Prop where
  below : ∀ i < n, ∀ j ∈ deps i, j < i
  tok : ∀ i < n, tok i = if st i then 1 else 1 + ((deps i).map tok).sum
  depthSt : ∀ i < n, st i = true → depth i = 1
  depthDep : ∀ i < n, st i = false → ∀ j ∈ deps i, 1 + depth j ≤ depth i
  depthPos : ∀ i < n, 1 ≤ depth i
  once : ∀ i < n, st i = false → 3 ≤ depth i → ∑ k ∈ range n, (deps k).count i ≤ 1

variable {n : Nat} {deps : Nat → List Nat} {st : Nat → Bool} {depth tok : Nat → Nat}

/-- A node that is written in place of its only use although it is large. -/
def deep (st : Nat → Bool) (depth : Nat → Nat) (i : Nat) : Bool := !st i && decide (3 ≤ depth i)

theorem Facts.tok_one (F : Facts n deps st depth tok) {i : Nat} (hi : i < n) (hd : depth i ≤ 1) : tok i = 1 := by
  rw [F.tok i hi]
  cases hs : st i with
  | true => rfl
  | false =>
    have : deps i = [] := by
      apply List.eq_nil_iff_forall_not_mem.2
      intro j hj
      have h1 := F.depthDep i hi hs j hj
      have h2 := F.depthPos j (lt_trans (F.below i hi j hj) hi)
      omega
    simp [this]

theorem Facts.tok_small (F : Facts n deps st depth tok) {i : Nat} (hi : i < n) (hd : deep st depth i = false) : tok i ≤ 1 + (deps i).length := by
  rw [F.tok i hi]
  cases hs : st i with
  | true => simp
  | false =>
    have hd' : depth i < 3 := by simpa [deep, hs] using hd
    have h1 : ((deps i).map tok).sum ≤ ((deps i).map fun _ => 1).sum := by
      refine sum_map_le fun j hj => ?_
      have h1 := F.depthDep i hi hs j hj
      rw [F.tok_one (lt_trans (F.below i hi j hj) hi) (by omega)]
    simpa using h1

/-- The statements and the last node, written out, are together not longer than the local parts of all nodes. -/
theorem Facts.total (F : Facts (n + 1) deps st depth tok) :
    (∑ i ∈ range (n + 1), if st i then 1 + ((deps i).map tok).sum else 0) + tok n ≤
      1 + ∑ i ∈ range (n + 1), (1 + ((deps i).map fun j => 1 + (deps j).length).sum) := by
  -- everything that is written: `cost i`
  have hsplit : ∀ i ∈ range (n + 1), ((deps i).map tok).sum ≤
      ((deps i).map fun j => 1 + (deps j).length).sum + ((deps i).map fun j => if deep st depth j then tok j else 0).sum := by
    intro i hi
    rw [← sum_map_add]
    refine sum_map_le fun j hj => ?_
    have hj' : j < n + 1 := lt_trans (F.below i (by simpa using hi) j hj) (by simpa using hi)
    cases hd : deep st depth j with
    | true => simp
    | false => simpa using F.tok_small hj' hd
  have huse : ∑ i ∈ range (n + 1), ((deps i).map fun j => if deep st depth j then tok j else 0).sum ≤
      ∑ j ∈ range n, if deep st depth j then tok j else 0 := by
    have h1 : ∀ i ∈ range (n + 1), ((deps i).map fun j => if deep st depth j then tok j else 0).sum =
        ∑ j ∈ range n, (deps i).count j * if deep st depth j then tok j else 0 := by
      intro i hi
      refine sum_count _ fun j hj => ?_
      have := F.below i (by simpa using hi) j hj
      have hi' : i < n + 1 := by simpa using hi
      omega
    rw [Finset.sum_congr rfl h1, Finset.sum_comm]
    refine Finset.sum_le_sum fun j hj => ?_
    rw [← Finset.sum_mul]
    have hj' : j < n + 1 := by have : j < n := by simpa using hj
                               omega
    cases hd : deep st depth j with
    | false => simp
    | true =>
      have hs : st j = false ∧ 3 ≤ depth j := by simpa [deep] using hd
      have := F.once j hj' hs.1 hs.2
      simpa using Nat.mul_le_mul_right (tok j) this
  have hall : ∑ i ∈ range (n + 1), (1 + ((deps i).map tok).sum) ≤
      ∑ i ∈ range (n + 1), (1 + ((deps i).map fun j => 1 + (deps j).length).sum) + ∑ j ∈ range n, if deep st depth j then tok j else 0 := by
    refine le_trans ?_ (Nat.add_le_add_left huse _)
    rw [← Finset.sum_add_distrib]
    refine Finset.sum_le_sum fun i hi => ?_
    have := hsplit i hi
    omega
  have hparts : (∑ i ∈ range (n + 1), if st i then 1 + ((deps i).map tok).sum else 0) + tok n + (∑ j ∈ range n, if deep st depth j then tok j else 0) ≤
      1 + ∑ i ∈ range (n + 1), (1 + ((deps i).map tok).sum) := by
    rw [Finset.sum_range_succ, Finset.sum_range_succ (f := fun i => 1 + ((deps i).map tok).sum)]
    have h1 : (∑ i ∈ range n, if st i then 1 + ((deps i).map tok).sum else 0) + (∑ j ∈ range n, if deep st depth j then tok j else 0) ≤
        ∑ i ∈ range n, (1 + ((deps i).map tok).sum) := by
      rw [← Finset.sum_add_distrib]
      refine Finset.sum_le_sum fun i hi => ?_
      have hi' : i < n + 1 := by have : i < n := by simpa using hi
                                 omega
      cases hs : st i with
      | true => simp [deep, hs]
      | false =>
        cases hd : deep st depth i with
        | false => simp
        | true => simp [F.tok i hi', hs]
    have h2 : (if st n then 1 + ((deps n).map tok).sum else 0) + tok n ≤ 1 + (1 + ((deps n).map tok).sum) := by
      rw [F.tok n (by omega)]
      cases hs : st n <;> simp <;> omega
    omega
  omega

end Verif.DebugText
