import Verif.Forest.ObliviousLemmas
import Mathlib.Tactic.Ring
import Verif.Forest.RegularProps

/-!
# C62: conversion to oblivious trees
-/

namespace Verif.Forest

variable {C A M : Type}

/-- The number whose binary digits, most significant first, are the values of the conditions. -/
def layerIndex (ev : C → Bool) (layers : List C) : Nat :=
  layers.foldl (fun n c => 2 * n + (if ev c then 1 else 0)) 0

theorem isPowerOf2_iff {x : Nat} (hx : 0 < x) : isPowerOf2 x = true ↔ ∃ d, x = 2 ^ d := by
  constructor
  · intro h
    simp only [isPowerOf2, beq_iff_eq] at h
    refine ⟨x.log2, ?_⟩
    have h1 : 2 ^ x.log2 ≤ x := Nat.log2_self_le (by omega)
    have h2 : x < 2 ^ (x.log2 + 1) := Nat.lt_log2_self
    by_cases he : x = 2 ^ x.log2
    · exact he
    · exfalso
      have hbit : ∀ r, r < 2 ^ x.log2 → (2 ^ x.log2 + r).testBit x.log2 = true := by
        intro r hr
        rw [Nat.testBit_two_pow_add_eq, Nat.testBit_lt_two_pow hr]; rfl
      rw [Nat.pow_succ] at h2
      have b1 := hbit (x - 2 ^ x.log2) (by omega)
      have b2 := hbit (x - 1 - 2 ^ x.log2) (by omega)
      rw [show 2 ^ x.log2 + (x - 2 ^ x.log2) = x by omega] at b1
      rw [show 2 ^ x.log2 + (x - 1 - 2 ^ x.log2) = x - 1 by omega] at b2
      have : (x &&& (x - 1)).testBit x.log2 = true := by rw [Nat.testBit_and, b1, b2]; rfl
      rw [h] at this
      simp at this
  · rintro ⟨d, rfl⟩
    exact isPowerOf2_pow d

theorem layerIndex_acc (ev : C → Bool) : ∀ (layers : List C) (n : Nat),
    layers.foldl (fun n c => 2 * n + (if ev c then 1 else 0)) n = n * 2 ^ layers.length + layerIndex ev layers := by
  intro layers
  induction layers with
  | nil => intro n; simp [layerIndex]
  | cons c cs ih =>
    intro n
    simp only [layerIndex, List.foldl_cons, List.length_cons, Nat.pow_succ]
    rw [ih, ih (2 * 0 + _)]
    ring_nf

theorem layerIndex_cons (ev : C → Bool) (c : C) (cs : List C) :
    layerIndex ev (c :: cs) = (if ev c then 2 ^ cs.length else 0) + layerIndex ev cs := by
  have := layerIndex_acc ev cs (2 * 0 + if ev c then 1 else 0)
  simp only [layerIndex, List.foldl_cons] at this ⊢
  rw [this]
  split <;> simp

theorem layerIndex_lt (ev : C → Bool) : ∀ (cs : List C), layerIndex ev cs < 2 ^ cs.length := by
  intro cs
  induction cs with
  | nil => simp [layerIndex]
  | cons c cs ih =>
    rw [layerIndex_cons, List.length_cons, Nat.pow_succ]
    split <;> omega

theorem perfect_eval (ev : C → Bool) {agree : C → C → Prop} (hag : ∀ a b, agree a b → ev a = ev b) :
    ∀ (cs : List C) (b : BT C A), b.Perfect agree cs → b.leaves[layerIndex ev cs]? = some (b.eval ev) := by
  intro cs
  induction cs with
  | nil => intro b h; cases b with
    | leaf a => rfl
    | node => simp [BT.Perfect] at h
  | cons c cs ih =>
    intro b h
    cases b with
    | leaf a => simp [BT.Perfect] at h
    | node c' f g =>
      obtain ⟨h0, h1, h2⟩ := h
      have hl := perfect_leaves cs f h1
      have hlt := layerIndex_lt ev cs
      rw [layerIndex_cons, BT.leaves, BT.eval, ← hag _ _ h0]
      by_cases he : ev c = true
      · rw [if_pos he, if_pos he, List.getElem?_append_right (by omega), hl, Nat.add_sub_cancel_left]
        exact ih g h2
      · rw [if_neg he, if_neg he, List.getElem?_append_left (by omega), Nat.zero_add]
        exact ih f h1

/-- The possible outcomes of the conversion of an accepted tree, for every fuel above a bound. -/
theorem toOblivious_cases (condEq : C → C → Bool) (scale : A → A → M) {t : Tree C A} (hw : WellFormed t)
    (hs : t.adjustments.length < 2 ^ 32) :
    ∃ bound, ∀ fuel, bound ≤ fuel →
      (toOblivious condEq scale t fuel = some none ∧
        ∀ d, t.adjustments.length = 2 ^ d → recObl condEq t d 0 t.root [] = none) ∨
      ∃ (d : Nat) (layers : List C) (b : BT C A), t.adjustments.length = 2 ^ d ∧
        recObl condEq t d 0 t.root [] = some (layers, b) ∧
        toOblivious condEq scale t fuel = some (some ⟨layers, b.leaves.map (scale · t.weight)⟩) := by
  obtain ⟨-, -, hreg, hc⟩ := (wellFormed_iff t).1 hw
  have hpos : 0 < t.adjustments.length := by omega
  by_cases hp : isPowerOf2 t.adjustments.length = true
  · obtain ⟨d, hd⟩ := (isPowerOf2_iff hpos).1 hp
    refine ⟨cost d, fun fuel hf => ?_⟩
    obtain ⟨e, rfl⟩ : ∃ e, fuel = cost d + e := ⟨fuel - cost d, by omega⟩
    have hd32 : d < 32 := by
      rw [hd] at hs
      exact (Nat.pow_lt_pow_iff_right (by omega)).1 hs
    have htr := traverse_rec condEq scale hc d d 0 t.root [] [] [] e (by omega) (root_ok hreg) (by simp)
    have hdef : toOblivious condEq scale t (cost d + e) = traverse condEq scale t d (cost d + e) [(t.root, 0)] [] [] := by
      have hctz : ctz32 t.adjustments.length = some d := by rw [hd]; exact ctz32_pow hd32
      simp only [toOblivious, hp, Bool.not_true, Bool.false_eq_true, if_false]
      rw [if_neg (by omega), hctz]
      rfl
    rw [hdef]
    cases h : recObl condEq t d 0 t.root [] with
    | none =>
      left
      refine ⟨htr.1 h, fun d' hd' => ?_⟩
      have : d' = d := Nat.pow_right_injective (Nat.le_refl 2) (by simp only; omega)
      rw [this, h]
    | some p =>
      obtain ⟨layers, b⟩ := p
      right
      refine ⟨d, layers, b, hd, h, ?_⟩
      rw [htr.2 layers b h]
      cases e <;> simp [traverse]
  · refine ⟨0, fun fuel _ => .inl ⟨?_, fun d hd => ?_⟩⟩
    · simp only [Bool.not_eq_true] at hp
      simp [toOblivious, hp]
    · exact absurd ((isPowerOf2_iff hpos).2 ⟨d, hd⟩) hp

/-- `ToObliviousTree` always ends, even on trees with cycles, without out of bounds accesses. -/
theorem to_oblivious_ends (condEq : C → C → Bool) (scale : A → A → M) {t : Tree C A} (hw : WellFormed t)
    (hs : t.adjustments.length < 2 ^ 32) :
    ∃ r bound, ∀ fuel, bound ≤ fuel → toOblivious condEq scale t fuel = some r := by
  obtain ⟨bound, h⟩ := toOblivious_cases condEq scale hw hs
  rcases h bound (Nat.le_refl _) with ⟨h0, h1⟩ | ⟨d, layers, b, h1, h2, h3⟩
  · refine ⟨none, bound, fun fuel hf => ?_⟩
    rcases h fuel hf with ⟨g, -⟩ | ⟨d, layers, b, g1, g2, g3⟩
    · exact g
    · rw [h1 d g1] at g2; cases g2
  · refine ⟨some ⟨layers, b.leaves.map (scale · t.weight)⟩, bound, fun fuel hf => ?_⟩
    rcases h fuel hf with ⟨g, g1⟩ | ⟨d', layers', b', g1, g2, g3⟩
    · rw [g1 d h1] at h2; cases h2
    · have : d' = d := Nat.pow_right_injective (Nat.le_refl 2) (by simp only; omega)
      rw [this, h2] at g2
      cases g2
      exact g3

/-- The oblivious tree agrees with the tree it was made from: for every evaluation of the conditions in which conditions
that compare equal have the same value, the entry of `adjustments` at the number whose binary digits are the values of
the layers is the adjustment at the end of the path times the weight. -/
theorem to_oblivious_sound (condEq : C → C → Bool) (scale : A → A → M) {t : Tree C A} (hw : WellFormed t)
    (hs : t.adjustments.length < 2 ^ 32) :
    ∃ bound, ∀ fuel, bound ≤ fuel → ∀ o, toOblivious condEq scale t fuel = some (some o) →
      o.adjustments.length = 2 ^ o.layers.length ∧
      ∀ ev : C → Bool, (∀ a b, condEq a b = true → ev a = ev b) →
        ∃ i a, Path ev t t.root i ∧ t.adjustments[i]? = some a ∧
          o.adjustments[layerIndex ev o.layers]? = some (scale a t.weight) := by
  obtain ⟨bound, h⟩ := toOblivious_cases condEq scale hw hs
  refine ⟨bound, fun fuel hf o ho => ?_⟩
  rcases h fuel hf with ⟨g, -⟩ | ⟨d, layers, b, g1, g2, g3⟩
  · rw [g] at ho; cases ho
  · rw [g3] at ho
    cases ho
    have hlen := recObl_prefix condEq t d 0 t.root [] layers b g2 (by simp)
    have hld : layers.length = d := by simpa using hlen.2
    have hsound : ∀ agree : C → C → Prop, (∀ c, agree c c) → (∀ a b, condEq a b = true → agree a b) →
        Denotes t t.root b ∧ b.Perfect agree layers := by
      intro agree h1 h2
      have := recObl_sound h1 h2 d 0 t.root [] layers b g2 (by simp)
      rw [List.drop_zero, List.take_of_length_le (by omega)] at this
      exact this
    refine ⟨?_, fun ev hev => ?_⟩
    · have := hsound (fun _ _ => True) (fun _ => trivial) (fun _ _ _ => trivial)
      rw [List.length_map]
      exact perfect_leaves layers b this.2
    · have hs' := hsound (fun a b => ev a = ev b) (fun _ => rfl) hev
      obtain ⟨i, h1, h2⟩ := eval_of_denotes (ev := ev) hs'.1
      refine ⟨i, _, h1, h2, ?_⟩
      rw [List.getElem?_map, perfect_eval ev (fun _ _ h => h) layers b hs'.2]
      rfl

/-- Exactly the perfect trees with equal conditions per layer are converted: all leaves at the same depth, twice as many
adjustments for every layer. -/
theorem to_oblivious_iff (condEq : C → C → Bool) (scale : A → A → M) {t : Tree C A} (hw : WellFormed t)
    (hs : t.adjustments.length < 2 ^ 32) (hrefl : ∀ a, condEq a a = true)
    (hsym : ∀ a b, condEq a b = true → condEq b a = true)
    (htrans : ∀ a b c, condEq a b = true → condEq b c = true → condEq a c = true) :
    ∃ bound, ∀ fuel, bound ≤ fuel →
      ((∃ o, toOblivious condEq scale t fuel = some (some o)) ↔
        ∃ (layers : List C) (b : BT C A), Denotes t t.root b ∧ b.Perfect (fun x y => condEq x y = true) layers ∧
          t.adjustments.length = 2 ^ layers.length) := by
  obtain ⟨bound, h⟩ := toOblivious_cases condEq scale hw hs
  refine ⟨bound, fun fuel hf => ⟨?_, ?_⟩⟩
  · rintro ⟨o, ho⟩
    rcases h fuel hf with ⟨g, -⟩ | ⟨d, layers, b, g1, g2, g3⟩
    · rw [g] at ho; cases ho
    · have hlen := recObl_prefix condEq t d 0 t.root [] layers b g2 (by simp)
      have hld : layers.length = d := by simpa using hlen.2
      have := recObl_sound (agree := fun x y => condEq x y = true) hrefl (fun _ _ h => h) d 0 t.root [] layers b g2 (by simp)
      rw [List.drop_zero, List.take_of_length_le (by omega)] at this
      exact ⟨layers, b, this.1, this.2, by rw [hld]; exact g1⟩
  · rintro ⟨layers, b, hb, hp, hl⟩
    obtain ⟨layers', h1, -⟩ := recObl_complete (fun x y => condEq x y = true) hsym htrans (fun _ _ h => h) layers 0 t.root []
      b hb hp (by simp) (by simp)
    rcases h fuel hf with ⟨g, g1⟩ | ⟨d, l, b', g1, g2, g3⟩
    · rw [g1 _ hl] at h1; cases h1
    · exact ⟨_, g3⟩

/-- A tree of depth two with the same condition in both nodes of the second layer. -/
def oblTree : Tree Nat Int :=
  ⟨[⟨.split 1, .split 2, 0⟩, ⟨.leaf 3, .leaf 1, 1⟩, ⟨.leaf 2, .leaf 0, 1⟩], [10, 20, 30, 40], 2, ⟨0, 0⟩⟩

example : ∃ o, toOblivious (· == ·) (fun a w => a * w) oblTree 7 = some (some o) ∧ o.layers = [0, 1] ∧
    o.adjustments = [80, 40, 60, 20] := ⟨⟨[0, 1], [80, 40, 60, 20]⟩, by decide +kernel, rfl, rfl⟩

example : toOblivious (· == ·) (fun a w => a * w) sampleTree 7 = some none := by decide +kernel

end Verif.Forest
