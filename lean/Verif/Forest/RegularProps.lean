import Verif.Forest.RegularLemmas
import Verif.Forest.ForestProps

/-!
# C61: the compiler and the predictors of regular trees
-/

namespace Verif.Forest

variable {C A M : Type}

/-- For trees accepted by `FromTrees` the regular compiler succeeds exactly for the proper trees (every node has at most
one parent, the root none); otherwise it reports an error.  It never reads out of bounds. -/
theorem regular_compile_iff (scale : A → A → M) {t : Tree C A} (hw : WellFormed t) :
    ((∃ c, compileRegular scale t = some (.ok c)) ↔ Proper t) ∧
    (¬ Proper t → ∃ e, compileRegular scale t = some (.error e)) := by
  have h := compileRegular_spec scale hw
  refine ⟨⟨fun ⟨c, hc⟩ => ?_, fun hp => ⟨_, h.1 hp⟩⟩, fun hp => ⟨_, h.2 hp⟩⟩
  by_cases hp : Proper t
  · exact hp
  · rw [h.2 hp] at hc; cases hc

theorem regular_value (scale : A → A → M) {t : Tree C A} (hp : Proper t) (ev : C → Bool) (fuel : Nat)
    (hf : t.splits.length ≤ fuel) :
    ∃ i a, Path ev t t.root i ∧ t.adjustments[i]? = some a ∧
      predictLoop (compactOf scale t) ev fuel (compactOf scale t).root = some (scale a t.weight) := by
  obtain ⟨b, hb⟩ := proper_denotes hp
  obtain ⟨i, h1, h2⟩ := eval_of_denotes (ev := ev) hb
  refine ⟨i, _, h1, h2, ?_⟩
  have hroot : (compactOf scale t).root = t.root := by
    simp [Compact.root, Tree.root, compactOf]
  rw [hroot]
  have := proper_leaves hp hb
  rw [leaves_length, hp.regions] at this
  exact predictLoop_denotes scale ev hb fuel (by omega)

/-- `SinglePredictor::Predict` of the compiled tree ends after at most as many steps as there are split nodes, and gives
the adjustment at the end of the path of the conditions times the weight. -/
theorem regular_predict (scale : A → A → M) {t : Tree C A} (hw : WellFormed t) (c : Compact C M)
    (hc : compileRegular scale t = some (.ok c)) (ev : C → Bool) (fuel : Nat) (hf : t.splits.length ≤ fuel) :
    ∃ i a, Path ev t t.root i ∧ t.adjustments[i]? = some a ∧ predictSingle c ev fuel = some (scale a t.weight) := by
  have hp : Proper t := (regular_compile_iff scale hw).1.1 ⟨c, hc⟩
  rw [(compileRegular_spec scale hw).1 hp] at hc
  cases hc
  exact regular_value scale hp ev fuel hf

/-- `BoostedPredictor::Predict` combines the values of the selected trees, each exactly once, in some order. -/
theorem boosted_predict {G : Type} (scale : A → A → M) (op : M → M → M) (ev : C → Bool) (filter : G → Bool)
    (trees : List (Tree C A × G)) (compiled : List (Compact C M × G))
    (hc : compiled.map Prod.snd = trees.map Prod.snd ∧
      compiled.map (fun p => some (.ok p.1)) = trees.map fun p => compileRegular scale p.1)
    (hw : ∀ p ∈ trees, WellFormed p.1) (val : Tree C A → M)
    (hval : ∀ p ∈ trees, ∃ i a, Path ev p.1 p.1.root i ∧ p.1.adjustments[i]? = some a ∧ val p.1 = scale a p.1.weight)
    (fuel : Nat) (hf : ∀ p ∈ trees, p.1.splits.length < fuel) (init : M) :
    ∃ l : List M, predictBoosted op ev filter fuel compiled init = some (l.foldl op init) ∧
      l.Perm ((trees.filter fun p => filter p.2).map fun p => val p.1) := by
  obtain ⟨hc1, hc2⟩ := hc
  have hpr : ∀ p ∈ trees, Proper p.1 := by
    intro p hp
    have hm : compileRegular scale p.1 ∈ trees.map fun p => compileRegular scale p.1 := List.mem_map.2 ⟨p, hp, rfl⟩
    rw [← hc2, List.mem_map] at hm
    obtain ⟨q, -, hq⟩ := hm
    exact (regular_compile_iff scale (hw p hp)).1.1 ⟨q.1, hq.symm⟩
  have hcomp : compiled = trees.map fun p => (compactOf scale p.1, p.2) := by
    clear hval hf
    induction trees generalizing compiled with
    | nil => cases compiled with
      | nil => rfl
      | cons a l => simp at hc1
    | cons p rest ih =>
      cases compiled with
      | nil => simp at hc1
      | cons q l =>
        simp only [List.map_cons, List.cons.injEq] at hc1 hc2
        rw [(compileRegular_spec scale (hw p (by simp))).1 (hpr p (by simp))] at hc2
        obtain ⟨h1, h2⟩ := hc2
        simp only [Option.some.injEq, Except.ok.injEq] at h1
        rw [List.map_cons, ih l (fun x hx => hw x (by simp [hx])) hc1.2 h2 (fun x hx => hpr x (by simp [hx]))]
        congr 1
        exact Prod.ext h1 hc1.1
  obtain ⟨D, hD, hDf⟩ : ∃ D, (∀ p ∈ trees, p.1.splits.length ≤ D) ∧ (trees = [] ∨ D < fuel) := by
    refine ⟨fuel - 1, fun p hp => by have := hf p hp; omega, ?_⟩
    cases trees with
    | nil => exact .inl rfl
    | cons p l => right; have := hf p (by simp); omega
  rcases hDf with h0 | hDf
  · subst h0
    subst hcomp
    exact ⟨[], by simp [predictBoosted], by simp⟩
  have hloop : ∀ p ∈ trees, predictLoop (compactOf scale p.1) ev D (compactOf scale p.1).root = some (val p.1) := by
    intro p hp
    obtain ⟨i, a, h1, h2, h3⟩ := regular_value scale (hpr p hp) ev D (hD p hp)
    obtain ⟨j, b, g1, g2, g3⟩ := hval p hp
    rw [path_unique g1 h1, h2] at g2
    cases g2
    rw [h3, g3]
  obtain ⟨l, h1, h2⟩ := predictBoosted_spec op ev filter fuel D hDf
    (fun c => (predictLoop c ev D c.root).getD init) compiled.length compiled (Nat.le_refl _)
    (by
      intro q hq
      rw [hcomp, List.mem_map] at hq
      obtain ⟨p, hp, rfl⟩ := hq
      simp [hloop p hp]) init
  refine ⟨l, h1, h2.trans ?_⟩
  rw [hcomp, List.filter_map, List.map_map]
  refine .of_eq ?_
  apply List.map_congr_left
  intro p hp
  simp [hloop p (List.mem_of_mem_filter hp)]

/-- With a commutative and associative operation the order does not matter: the result is the accumulation in the order
of the trees. -/
theorem boosted_predict_sum {G : Type} (scale : A → A → M) (op : M → M → M)
    (hop : ∀ a b c, op (op a b) c = op (op a c) b) (ev : C → Bool) (filter : G → Bool)
    (trees : List (Tree C A × G)) (compiled : List (Compact C M × G))
    (hc : compiled.map Prod.snd = trees.map Prod.snd ∧
      compiled.map (fun p => some (.ok p.1)) = trees.map fun p => compileRegular scale p.1)
    (hw : ∀ p ∈ trees, WellFormed p.1) (val : Tree C A → M)
    (hval : ∀ p ∈ trees, ∃ i a, Path ev p.1 p.1.root i ∧ p.1.adjustments[i]? = some a ∧ val p.1 = scale a p.1.weight)
    (fuel : Nat) (hf : ∀ p ∈ trees, p.1.splits.length < fuel) (init : M) :
    predictBoosted op ev filter fuel compiled init =
      some (((trees.filter fun p => filter p.2).map fun p => val p.1).foldl op init) := by
  obtain ⟨l, h1, h2⟩ := boosted_predict scale op ev filter trees compiled hc hw val hval fuel hf init
  rw [h1]
  exact congrArg some (h2.foldl_eq (rcomm := ⟨hop⟩) init)

/-- A tree with a shared leaf is accepted by `FromTrees`, but not by the regular compiler. -/
def sharedTree : Tree Nat Int := ⟨[⟨.leaf 0, .leaf 0, 0⟩], [10, 20], 1, ⟨0, 0⟩⟩

example : (∃ m : Meta Nat, fromTrees (fun c => [(c, 7)]) [sharedTree] = .ok m) ∧
    (∃ e, compileRegular (fun a w => a * w) sharedTree = some (.error e)) :=
  ⟨⟨⟨1, 1, [(0, 7)]⟩, by decide +kernel⟩, ⟨.duplicated, rfl⟩⟩

example : ∃ c, compileRegular (fun a w => a * w) sampleTree = some (.ok c) ∧
    predictSingle c (fun i => i == 1) 2 = some 40 ∧
    predictBoosted (· + ·) (fun i => i == 1) (fun g : Nat => g == 0) 3 [(c, 0), (c, 1), (c, 0)] 5 = some 85 :=
  ⟨_, rfl, rfl, by simp [predictBoosted]; decide +kernel⟩

end Verif.Forest
