import Verif.Forest.ForestLemmas

/-!
# C36, C37: node ids and naive evaluation
-/

namespace Verif.Forest

/-! ## C36 -/

/-- Every non-negative split node index survives the encoding and is not a leaf. -/
theorem split_node_id (i : Int) (h0 : 0 ≤ i) :
    (splitNodeId i).isLeaf = false ∧ (splitNodeId i).splitNodeIndex = i := by
  refine ⟨decide_eq_false ?_, rfl⟩
  simp only [splitNodeId]
  omega

/-- Every adjustment index below `2^63 - 1` survives the encoding and is a leaf, without undefined behaviour. -/
theorem adjustment_id_partial (i : Int) (h0 : 0 ≤ i) (h1 : i < 2 ^ 63 - 1) :
    ∃ n, adjustmentId i = some n ∧ n.isLeaf = true ∧ n.adjustmentIndex = some i := by
  refine ⟨⟨-i - 1⟩, ?_, ?_, ?_⟩
  · simp only [adjustmentId, i64]
    rw [if_pos (by omega)]
    simp only [Option.bind_eq_bind, Option.bind_some]
    rw [if_pos (by omega)]
    rfl
  · simp [NodeId.isLeaf]; omega
  · simp only [NodeId.adjustmentIndex, i64]
    rw [if_pos (by omega)]
    simp only [Option.bind_eq_bind, Option.bind_some]
    rw [if_pos (by omega)]
    congr 1
    omega

/-- The node ids of different split nodes and adjustments are different. -/
theorem node_ids_distinct (i j : Int) (hi : 0 ≤ i) (hj : 0 ≤ j) :
    (splitNodeId i = splitNodeId j → i = j) ∧
    (∀ n m, adjustmentId i = some n → adjustmentId j = some m → n = m → i = j) ∧
    (∀ m, adjustmentId j = some m → splitNodeId i ≠ m) := by
  have hadj : ∀ (k : Int) (n : NodeId), adjustmentId k = some n → n.val = -k - 1 := by
    intro k n h
    simp only [adjustmentId, i64] at h
    split at h
    · simp only [Option.bind_eq_bind, Option.bind_some] at h
      split at h
      · simp only [Option.bind_some, Option.pure_def, Option.some.injEq] at h
        rw [← h]
      · simp at h
    · simp at h
  refine ⟨fun h => by simpa [splitNodeId] using h, fun n m hn hm h => ?_, fun m hm h => ?_⟩
  · have := hadj i n hn
    have := hadj j m hm
    subst h
    omega
  · have := hadj j m hm
    rw [← h] at this
    simp only [splitNodeId] at this
    omega

/-- The largest index breaks the round trip: `AdjustmentId(INT64_MAX)` is a valid leaf id, but `adjustment_index`
overflows. -/
theorem adjustment_id_counterexample :
    ∃ n, adjustmentId (2 ^ 63 - 1) = some n ∧ n.isLeaf = true ∧ n.adjustmentIndex = none :=
  ⟨⟨-2 ^ 63⟩, by decide +kernel, by decide +kernel, by decide +kernel⟩

example : ∃ n, adjustmentId 5 = some n ∧ n.val = -6 ∧ n.adjustmentIndex = some 5 :=
  ⟨⟨-6⟩, by decide +kernel, rfl, by decide +kernel⟩

/-! ## C37 -/

/-- The filter selects by step range and submodel; the default filter selects every tree with a non-negative step. -/
theorem filter_iff (f : Filter) (tag : Tag) : f.accepts tag = true ↔ f.Selects tag := accepts_iff f tag

/-- `FromTrees` accepts exactly the forests of well-formed trees in which no input is used with two types, and then
stores the number of submodels and steps and the types of the used inputs. -/
theorem from_trees_accepts {C A Q : Type} [DecidableEq Q] (sig : C → List (Nat × Q)) (trees : List (Tree C A)) :
    ((∃ m, fromTrees sig trees = .ok m) ↔
      (∀ t ∈ trees, WellFormed t) ∧ ∀ id q q', Uses sig trees id q → Uses sig trees id q' → q = q') ∧
    ∀ m, fromTrees sig trees = .ok m →
      (∀ id q, (id, q) ∈ m.required ↔ Uses sig trees id q) ∧ (m.required.map Prod.fst).Nodup ∧
      (0 ≤ m.submodelCount ∧ 0 ≤ m.stepCount) ∧
      (∀ t ∈ trees, t.tag.submodel < m.submodelCount ∧ t.tag.step < m.stepCount) ∧
      (m.submodelCount ≠ 0 → ∃ t ∈ trees, t.tag.submodel + 1 = m.submodelCount) ∧
      (m.stepCount ≠ 0 → ∃ t ∈ trees, t.tag.step + 1 = m.stepCount) := by
  have hspec := initTrees_spec sig trees ⟨0, 0, []⟩ (by simp [Consistent]) (by simp [KeysOk])
  simp only [List.nil_append] at hspec
  have hcons : Consistent (allSigs sig trees) ↔ ∀ id q q', Uses sig trees id q → Uses sig trees id q' → q = q' := by
    simp only [Consistent, mem_allSigs]
  refine ⟨⟨?_, ?_⟩, ?_⟩
  · rintro ⟨m, hm⟩
    obtain ⟨a, b, -⟩ := hspec.1 m hm
    exact ⟨a, hcons.1 b⟩
  · rintro ⟨a, b⟩
    cases h : fromTrees sig trees with
    | ok m => exact ⟨m, rfl⟩
    | error e => exact absurd ⟨a, hcons.2 b⟩ (hspec.2 e h)
  · intro m hm
    obtain ⟨-, -, c, d, e, f⟩ := hspec.1 m hm
    obtain ⟨e1, e2, e3⟩ := foldl_max_le (fun t : Tree C A => t.tag.submodel + 1) trees 0
    obtain ⟨f1, f2, f3⟩ := foldl_max_le (fun t : Tree C A => t.tag.step + 1) trees 0
    rw [← e] at e1 e2 e3
    rw [← f] at f1 f2 f3
    refine ⟨fun id q => (d _).trans (mem_allSigs sig trees id q), c, ⟨e1, f1⟩, fun t ht => ⟨?_, ?_⟩, fun h => ?_, fun h => ?_⟩
    · have := e2 t ht; omega
    · have := f2 t ht; omega
    · rcases e3 with e3 | ⟨t, ht, e3⟩
      · exact absurd e3 h
      · exact ⟨t, ht, e3.symm⟩
    · rcases f3 with f3 | ⟨t, ht, f3⟩
      · exact absurd f3 h
      · exact ⟨t, ht, f3.symm⟩

/-- `ValidateInputSlots` accepts exactly the slots which have the type of every used input. -/
theorem validate_input_slots_iff {C A Q : Type} [DecidableEq Q] (sig : C → List (Nat × Q)) (trees : List (Tree C A))
    (m : Meta Q) (hm : fromTrees sig trees = .ok m) (slots : List Q) :
    validateInputSlots m slots = true ↔ ∀ id q, Uses sig trees id q → slots[id]? = some q := by
  have h := ((from_trees_accepts sig trees).2 m hm).1
  simp only [validateInputSlots, List.all_eq_true]
  constructor
  · intro hv id q hu
    have := hv (id, q) ((h id q).2 hu)
    simp only at this
    split at this
    · simp at this
    · rename_i q' hq'
      rw [hq']
      simpa using this
  · rintro hv ⟨id, q⟩ he
    simp [hv id q ((h id q).1 he)]

theorem naiveLoop_spec {C A M : Type} (add : M → A → A → M) (ev : C → Bool) (filter : Filter) (fuel : Nat) :
    ∀ (trees : List (Tree C A)) (acc : M), (∀ t ∈ trees, WellFormed t) →
      naiveLoop add ev filter fuel trees acc ≠ .outOfBounds ∧
      ∀ x, naiveLoop add ev filter fuel trees acc = .value x → Sums add ev filter trees acc x := by
  intro trees
  induction trees with
  | nil =>
    intro acc _
    refine ⟨by simp [naiveLoop], fun x hx => ?_⟩
    simp only [naiveLoop, Outcome.value.injEq] at hx
    subst hx
    exact .nil acc
  | cons t rest ih =>
    intro acc hw
    have hrest := fun acc => ih acc (fun u hu => hw u (List.mem_cons_of_mem _ hu))
    obtain ⟨-, -, hreg, hc⟩ := (wellFormed_iff t).1 (hw t (by simp))
    simp only [naiveLoop]
    by_cases hf : filter.accepts t.tag = true
    · rw [if_neg (not_not.2 hf)]
      have hs := walk_safe (ev := ev) hc fuel t.root (root_ok hreg)
      cases hwk : walk ev t fuel t.root with
      | running => simp
      | outOfBounds => exact absurd hwk hs.1
      | leaf i =>
        obtain ⟨hp, hi⟩ := hs.2 i hwk
        simp only [List.getElem?_eq_getElem hi]
        refine ⟨(hrest _).1, fun x hx => ?_⟩
        exact .take ((accepts_iff _ _).1 hf) hp (List.getElem?_eq_getElem hi) ((hrest _).2 x hx)
    · rw [if_pos hf]
      exact ⟨(hrest _).1, fun x hx => .skip (fun h => hf ((accepts_iff _ _).2 h)) ((hrest _).2 x hx)⟩

/-- Naive evaluation of an accepted forest never reads outside of the nodes or adjustments; if it ends, its result is the
sum over the selected trees, in order, of the adjustment at the end of the path given by the conditions, times the weight. -/
theorem naive_sound {C A Q M : Type} [DecidableEq Q] (sig : C → List (Nat × Q)) (trees : List (Tree C A)) (m : Meta Q)
    (hm : fromTrees sig trees = .ok m) (zero : M) (add : M → A → A → M) (ev : C → Bool) (filter : Filter) (fuel : Nat) :
    naive zero add ev filter fuel trees ≠ .outOfBounds ∧
    ∀ x, naive zero add ev filter fuel trees = .value x → Sums add ev filter trees zero x :=
  naiveLoop_spec add ev filter fuel trees zero (((from_trees_accepts sig trees).1.1 ⟨m, hm⟩).1)

/-- The sum is determined by the trees, the conditions and the filter. -/
theorem sums_unique {C A M : Type} {add : M → A → A → M} {ev : C → Bool} {filter : Filter} {trees : List (Tree C A)}
    {acc x y : M} (h1 : Sums add ev filter trees acc x) (h2 : Sums add ev filter trees acc y) : x = y := by
  induction h1 with
  | nil acc => cases h2; rfl
  | skip hs _ ih =>
    cases h2 with
    | skip _ h => exact ih h
    | take h _ _ _ => exact absurd h hs
  | take hs hp ha _ ih =>
    cases h2 with
    | skip h _ => exact absurd hs h
    | take _ hp' ha' h =>
      rw [path_unique hp hp'] at ha
      rw [ha] at ha'
      cases ha'
      exact ih h

/-- Naive evaluation of an accepted forest without cycles ends: every loop makes at most as many steps as the tree has
split nodes.  Missing for the full property: acceptance does not exclude cycles, see `naive_cycle_counterexample`. -/
theorem naive_complete_partial {C A Q M : Type} [DecidableEq Q] (sig : C → List (Nat × Q)) (trees : List (Tree C A))
    (m : Meta Q) (hm : fromTrees sig trees = .ok m) (ha : ∀ t ∈ trees, Acyclic t) (zero : M) (add : M → A → A → M)
    (ev : C → Bool) (filter : Filter) (fuel : Nat) (hf : ∀ t ∈ trees, t.splits.length ≤ fuel) :
    ∃ x, naive zero add ev filter fuel trees = .value x ∧ Sums add ev filter trees zero x := by
  have hw := ((from_trees_accepts sig trees).1.1 ⟨m, hm⟩).1
  have hterm : ∀ (l : List (Tree C A)) (acc : M), (∀ t ∈ l, t ∈ trees) →
      ∃ x, naiveLoop add ev filter fuel l acc = .value x := by
    intro l
    induction l with
    | nil => intro acc _; exact ⟨acc, rfl⟩
    | cons t rest ih =>
      intro acc hl
      have hr := fun acc => ih acc (fun u hu => hl u (List.mem_cons_of_mem _ hu))
      simp only [naiveLoop]
      split
      · exact hr acc
      · have htm := hl t (by simp)
        obtain ⟨i, h1, -, h3⟩ := walk_terminates (ev := ev) (hw t htm) (ha t htm) (hf t htm)
        simp only [h1, List.getElem?_eq_getElem h3]
        exact hr _
  obtain ⟨x, hx⟩ := hterm trees zero (fun t ht => ht)
  exact ⟨x, hx, (naive_sound sig trees m hm zero add ev filter fuel).2 x hx⟩

/-- A tree whose only split node is its own child. -/
def cyclicTree : Tree Unit Int := ⟨[⟨.leaf 0, .split 0, ()⟩], [1, 2], 1, ⟨0, 0⟩⟩

/-- `FromTrees` accepts a tree with a cycle; naive evaluation of it on an input for which the condition holds never
ends. -/
theorem naive_cycle_counterexample :
    (∃ m : Meta Nat, fromTrees (fun _ => [(0, 7)]) [cyclicTree] = .ok m) ∧
    ∀ fuel, naive (0 : Int) (fun acc a w => acc + a * w) (fun _ => true) {} fuel [cyclicTree] = .running := by
  refine ⟨⟨⟨1, 1, [(0, 7)]⟩, by decide +kernel⟩, fun fuel => ?_⟩
  have hrun : ∀ fuel, walk (fun _ => true) cyclicTree fuel (.split 0) = .running := by
    intro fuel
    induction fuel with
    | zero => rfl
    | succ n ih => simpa [walk, cyclicTree] using ih
  have hroot : cyclicTree.root = .split 0 := rfl
  have hacc : ({} : Filter).accepts cyclicTree.tag = true := by decide +kernel
  simp only [naive, naiveLoop, hroot, hrun, hacc, not_true, if_false]

/-- A tree with two splits: `x0 ? 30 : (x1 ? 20 : 10)`; conditions are input numbers. -/
def sampleTree : Tree Nat Int :=
  ⟨[⟨.split 1, .leaf 2, 0⟩, ⟨.leaf 0, .leaf 1, 1⟩], [10, 20, 30], 2, ⟨3, 1⟩⟩

example : ∃ m : Meta Nat, fromTrees (fun c => [(c, 7)]) [sampleTree] = .ok m ∧ m.submodelCount = 2 ∧ m.stepCount = 4 :=
  ⟨⟨2, 4, [(0, 7), (1, 7)]⟩, by decide +kernel, rfl, rfl⟩

theorem sampleTree_acyclic : Acyclic sampleTree := by
  have hchild : ∀ k j, Child sampleTree k j → k = 0 ∧ j = 1 := by
    rintro k j ⟨n, hn, h⟩
    match k with
    | 0 => simp only [sampleTree, List.getElem?_cons_zero, Option.some.injEq] at hn; subst hn; simp at h; omega
    | 1 => simp only [sampleTree, List.getElem?_cons_succ, List.getElem?_cons_zero, Option.some.injEq] at hn; subst hn; simp at h
    | k + 2 => simp [sampleTree] at hn
  have hb : ∀ k j, Below sampleTree k j → k = 0 ∧ j = 1 := by
    intro k j h
    induction h with
    | child h => exact hchild _ _ h
    | step _ h ih => have := hchild _ _ h; omega
  refine ⟨fun h => ?_, fun k h1 h2 => ?_⟩
  · have := hb _ _ h; omega
  · have := hb _ _ h1; have := hb _ _ h2; omega

example : naive (0 : Int) (fun acc a w => acc + a * w) (fun c => c == 1) {} 2 [sampleTree] = .value 40 := by decide +kernel

end Verif.Forest
