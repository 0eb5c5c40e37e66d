import Verif.ArrEdge.ArrEdgeLemmas

/-!
# C113: array edges
-/

namespace Verif.ArrEdge
open Verif.Bits Verif.Dense Verif.Arr Verif.Codec

/-! A mapping from four children to three parents, stored as the single id 2 and the value 0 for other children, and split points. -/

/-- The environment of the examples. -/
def env : Env := ⟨fun _ => 77, fun _ => 5, fun _ _ => false⟩

/-- Nothing is known to be the same pointer. -/
theorem env_pe : PtrEq env.pe := by intro a b h; exact absurd h (by simp [env])

/-- A sparse mapping. -/
def exMap : AEdge := ⟨.mapping, 3, 4, ⟨4, ⟨.partial', [2, 3], 0⟩, ⟨[2, 2], [], 0⟩, some 0⟩⟩

theorem exMap_rows : exMap.values.elems = [some 0, some 0, some 2, some 2] := by decide +kernel

theorem exMap_wf : exMap.WF := by
  refine ⟨⟨⟨by decide, Or.inl rfl⟩, ⟨by decide, by decide, by decide, by decide⟩, rfl⟩, by decide, by decide +kernel, ?_⟩
  rw [exMap_rows]
  intro v hv
  have h3 : exMap.parentSize = 3 := rfl
  simp at hv
  omega

/-- The same relation as split points. -/
def exSplit : AEdge := ⟨.splitPoints, 3, 4, Arr.ofDense ⟨[0, 2, 2, 4], [], 0⟩⟩

theorem exSplit_rows : exSplit.values.elems = [some 0, some 2, some 2, some 4] := by decide +kernel

theorem exSplit_wf : exSplit.WF :=
  ⟨ofDense_valid ⟨by decide, Or.inl rfl⟩, ⟨[0, 2, 2, 4], exSplit_rows, rfl, by decide⟩, by decide +kernel, by decide +kernel⟩

/-- C113: converting to an edge of dense arrays and back keeps the type, the sizes and the relation. -/
theorem dense_edge_and_back (e : AEdge) (env : Env) (hpe : PtrEq env.pe) (h : e.WF) :
    ∃ d, toDenseArrayEdge env e = some d ∧ Edge.WF d ∧ d.typ = e.typ ∧ d.parentSize = e.parentSize ∧ d.childSize = e.childSize ∧
      (∀ c p, Edge.Rel d c p ↔ e.Rel c p) ∧ (fromDenseArrayEdge d).WF ∧ (fromDenseArrayEdge d).typ = e.typ ∧
      Same (fromDenseArrayEdge d) e := by
  obtain ⟨d, h1, h2, h3⟩ := toDense_spec env hpe h
  exact ⟨d, h1, h2, h3.typ, h3.ps, h3.cs, h3.rel, fromDense_wf h2, h3.typ, h3.ps, h3.cs,
    fun c p => (fromDense_rel d c p).trans (h3.rel c p)⟩

example : ∃ d, toDenseArrayEdge env exMap = some d ∧ Edge.Rel d 3 2 := by
  obtain ⟨d, h1, _, _, _, _, h2, _⟩ := dense_edge_and_back exMap env env_pe exMap_wf
  refine ⟨d, h1, (h2 3 2).2 ?_⟩
  show exMap.values.elems[3]? = some (some 2)
  rw [exMap_rows]; rfl

/-- C113: `ToMappingEdge` keeps the sizes and the relation. -/
theorem to_mapping_same (e : AEdge) (env : Env) (hpe : PtrEq env.pe) (h : e.WF) :
    ∃ r, toMappingEdge env e = some r ∧ r.typ = .mapping ∧ r.WF ∧ Same r e := toMapping_spec env hpe h

example : ∃ r, toMappingEdge env exSplit = some r ∧ Same r exSplit := by
  obtain ⟨r, h1, _, _, h2⟩ := to_mapping_same exSplit env env_pe exSplit_wf
  exact ⟨r, h1, h2⟩

/-- C113: `ToSplitPointsEdge` succeeds iff every child has a parent and parents are non-decreasing, and then keeps the sizes and
the relation. -/
theorem to_split_points_same (e : AEdge) (env : Env) (hpe : PtrEq env.pe) (h : e.WF) :
    (TotalMono e → ∃ r, toSplitPointsEdge env e = some (.ok r) ∧ r.typ = .splitPoints ∧ r.WF ∧ Same r e) ∧
    (¬ TotalMono e → ∃ m, toSplitPointsEdge env e = some (.error m)) := toSplit_spec env hpe h

example : (toSplitPointsEdge env exMap).map (fun r => r.toOption.map (fun e => e.values.elems)) =
    some (some exSplit.values.elems) := by decide +kernel

/-- C113: `ComposeEdges` composes the relations of edges that fit together, and returns an error for others. -/
theorem compose_edges_composes (e : AEdge) (es : List AEdge) (env : Env) (hpe : PtrEq env.pe) (hw : ∀ x ∈ e :: es, x.WF) :
    (Compatible (e :: es) → ∃ r, composeEdges env (e :: es) = some (.ok r) ∧ r.WF ∧
      r.parentSize = e.parentSize ∧ r.childSize = ((e :: es).getLast (by simp)).childSize ∧
      (∀ c p, r.Rel c p ↔ RelComp (e :: es) c p) ∧
      (r.typ = .splitPoints ↔ ∀ x ∈ e :: es, x.typ = .splitPoints)) ∧
    (¬ Compatible (e :: es) → ∃ m, composeEdges env (e :: es) = some (.error m)) := compose_spec env hpe e es hw

/-- An edge from five children to the four children of `exSplit`. -/
def exLow : AEdge := ⟨.mapping, 4, 5, ⟨5, ⟨.partial', [1, 4], 0⟩, ⟨[3, 0], [], 0⟩, none⟩⟩

theorem exLow_wf : exLow.WF := by
  refine ⟨⟨⟨by decide, Or.inl rfl⟩, ⟨by decide, by decide, by decide, by decide⟩, rfl⟩, by decide, by decide +kernel, ?_⟩
  have : exLow.values.elems = [none, some 3, none, none, some 0] := by decide +kernel
  rw [this]
  intro v hv
  have h3 : exLow.parentSize = 4 := rfl
  simp at hv
  omega

example : ∃ r, composeEdges env [exSplit, exLow] = some (.ok r) ∧ r.parentSize = 3 ∧ r.childSize = 5 ∧
    ∀ c p, r.Rel c p ↔ RelComp [exSplit, exLow] c p := by
  obtain ⟨r, h1, _, h2, h3, h4, _⟩ := (compose_edges_composes exSplit [exLow] env env_pe (by
    intro x hx
    simp at hx
    rcases hx with rfl | rfl
    · exact exSplit_wf
    · exact exLow_wf)).1 ⟨rfl, trivial⟩
  exact ⟨r, h1, h2, h3, h4⟩

/-- C113: no edges is an error. -/
theorem compose_no_edges (env : Env) : ∃ m, composeEdges env [] = some (.error m) := ⟨_, rfl⟩

/-- C113: `IsEquivalentTo` is true exactly if the sizes and the relations are the same. Missing: two edges of one type without
children, whose values have different values for missing ids, are not equivalent. -/
theorem is_equivalent_iff_partial (a b : AEdge) (env : Env) (pe1 pe2 : List Int → List Int → Bool) (hpe : PtrEq env.pe)
    (hp1 : PtrEq pe1) (hp2 : PtrEq pe2) (ha : a.WF) (hb : b.WF) :
    ∃ r, isEquivalentTo env pe1 pe2 a b = some r ∧ (r = true ↔ Same a b ∧
      (a.typ = b.typ → a.values.size = 0 → a.values.miss = b.values.miss)) := isEquivalentTo_spec env hpe hp1 hp2 ha hb

example : isEquivalentTo env (fun _ _ => false) (fun _ _ => false) exMap exSplit = some true ∧
    isEquivalentTo env (fun _ _ => false) (fun _ _ => false) exMap ⟨.splitPoints, 3, 4, Arr.ofDense ⟨[0, 1, 2, 4], [], 0⟩⟩ =
      some false := by decide +kernel

/-- C113: two mappings of no children to three parents, both accepted by `FromMapping`, relate the same (no) rows but are not
equivalent. -/
theorem is_equivalent_counterexample :
    ∃ a b, arrayFromMapping (Arr.ofConst 0 none) 3 = some (.ok a) ∧ arrayFromMapping (Arr.ofConst 0 (some 0)) 3 = some (.ok b) ∧
      a.WF ∧ b.WF ∧ Same a b ∧ isEquivalentTo env (fun _ _ => false) (fun _ _ => false) a b = some false := by
  have hno : ∀ (m : Option Int) (c p : Nat), ¬ (⟨.mapping, 3, 0, Arr.ofConst 0 m⟩ : AEdge).Rel c p := by
    intro m c p h
    have : (Arr.ofConst 0 m : Arr Int).elems = [] := rfl
    have h' : (Arr.ofConst 0 m : Arr Int).elems[c]? = some (some (p : Int)) := h
    rw [this] at h'
    simp at h'
  have hwf : ∀ m : Option Int, (⟨.mapping, 3, 0, Arr.ofConst 0 m⟩ : AEdge).WF := by
    intro m
    refine ⟨ofConst_valid _ _, by show (0 : Int) ≤ 3; decide, rfl, ?_⟩
    intro v hv
    have : (Arr.ofConst 0 m : Arr Int).elems = [] := rfl
    rw [this] at hv
    simp at hv
  refine ⟨⟨.mapping, 3, 0, Arr.ofConst 0 none⟩, ⟨.mapping, 3, 0, Arr.ofConst 0 (some 0)⟩, rfl, rfl, hwf _, hwf _,
    ⟨rfl, rfl, fun c p => ?_⟩, by decide +kernel⟩
  exact ⟨fun h => absurd h (hno _ c p), fun h => absurd h (hno _ c p)⟩

theorem split_points_full (env : Env) (hpe : PtrEq env.pe) {a : Arr Int} (hv : a.Valid) {e : AEdge}
    (h : arrayFromSplitPoints env a = some (.ok e)) : e.values.flt.typ = .full := by
  obtain ⟨r, h1, h2, h3, h4⟩ := to_dense_form env.mem env.bmem hpe hv
  have hsz : r.size = a.size := by rw [← aelems_length, h3, aelems_length]
  unfold arrayFromSplitPoints at h
  rw [h1] at h
  simp only [Option.bind_eq_bind, Option.bind_some] at h
  by_cases h0 : r.size = 0
  · rw [if_pos h0] at h
    simp at h
  · rw [if_neg h0] at h
    have hr : e.values = r := by
      by_cases hd : r.size ≠ r.data.size
      · rw [if_pos hd] at h; simp at h
      · rw [if_neg hd] at h
        cases hb : r.data.isFull with
        | none => rw [hb] at h; simp at h
        | some b =>
          rw [hb] at h
          simp only [Option.bind_some] at h
          cases b with
          | false => simp at h
          | true =>
            simp only [Bool.not_true, Bool.false_eq_true, if_false] at h
            cases hf : r.data.values[0]? with
            | none => rw [hf] at h; simp at h
            | some x =>
              rw [hf] at h
              simp only [Option.bind_some] at h
              by_cases hx : x ≠ 0
              · rw [if_pos hx] at h; simp at h
              · rw [if_neg hx] at h
                cases hl : r.data.values.getLast? with
                | none => rw [hl] at h; simp at h
                | some y =>
                  rw [hl] at h
                  simp only [Option.bind_some] at h
                  cases hs : Edge.isSorted r.data.values with
                  | false => rw [hs] at h; simp at h
                  | true =>
                    rw [hs] at h
                    simp only [Bool.not_true, Bool.false_eq_true, if_false, Option.some.injEq, Except.ok.injEq] at h
                    rw [← h]
    rw [hr]
    exact h4 (by omega)

/-- C113: `split_size(i)` of an edge from split points, or converted from a dense edge, reads within the values and is the number of
children of parent `i`, which are consecutive. -/
theorem split_size_counts (env : Env) (hpe : PtrEq env.pe) (e : AEdge) (h : e.WF) (ht : e.typ = .splitPoints)
    (hc : (∃ a : Arr Int, a.Valid ∧ arrayFromSplitPoints env a = some (.ok e)) ∨ ∃ d, e = fromDenseArrayEdge d)
    (i : Nat) (hi : (i : Int) < e.parentSize) :
    ∃ n, splitSize e i = some n ∧ 0 ≤ n ∧ ∃ s : Int, 0 ≤ s ∧ s + n ≤ e.childSize ∧ ∀ c : Nat, e.Rel c i ↔ s ≤ c ∧ (c : Int) < s + n := by
  apply splitSize_spec h ht ?_ hi
  rcases hc with ⟨a, h1, h2⟩ | ⟨d, rfl⟩
  · exact split_points_full env hpe h1 h2
  · rfl

example : ∃ n, splitSize exSplit 2 = some n ∧ 0 ≤ n := by
  obtain ⟨n, h1, h2, _⟩ := split_size_counts env env_pe exSplit exSplit_wf rfl
    (Or.inr ⟨⟨.splitPoints, 3, 4, ⟨[0, 2, 2, 4], [], 0⟩⟩, rfl⟩) 2 (by decide)
  exact ⟨n, h1, h2⟩

/-- C113: `FromUniformGroups` gives `groupSize` consecutive children to each parent, or an error. -/
theorem from_uniform_groups_accepts (n g : Int) (hn : n < Edge.maxI64) :
    (0 ≤ n ∧ 0 ≤ g ∧ n * g ≤ Edge.maxI64 → ∃ e, fromUniformGroups n g = some (.ok e) ∧
      e.typ = .splitPoints ∧ e.parentSize = n ∧ e.childSize = n * g ∧ e.WF ∧
      ∀ c p, e.Rel c p ↔ ((p : Int) < n ∧ p * g ≤ c ∧ (c : Int) < p * g + g)) ∧
    (¬ (0 ≤ n ∧ 0 ≤ g ∧ n * g ≤ Edge.maxI64) → ∃ m, fromUniformGroups n g = some (.error m)) := by
  obtain ⟨hA, hB⟩ := Edge.from_uniform_groups_accepts n g hn
  unfold fromUniformGroups
  refine ⟨fun h => ?_, fun h => ?_⟩
  · obtain ⟨d, h1, h2, h3, h4, h5, h6⟩ := hA h
    simp only [h1, Option.bind_eq_bind, Option.bind_some]
    exact ⟨_, rfl, h2, h3, h4, fromDense_wf h5, fun c p => (fromDense_rel d c p).trans (h6 c p)⟩
  · obtain ⟨m, h1⟩ := hB h
    simp only [h1, Option.bind_eq_bind, Option.bind_some]
    exact ⟨m, rfl⟩

example : ∃ e, fromUniformGroups 3 2 = some (.ok e) ∧ e.childSize = 6 := by
  obtain ⟨e, h1, _, _, h2, _⟩ := (from_uniform_groups_accepts 3 2 (by decide)).1 (by decide)
  exact ⟨e, h1, h2⟩

end Verif.ArrEdge
