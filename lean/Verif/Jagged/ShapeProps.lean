import Verif.Jagged.ShapeLemmas
import Verif.Edge.EdgeProps
import Mathlib.Tactic.ByContra

/-!
# Properties of jagged shapes (C24, C25, C26)
-/

namespace Verif.Jagged
open Verif.Dense Verif.Edge

/-- One root row with three children. -/
def exRoot : Edge := ⟨.splitPoints, 1, 3, ⟨[0, 3], [], 0⟩⟩
theorem exRoot_wf : WF exRoot :=
  ⟨valid_nobitmap _, ⟨[0, 3], by decide +kernel, rfl, by decide⟩, by decide +kernel, by decide +kernel⟩
/-- A rank 3 shape. -/
def exShape : Shape := [exRoot, exSplit, exSplit2]
theorem exShape_ok : ShapeOk exShape := by
  refine ⟨⟨rfl, rfl, rfl, trivial⟩, ?_⟩
  intro e he
  simp only [exShape, List.mem_cons, List.not_mem_nil, or_false] at he
  rcases he with rfl | rfl | rfl
  · exact ⟨exRoot_wf, rfl⟩
  · exact ⟨exSplit_wf, rfl⟩
  · exact ⟨exSplit2_wf, rfl⟩

theorem exSorted_mono : TotalMono exSorted := by
  by_contra hc
  obtain ⟨m, hm⟩ := (toSplit_spec (fun _ => 0) exSorted_wf).2 hc
  have : ∃ r, toSplitPointsEdge (fun _ => 0) exSorted = some (.ok r) := ⟨_, rfl⟩
  obtain ⟨r, hr⟩ := this
  rw [hr] at hm
  simp at hm

/-! ## C24: construction -/

/-- C24: `FromEdges` succeeds exactly when the edges are linked starting from one row and each assigns every
row, monotonically; the shape then has split-point edges describing the same rows, in the same order. -/
theorem from_edges_correct (mem : Nat → Int) (es : List Edge) (hw : ∀ e ∈ es, WF e) :
    (Linked 1 es ∧ (∀ e ∈ es, TotalMono e) → ∃ r, fromEdges mem es = some (.ok r) ∧
      SameShape es r ∧ ShapeOk r) ∧
    (¬ (Linked 1 es ∧ (∀ e ∈ es, TotalMono e)) → ∃ m, fromEdges mem es = some (.error m)) := by
  obtain ⟨h1, h2⟩ := fromEdges_spec mem es hw
  refine ⟨fun h => ?_, h2⟩
  obtain ⟨r, r1, r2, r3, _⟩ := h1 h
  exact ⟨r, r1, r2, r3⟩

example (mem : Nat → Int) : ∃ r, fromEdges mem [exRoot, exSorted] = some (.ok r) ∧
    SameShape [exRoot, exSorted] r := by
  obtain ⟨r, h1, h2, _⟩ := (from_edges_correct mem [exRoot, exSorted] (by
    intro e he
    simp only [List.mem_cons, List.not_mem_nil, or_false] at he
    rcases he with rfl | rfl
    · exact exRoot_wf
    · exact exSorted_wf)).1 ⟨⟨rfl, rfl, trivial⟩, by
      intro e he
      simp only [List.mem_cons, List.not_mem_nil, or_false] at he
      rcases he with rfl | rfl
      · exact totalMono_split rfl exRoot_wf
      · exact exSorted_mono⟩
  exact ⟨r, h1, h2⟩

example (mem : Nat → Int) : ∃ m, fromEdges mem [exSplit] = some (.error m) := ⟨_, rfl⟩

/-- C24: adding dimensions to a shape keeps its own edges unchanged and appends the new ones. -/
theorem add_dims_correct (mem : Nat → Int) {s : Shape} (h : ShapeOk s) (es : List Edge)
    (hw : ∀ e ∈ es, WF e) :
    (Linked (size s) es ∧ (∀ e ∈ es, TotalMono e) → ∃ r, addDims mem s es = some (.ok (s ++ r)) ∧
      SameShape es r ∧ ShapeOk (s ++ r)) ∧
    (¬ (Linked (size s) es ∧ (∀ e ∈ es, TotalMono e)) → ∃ m, addDims mem s es = some (.error m)) := by
  have hw' : ∀ e ∈ s ++ es, WF e := by
    intro e he
    rcases List.mem_append.1 he with he | he
    · exact (h.2 e he).1
    · exact hw e he
  have hiff : (Linked 1 (s ++ es) ∧ ∀ e ∈ s ++ es, TotalMono e) ↔
      (Linked (size s) es ∧ ∀ e ∈ es, TotalMono e) := by
    rw [linked_append, ← size_eq]
    constructor
    · rintro ⟨⟨_, h1⟩, h2⟩
      exact ⟨h1, fun e he => h2 e (List.mem_append_right _ he)⟩
    · rintro ⟨h1, h2⟩
      refine ⟨⟨h.1, h1⟩, ?_⟩
      intro e he
      rcases List.mem_append.1 he with he | he
      · exact totalMono_split (h.2 e he).2 (h.2 e he).1
      · exact h2 e he
  obtain ⟨h1, h2⟩ := fromEdges_spec mem (s ++ es) hw'
  rw [hiff] at h1 h2
  refine ⟨fun hc => ?_, h2⟩
  obtain ⟨r, r1, r2, r3, r4⟩ := h1 hc
  obtain ⟨r', q1, q2⟩ := fromEdgesLoop_append mem s es 1 (fun e he => (h.2 e he).2) r (by
    unfold fromEdges at r1
    by_cases h0 : s ++ es = []
    · rw [if_pos h0] at r1
      rw [h0]; exact r1
    · rwa [if_neg h0] at r1)
  subst q1
  exact ⟨r', r1, q2 r2, r3⟩

example (mem : Nat → Int) : addDims mem [exRoot] [exSplit, exSplit2] = some (.ok exShape) := rfl

/-- C24: removing dimensions keeps the leading edges. -/
theorem remove_dims_correct {s : Shape} (h : ShapeOk s) {k : Nat} (hk : k ≤ s.length) :
    removeDims s k = some (s.take k) ∧ ShapeOk (s.take k) ∧ size (s.take k) = rows s k := by
  refine ⟨by unfold removeDims; rw [if_pos hk], ⟨?_, ?_⟩, ?_⟩
  · exact (shapeOk_parts h k k (Nat.le_refl _)).2.1
  · exact fun e he => h.2 e (List.mem_of_mem_take he)
  · rw [rows_eq hk]; rfl

example : removeDims exShape 2 = some [exRoot, exSplit] := rfl

/-! ## C25: flattening -/

/-- C25: flattening `[a, b)` replaces exactly these dimensions by one whose assignment of rows is the
composition of the replaced ones (the identity when `a = b`); all other dimensions are unchanged.  Sizes
are 64 bit, and a new unit dimension needs one more split point than rows. -/
theorem flatten_dims_correct (mem : Nat → Int) {s : Shape} (h : ShapeOk s) {a b : Nat} (hab : a ≤ b)
    (hb : b ≤ s.length) (hsz : ∀ e ∈ s, e.childSize ≤ maxI64) (hfit : a = b → rows s a < maxI64) :
    ∃ e, flattenDims mem s a b = some (s.take a ++ [e] ++ s.drop b) ∧
      ShapeOk (s.take a ++ [e] ++ s.drop b) ∧ e.parentSize = rows s a ∧ e.childSize = rows s b ∧
      ∀ c p, Rel e c p ↔ (RelComp ((s.drop a).take (b - a)) c p ∧ (c : Int) < rows s b) :=
  flattenDims_spec mem h hab hb hsz hfit

example (mem : Nat → Int) : ∃ e, flattenDims mem exShape 1 3 = some [exRoot, e] ∧
    e.values.values = [0, 1, 1, 6] ∧ e.parentSize = 3 := ⟨_, rfl, rfl, rfl⟩

example (mem : Nat → Int) : ∃ e, flattenDims mem exShape 1 3 = some [exRoot, e] ∧
    ∀ c p, Rel e c p ↔ (RelComp [exSplit, exSplit2] c p ∧ (c : Int) < 6) := by
  obtain ⟨e, h1, _, _, _, h2⟩ := flatten_dims_correct mem exShape_ok (a := 1) (b := 3) (by decide) (by decide)
    (by decide) (by decide)
  exact ⟨e, h1, h2⟩

/-- C25: flattening does not change the number of values. -/
theorem flatten_dims_size (mem : Nat → Int) {s r : Shape} (h : ShapeOk s) {a b : Nat} (hab : a ≤ b)
    (hb : b ≤ s.length) (hsz : ∀ e ∈ s, e.childSize ≤ maxI64) (hfit : a = b → rows s a < maxI64)
    (hr : flattenDims mem s a b = some r) : size r = size s ∧ r.length = s.length - (b - a) + 1 := by
  obtain ⟨e, e1, _, _, e2, _⟩ := flattenDims_spec mem h hab hb hsz hfit
  rw [e1] at hr
  obtain rfl := Option.some.inj hr
  constructor
  · rw [size_eq, size_eq, endSize_append, endSize_append, endSize_cons, endSize_nil, e2, rows_eq hb,
      ← endSize_append, List.take_append_drop]
  · simp
    omega

/-- C25, F10: inserting a unit dimension below `2^63 - 1` rows overflows. -/
theorem flatten_dims_unit_overflow_counterexample (mem : Nat → Int) :
    ∃ e, flatFromSize maxI64 = some [e] ∧ flattenDims mem [e] 1 1 = none := ⟨_, rfl, rfl⟩

/-! ## C26: equivalence and broadcasting -/

/-- C26: `IsEquivalentTo` decides equality of the described shapes. -/
theorem shapes_equivalent_iff (mem : Nat → Int) {same : Bool} {s t : Shape} (hs : ShapeOk s)
    (ht : ShapeOk t) (hsame : same = true → s = t) :
    ∃ r, shapesEquivalent mem same s t = some r ∧ (r = true ↔ SameShape s t) :=
  shapesEquivalent_spec mem hs ht hsame

/-- C26: the heuristic check is right when it gives an answer, and otherwise all sizes are equal. -/
theorem fast_equivalence_sound {same : Bool} {s t : Shape} (hs : ShapeOk s) (ht : ShapeOk t)
    (hsame : same = true → s = t) :
    (fastEquivalenceCheck same s t = .eq → SameShape s t) ∧
    (fastEquivalenceCheck same s t = .notEq → ¬ SameShape s t) ∧
    (fastEquivalenceCheck same s t = .sizesEq → s.length = t.length ∧ ∀ k, rows s k = rows t k) := by
  obtain ⟨h1, h2, h3⟩ := fast_spec hs ht hsame
  refine ⟨h1, fun h hc => h2 h (sameShape_sizes hc), fun h => ?_⟩
  have h4 := (h3 h).2
  refine ⟨h4.length_eq, ?_⟩
  intro k
  cases k with
  | zero => rfl
  | succ k =>
    unfold rows
    dsimp only
    congr 1
    exact sizes_get h4 k

/-- C26: `IsBroadcastableTo` decides whether the dimensions are a prefix. -/
theorem broadcastable_iff (mem : Nat → Int) {same : Bool} {s t : Shape} (hs : ShapeOk s)
    (ht : ShapeOk t) (hsame : same = true → s = t) :
    ∃ r, isBroadcastableTo mem same s t = some r ∧ (r = true ↔ PrefixOf s t) :=
  isBroadcastableTo_spec mem hs ht hsame

/-- C26: the broadcast edge assigns to each row of `t` its ancestor in the last dimension of `s`. -/
theorem broadcast_edge_correct (mem : Nat → Int) {s t : Shape} (hs : ShapeOk s) (ht : ShapeOk t)
    (hp : PrefixOf s t) (hfit : s.length = t.length → size s < maxI64) :
    ∃ e, getBroadcastEdge mem s t = some e ∧ WF e ∧ e.parentSize = size s ∧ e.childSize = size t ∧
      ∀ c p, Rel e c p ↔ (RelComp (t.drop s.length) c p ∧ (c : Int) < size t) :=
  getBroadcastEdge_spec mem hs ht hp hfit

/-- C26: broadcastability is transitive. -/
theorem broadcastable_trans {s t u : Shape} (h1 : PrefixOf s t) (h2 : PrefixOf t u) : PrefixOf s u := by
  refine ⟨Nat.le_trans h1.1 h2.1, ?_⟩
  have h3 := List.forall₂_take s.length h2.2
  rw [List.take_take, Nat.min_eq_left h1.1] at h3
  exact sameShape_trans h1.2 h3

theorem exPrefix : PrefixOf [exRoot, exSplit] exShape :=
  ⟨by decide, sameShape_refl _⟩

example (mem : Nat → Int) : ∃ e, getBroadcastEdge mem [exRoot] exShape = some e ∧
    e.values.values = [0, 1, 1, 6] := ⟨_, rfl, rfl⟩

example (mem : Nat → Int) : isBroadcastableTo mem false [exRoot, exSplit] exShape = some true := by
  obtain ⟨r, h1, h2⟩ := broadcastable_iff (same := false) mem (s := [exRoot, exSplit]) (t := exShape)
    (remove_dims_correct exShape_ok (k := 2) (by decide)).2.1 exShape_ok (by simp)
  rw [h1, h2.2 exPrefix]

example (mem : Nat → Int) : shapesEquivalent mem false exShape exShape = some true := by
  obtain ⟨r, h1, h2⟩ := shapes_equivalent_iff (same := false) mem exShape_ok exShape_ok (by simp)
  rw [h1, h2.2 (sameShape_refl _)]

end Verif.Jagged
