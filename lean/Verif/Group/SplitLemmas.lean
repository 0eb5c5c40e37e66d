import Verif.Group.CanonLemmas
import Verif.Group.IterProps

/-!
# Lemmas: rows of iterations and groups of split points
-/

namespace Verif.Group
open Verif.Bits Verif.Bitmap Verif.Dense Verif.Arr Verif.Agg

variable {V P A R E S β : Type}

/-- The valid rows of a range. -/
def validRows (f : Nat → Option (List (Option V))) (lo hi : Nat) : List (Nat × List (Option V)) :=
  (List.range' lo (hi - lo)).filterMap fun i => (f i).map fun a => (i, a)

/-- The valid rows of an iteration over dense arrays. -/
def validOf (rs : List (Row V)) : List (Nat × List (Option V)) :=
  rs.filterMap fun x => if x.2.1 then some (x.1, x.2.2) else none

theorem validOf_eq {f : Nat → Option (List (Option V))} : ∀ {rs : List (Row V)} {l : List Nat},
    rs.map Row.meaning = l.map (fun i => (i, f i)) →
    validOf rs = l.filterMap fun i => (f i).map fun a => (i, a)
  | [], [], _ => rfl
  | [], _ :: _, h => by simp at h
  | _ :: _, [], h => by simp at h
  | (i, v, a) :: rs, j :: l, h => by
    simp only [List.map_cons, List.cons.injEq] at h
    obtain ⟨h1, h2⟩ := h
    have ih := validOf_eq h2
    simp only [Row.meaning, Prod.mk.injEq] at h1
    obtain ⟨rfl, h1⟩ := h1
    unfold validOf at ih ⊢
    rw [List.filterMap_cons, List.filterMap_cons, ih, ← h1]
    cases v <;> rfl

theorem denseRows_eq (op : GroupOp V P A R E S β) : ∀ (rs : List (Row V)) (st : GState S R),
    op.denseRows rs st = (validOf rs).foldl (fun st x => op.rowFn x.1 x.2 st) st := by
  intro rs
  unfold GroupOp.denseRows validOf
  induction rs with
  | nil => intro st; rfl
  | cons x rs ih =>
    intro st
    rw [List.foldl_cons, List.filterMap_cons, ih]
    cases x.2.1 <;> rfl

theorem parents_eq (d : Rows V) : d.parents = validRows d.prow 0 d.np := by
  unfold Rows.parents validRows
  rw [Nat.sub_zero, List.range_eq_range']

/-! ## Groups of split points -/

/-- The groups are consecutive ranges. -/
structure Ranges (d : Rows V) (pt : Nat → Nat) : Prop where
  zero : pt 0 = 0
  mono : ∀ i, i < d.np → pt i ≤ pt (i + 1)
  last : pt d.np = d.nc
  parent : ∀ c i, d.parentOf c = some i ↔ i < d.np ∧ pt i ≤ c ∧ c < pt (i + 1)

theorem Ranges.mono' {d : Rows V} {pt : Nat → Nat} (h : Ranges d pt) {i j : Nat} (hij : i ≤ j) (hj : j ≤ d.np) :
    pt i ≤ pt j := by
  induction j with
  | zero => rw [show i = 0 by omega]
  | succ j ih =>
    by_cases hi : i = j + 1
    · rw [hi]
    · exact Nat.le_trans (ih (by omega) (by omega)) (h.mono j (by omega))

theorem Ranges.kids {d : Rows V} {pt : Nat → Nat} (h : Ranges d pt) {i : Nat} (hi : i < d.np) :
    d.kids i = validRows d.crow (pt i) (pt (i + 1)) := by
  have h1 := h.mono i hi
  have h2 := h.mono' (show i + 1 ≤ d.np from hi) (Nat.le_refl _)
  rw [h.last] at h2
  unfold Rows.kids validRows
  have hr : List.range d.nc = List.range' 0 (pt i) ++ (List.range' (pt i) (pt (i + 1) - pt i) ++
      List.range' (pt (i + 1)) (d.nc - pt (i + 1))) := by
    rw [List.range_eq_range', show d.nc = pt i + ((pt (i + 1) - pt i) + (d.nc - pt (i + 1))) by omega]
    have := List.range'_append (s := 0) (m := pt i) (n := (pt (i + 1) - pt i) + (d.nc - pt (i + 1))) (step := 1)
    rw [← this]
    congr 1
    have := List.range'_append (s := pt i) (m := pt (i + 1) - pt i) (n := d.nc - pt (i + 1)) (step := 1)
    simp only [Nat.zero_add, Nat.one_mul] at this ⊢
    rw [← this]
    congr 2
    · omega
    · omega
  rw [hr, List.filterMap_append, List.filterMap_append]
  have e1 : (List.range' 0 (pt i)).filterMap (fun c => if d.parentOf c = some i then
      (d.crow c).map fun a => (c, a) else none) = [] := by
    rw [List.filterMap_eq_nil_iff]
    intro c hc
    rw [if_neg]
    rw [h.parent]
    have := List.mem_range'_1.1 hc
    omega
  have e2 : (List.range' (pt (i + 1)) (d.nc - pt (i + 1))).filterMap (fun c => if d.parentOf c = some i then
      (d.crow c).map fun a => (c, a) else none) = [] := by
    rw [List.filterMap_eq_nil_iff]
    intro c hc
    rw [if_neg]
    rw [h.parent]
    have := List.mem_range'_1.1 hc
    omega
  rw [e1, e2, List.nil_append, List.append_nil]
  apply List.filterMap_congr
  intro c hc
  have := List.mem_range'_1.1 hc
  rw [if_pos]
  rw [h.parent]
  omega

theorem edge_ranges {X : Type} (idOf : V → Int) {e : GEdge X} {el : Nat → Option V} {size : Nat}
    (he : EdgeOk idOf e el size) (hs : e.isSplit = true) (prow crow : Nat → Option (List (Option V))) :
    Ranges ⟨e.parentSize, e.childSize, prow, crow, edgeParent idOf e el⟩ (fun i => (pt idOf el i).toNat) ∧
      ∀ i, i ≤ e.parentSize → 0 ≤ pt idOf el i := by
  unfold EdgeOk at he
  rw [if_pos hs] at he
  obtain ⟨h1, h2, h3, h4, h5⟩ := he
  have hmono : ∀ j, j ≤ e.parentSize → ∀ i, i ≤ j → pt idOf el i ≤ pt idOf el j := by
    intro j
    induction j with
    | zero => intro _ i hi; rw [show i = 0 by omega]; exact Int.le_refl _
    | succ j ih =>
      intro hj i hi
      by_cases h : i = j + 1
      · rw [h]; exact Int.le_refl _
      · exact Int.le_trans (ih (by omega) i (by omega)) (h4 j (by omega))
  have hpos : ∀ i, i ≤ e.parentSize → 0 ≤ pt idOf el i := by
    intro i hi
    rw [← h3]
    exact hmono i hi 0 (Nat.zero_le _)
  refine ⟨⟨by simp [h3], ?_, by simp [h5], ?_⟩, hpos⟩
  · intro i hi
    have := h4 i hi
    omega
  · intro c i
    dsimp only
    unfold edgeParent
    rw [if_pos hs]
    constructor
    · intro hf
      have h6 := List.find?_some hf
      have h7 := List.mem_range.1 (List.mem_of_find?_eq_some hf)
      have h8 := of_decide_eq_true h6
      have h9 := hpos i (by omega)
      have := hpos (i + 1) (by omega)
      omega
    · rintro ⟨hi, h6, h7⟩
      have h8 := hpos i (by omega)
      have h9 := hpos (i + 1) (by omega)
      have hin : pt idOf el i ≤ (c : Int) ∧ (c : Int) < pt idOf el (i + 1) := by omega
      rw [List.find?_range_eq_some]
      refine ⟨decide_eq_true hin, List.mem_range.2 hi, ?_⟩
      intro j hj
      have h10 := hmono i (by omega) (j + 1) (by omega)
      have : ¬ (pt idOf el j ≤ (c : Int) ∧ (c : Int) < pt idOf el (j + 1)) := by omega
      simp only [this, decide_false, Bool.not_false]

/-- Reading a split point. -/
theorem split_ok (op : GroupOp V P A R E S β) {a : DArr V} {i : Nat} (h : (Dense.elem a i).isSome)
    (hp : 0 ≤ pt op.idOf (Dense.elem a) i) :
    op.split a.values i = some (pt op.idOf (Dense.elem a) i).toNat := by
  obtain ⟨v, hv⟩ := Option.isSome_iff_exists.1 h
  unfold pt at hp ⊢
  rw [hv] at hp ⊢
  simp only [Option.map_some, Option.getD_some] at hp ⊢
  have hval : a.values[i]? = some v := by
    unfold Dense.elem at hv
    split at hv
    · exact hv
    · cases hv
  unfold GroupOp.split Arr.toIdx
  rw [hval, Option.bind_some, if_neg (by omega)]

/-! ## Iteration over arrays -/

/-- Ids as in `int64_t`. -/
def castIds (l : List (Nat × X)) : List (Int × X) := l.map fun x => ((x.1 : Int), x.2)

theorem natIds_cast : ∀ (l : List (Nat × X)), natIds (castIds l) = some l
  | [] => rfl
  | x :: l => by
    have ih := natIds_cast l
    unfold natIds castIds at ih ⊢
    rw [List.map_cons, List.mapM_cons, ih]
    have : Arr.toIdx (x.1 : Int) = some x.1 := by
      unfold Arr.toIdx
      rw [if_neg (by omega)]
      simp
    simp [this]

theorem row_nil (i : Nat) : row ([] : List (AArg V)) i = some [] := rfl

theorem onlyValid_cast (args : List (AArg V)) (lo hi : Nat) :
    onlyValid (irows args lo hi) = castIds (validRows (row args) lo hi) := by
  rw [irows_cast]
  unfold onlyValid validRows castIds
  rw [List.filterMap_map, List.map_filterMap]
  apply List.filterMap_congr
  intro i _
  cases h : row args i <;> simp [h]

theorem each_expand (c : Call V) : c.each = onlyValid c.expand := by
  cases c with
  | fn id args => rfl
  | rep id n args => simp [Call.each, Call.expand, onlyValid, List.filterMap_map, Function.comp_def]
  | miss id n => simp [Call.each, Call.expand, onlyValid, List.filterMap_map, Function.comp_def]

theorem onlyValid_flatMap (cs : List (Call V)) : cs.flatMap Call.each = onlyValid (cs.flatMap Call.expand) := by
  induction cs with
  | nil => rfl
  | cons c cs ih => rw [List.flatMap_cons, List.flatMap_cons, onlyValid_append, ih, each_expand]

/-- What the iteration over arrays does. -/
structure GUtilOk (u : GUtil V) (size : Nat) (args : List (AArg V)) : Prop where
  simple : u.iterateSimple = some (castIds (validRows (row args) 0 size))
  iterate : ∀ lo hi, lo ≤ hi → hi ≤ size → ∃ cs, u.iterate lo hi = some cs ∧
    (∀ c ∈ cs, c.nonempty ∨ ((∃ a b, c = .rep a b []) ∧ args = [])) ∧
    cs.flatMap Call.each = castIds (validRows (row args) lo hi)
  estimate : (validRows (row args) 0 size).length ≤ u.estimate ∧ u.estimate ≤ size

theorem validRows_length (f : Nat → Option (List (Option V))) (n : Nat) :
    (validRows f 0 n).length = ((List.range n).filter (fun i => (f i).isSome)).length := by
  unfold validRows
  rw [Nat.sub_zero, ← List.range_eq_range']
  induction List.range n with
  | nil => rfl
  | cons x l ih =>
    rw [List.filterMap_cons, List.filter_cons]
    cases h : f x <;> simp [ih]

theorem gutil_ok (env : Env V S β) (hpe : PtrEq env.pe) {size : Nat} {args : List (AArg V)} (h : ArgsOk size args) :
    ∃ u, GUtil.make env size args = some u ∧ GUtilOk u size args := by
  cases args with
  | nil =>
    refine ⟨.noArgs size, rfl, ?_, ?_, ?_⟩
    · unfold GUtil.iterateSimple validRows castIds
      simp only [row_nil, Option.map_some, List.filterMap_eq_map', List.map_map]
      rw [List.range_eq_range', Nat.sub_zero]
      rfl
    · intro lo hi h1 h2
      refine ⟨_, rfl, ?_, ?_⟩
      · intro c hc
        unfold iterateNoArgs at hc
        rw [List.mem_singleton] at hc
        exact Or.inr ⟨⟨_, _, hc⟩, rfl⟩
      · unfold iterateNoArgs validRows castIds
        simp only [row_nil, Option.map_some, List.filterMap_eq_map', List.map_map, List.flatMap_cons, List.flatMap_nil,
          List.append_nil, Call.each]
        rw [List.range'_eq_map_range, List.map_map, show ((hi : Int) - lo).toNat = hi - lo by omega]
        apply List.map_congr_left
        intro k _
        simp
    · rw [validRows_length]
      simp [row_nil, GUtil.estimate]
  | cons a as =>
    obtain ⟨u, h1, h2⟩ := make_ok env.vmem env.bmem hpe h
    refine ⟨.args u, by show Option.map GUtil.args _ = _; rw [h1]; rfl, ?_, ?_, ?_⟩
    · have := iterateSimple_ok h2
      rw [show (0 : Int) = ((0 : Nat) : Int) from rfl, onlyValid_cast] at this
      exact this
    · intro lo hi h3 h4
      obtain ⟨cs, e1, e2, e3⟩ := iterate_ok h2 h3 h4
      exact ⟨cs, e1, fun c hc => Or.inl (e3 c hc), by rw [onlyValid_flatMap, e2, onlyValid_cast]⟩
    · rw [validRows_length]
      exact estimate_ok h2

end Verif.Group
