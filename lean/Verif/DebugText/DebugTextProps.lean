import Verif.DebugText.DebugTextLemmas

/-!
# The size of the text of an expression (C176)
-/

namespace Verif.DebugText

open Finset

/-! ## Specification -/

/-- Post order: the inputs of a node come before it. -/
def PostOrder (nodes : List Node) : Prop := ∀ (i : Nat) (x : Node), nodes[i]? = some x → ∀ j ∈ x.deps, j < i

/-- An annotation has two inputs: the expression and the name. -/
def Annotations (nodes : List Node) : Prop := ∀ x ∈ nodes, x.kind ≠ .plain → x.deps.length = 2

/-- The number of inputs of a node. -/
def arity (nodes : List Node) (j : Nat) : Nat := ((nodes[j]?).map fun x => x.deps.length).getD 0

/-- A bound that is linear in the number of nodes and in the number of pairs of an edge and an edge below it. -/
def bound (nodes : List Node) : Nat := (nodes.map fun x => 2 + (x.deps.map fun j => 1 + arity nodes j).sum).sum

/-! ## The loops -/

theorem modify_get (c : List Nat) (j i : Nat) (hi : i < c.length) :
    ((c.modify j (· + 1))[i]?).getD 0 = (c[i]?).getD 0 + if j = i then 1 else 0 := by
  rw [List.getElem?_modify]
  simp only [List.getElem?_eq_getElem hi]
  split <;> simp

theorem inner_counts (ds : List Nat) : ∀ (c : List Nat) (i : Nat), i < c.length →
    (ds.foldl (fun c j => c.modify j (· + 1)) c).length = c.length ∧
    ((ds.foldl (fun c j => c.modify j (· + 1)) c)[i]?).getD 0 = (c[i]?).getD 0 + ds.count i := by
  induction ds with
  | nil => intro c i _; simp
  | cons d ds ih =>
    intro c i hi
    have h := ih (c.modify d (· + 1)) i (by simpa using hi)
    rw [List.foldl_cons]
    refine ⟨by rw [h.1]; simp, ?_⟩
    rw [h.2, modify_get c d i hi, List.count_cons]
    simp only [beq_iff_eq]
    omega

theorem outer_counts (l : List Node) : ∀ (c : List Nat) (i : Nat), i < c.length →
    ((l.foldl (fun counts node => node.deps.foldl (fun c j => c.modify j (· + 1)) counts) c)[i]?).getD 0 =
      (c[i]?).getD 0 + (l.map fun x => x.deps.count i).sum := by
  induction l with
  | nil => intro c i _; simp
  | cons x l ih =>
    intro c i hi
    have h := inner_counts x.deps c i hi
    rw [List.foldl_cons, ih _ i (by rw [h.1]; exact hi), h.2]
    simp only [List.map_cons, List.sum_cons]
    omega

theorem parentCounts_get (nodes : List Node) (i : Nat) (hi : i < nodes.length) :
    ((parentCounts nodes)[i]?).getD 0 = (nodes.map fun x => x.deps.count i).sum := by
  unfold parentCounts
  rw [outer_counts nodes _ i (by simpa using hi)]
  simp [List.getElem?_replicate, hi]

theorem foldl_max (f : Nat → Nat) (l : List Nat) : ∀ d : Nat, d ≤ l.foldl (fun d j => max d (f j)) d ∧
    ∀ j ∈ l, f j ≤ l.foldl (fun d j => max d (f j)) d := by
  induction l with
  | nil => intro d; simp
  | cons a l ih =>
    intro d
    have h := ih (max d (f a))
    rw [List.foldl_cons]
    refine ⟨by have := h.1; omega, ?_⟩
    intro j hj
    rcases List.mem_cons.1 hj with rfl | hj
    · have := h.1; omega
    · exact h.2 j hj

/-- What the selection gives for one node. -/
structure Selected (nodes : List Node) (r : List (Nat × Bool)) (i : Nat) (x : Node) : Prop where
  st : ((r[i]?).getD (0, false)).2 = true → ((r[i]?).getD (0, false)).1 = 1
  dep : ((r[i]?).getD (0, false)).2 = false → ∀ j ∈ x.deps, 1 + ((r[j]?).getD (0, false)).1 ≤ ((r[i]?).getD (0, false)).1
  pos : 1 ≤ ((r[i]?).getD (0, false)).1
  once : ((r[i]?).getD (0, false)).2 = false → 3 ≤ ((r[i]?).getD (0, false)).1 → ((parentCounts nodes)[i]?).getD 0 ≤ 1
  named : x.kind ≠ .plain → ((r[i]?).getD (0, false)).2 = true

theorem select_prefix (nodes : List Node) (hp : PostOrder nodes) : ∀ (k : Nat), k ≤ nodes.length →
    let r := (nodes.take k).foldl (selectStep (parentCounts nodes)) []
    r.length = k ∧ ∀ (i : Nat) (x : Node), i < k → nodes[i]? = some x → Selected nodes r i x := by
  intro k
  induction k with
  | zero => intro _; simp
  | succ k ih =>
    intro hk
    obtain ⟨hlen, hsel⟩ := ih (by omega)
    obtain ⟨x, hx⟩ : ∃ x, nodes[k]? = some x := ⟨nodes[k], by simp⟩
    have htake : nodes.take (k + 1) = nodes.take k ++ [x] := by
      rw [List.take_add_one, hx]; rfl
    simp only [htake, List.foldl_append, List.foldl_cons, List.foldl_nil]
    generalize hr : (nodes.take k).foldl (selectStep (parentCounts nodes)) [] = r at hlen hsel
    have hold : ∀ j, j < k → ((selectStep (parentCounts nodes) r x)[j]?) = r[j]? := by
      intro j hj
      simp only [selectStep]
      rw [List.getElem?_append_left (by omega)]
    have hdeps : ∀ j ∈ x.deps, j < k := hp k x hx
    refine ⟨by simp [selectStep, hlen], ?_⟩
    intro i y hi hy
    by_cases hik : i < k
    · have h := hsel i y hik hy
      have hyd : ∀ j ∈ y.deps, j < k := fun j hj => lt_trans (hp i y hy j hj) hik
      constructor
      · rw [hold i hik]; exact h.st
      · rw [hold i hik]; intro h1 j hj; rw [hold j (hyd j hj)]; exact h.dep h1 j hj
      · rw [hold i hik]; exact h.pos
      · rw [hold i hik]; exact h.once
      · rw [hold i hik]; exact h.named
    · have hik : i = k := by omega
      subst hik
      rw [hx] at hy; cases hy
      have hnew : (selectStep (parentCounts nodes) r x)[i]? = some
          (let depth := x.deps.foldl (fun d j => max d (1 + ((r[j]?).getD (0, false)).1)) 1
           let isStatement := x.kind ≠ .plain || (decide (((parentCounts nodes)[i]?).getD 0 > 1) && decide (depth ≥ 3))
           (if isStatement then 1 else depth, isStatement)) := by
        simp only [selectStep, hlen]
        rw [List.getElem?_append_right (by omega)]
        simp [hlen]
      have hm := foldl_max (fun j => 1 + ((r[j]?).getD (0, false)).1) x.deps 1
      generalize hd : x.deps.foldl (fun d j => max d (1 + ((r[j]?).getD (0, false)).1)) 1 = depth at hnew hm
      constructor
      · rw [hnew]; simp only [Option.getD_some]; intro h; rw [if_pos h]
      · rw [hnew]; simp only [Option.getD_some]; intro h j hj
        rw [hold j (hdeps j hj), if_neg (by rw [h]; simp)]
        exact hm.2 j hj
      · rw [hnew]; simp only [Option.getD_some]
        split
        · exact Nat.le_refl 1
        · exact hm.1
      · rw [hnew]; simp only [Option.getD_some]; intro h
        rw [if_neg (by rw [h]; simp)]
        intro h3
        simp only [Bool.or_eq_false_iff, Bool.and_eq_false_iff, decide_eq_false_iff_not] at h
        rcases h.2 with h | h
        · omega
        · exact absurd h3 h
      · rw [hnew]; simp only [Option.getD_some]; intro h; simp [h]

theorem text_prefix (nodes : List Node) (hp : PostOrder nodes) (ha : Annotations nodes) (s : List (Nat × Bool)) : ∀ (k : Nat), k ≤ nodes.length →
    let r := (nodes.take k).foldl (textStep s) ([], 0)
    r.1.length = k ∧
    (∀ (i : Nat) (x : Node), i < k → nodes[i]? = some x →
      (r.1[i]?).getD 0 = if ((s[i]?).getD (0, false)).2 then 1 else 1 + (x.deps.map fun j => (r.1[j]?).getD 0).sum) ∧
    r.2 ≤ ∑ i ∈ range k, if ((s[i]?).getD (0, false)).2 then
      1 + (1 + (((nodes[i]?).map Node.deps).getD [] |>.map fun j => (r.1[j]?).getD 0).sum) else 0 := by
  intro k
  induction k with
  | zero => intro _; simp
  | succ k ih =>
    intro hk
    obtain ⟨hlen, htok, htot⟩ := ih (by omega)
    obtain ⟨x, hx⟩ : ∃ x, nodes[k]? = some x := ⟨nodes[k], by simp⟩
    have htake : nodes.take (k + 1) = nodes.take k ++ [x] := by
      rw [List.take_add_one, hx]; rfl
    simp only [htake, List.foldl_append, List.foldl_cons, List.foldl_nil]
    generalize (nodes.take k).foldl (textStep s) ([], 0) = r at hlen htok htot
    have hdeps : ∀ j ∈ x.deps, j < k := hp k x hx
    obtain ⟨v, w, hstep, hv, hw⟩ : ∃ v w, textStep s r x = (r.1 ++ [v], r.2 + w) ∧
        v = (if ((s[k]?).getD (0, false)).2 then 1 else 1 + (x.deps.map fun j => (r.1[j]?).getD 0).sum) ∧
        w ≤ (if ((s[k]?).getD (0, false)).2 then 1 + (1 + (x.deps.map fun j => (r.1[j]?).getD 0).sum) else 0) := by
      unfold textStep
      simp only [hlen]
      cases hs : ((s[k]?).getD (0, false)).2 with
      | false => exact ⟨1 + (x.deps.map fun j => (r.1[j]?).getD 0).sum, 0, by simp, by simp, by simp⟩
      | true =>
        refine ⟨1, if x.kind = .safeName then 1 + (r.1[x.deps.headD 0]?).getD 0 else 1 + (1 + (x.deps.map fun j => (r.1[j]?).getD 0).sum),
          by simp, by simp, ?_⟩
        simp only [if_true]
        split
        · rename_i hk'
          have h2 := ha x (List.mem_of_getElem? hx) (by rw [hk']; simp)
          cases hd : x.deps with
          | nil => simp [hd] at h2
          | cons d ds => simp; omega
        · exact Nat.le_refl _
    rw [hstep]
    have hold : ∀ j, j < k → ((r.1 ++ [v])[j]?) = r.1[j]? := fun j hj => List.getElem?_append_left (by omega)
    have hsum : ∀ l : List Nat, (∀ j ∈ l, j < k) → (l.map fun j => ((r.1 ++ [v])[j]?).getD 0).sum = (l.map fun j => (r.1[j]?).getD 0).sum := by
      intro l hl
      congr 1
      exact List.map_congr_left fun j hj => by rw [hold j (hl j hj)]
    refine ⟨by simp [hlen], ?_, ?_⟩
    · intro i y hi hy
      by_cases hik : i < k
      · rw [hold i hik, hsum _ (fun j hj => lt_trans (hp i y hy j hj) hik)]
        exact htok i y hik hy
      · have hik : i = k := by omega
        subst hik
        rw [hx] at hy; cases hy
        rw [hsum _ hdeps, List.getElem?_append_right (by omega)]
        simp [hlen, hv]
    · rw [Finset.sum_range_succ]
      refine Nat.add_le_add ?_ ?_
      · refine le_trans htot (le_of_eq (Finset.sum_congr rfl fun i hi => ?_))
        have hi' : i < k := by simpa using hi
        obtain ⟨y, hy⟩ : ∃ y, nodes[i]? = some y := ⟨nodes[i]'(by omega), by simp⟩
        simp only [hy, Option.map_some, Option.getD_some]
        rw [hsum _ (fun j hj => lt_trans (hp i y hy j hj) hi')]
      · simp only [hx, Option.map_some, Option.getD_some]
        rw [hsum _ hdeps]
        exact hw

theorem sum_list (f : Node → Nat) (g : Nat → Nat) : ∀ (l : List Node), (∀ (i : Nat) (x : Node), l[i]? = some x → g i = f x) →
    (l.map f).sum = ∑ i ∈ range l.length, g i := by
  intro l
  induction l generalizing g with
  | nil => simp
  | cons a l ih =>
    intro h
    rw [List.length_cons, Finset.sum_range_succ', List.map_cons, List.sum_cons, ih (fun i => g (i + 1)) (fun i x hx => h (i + 1) x (by simpa using hx)),
      h 0 a rfl]
    omega

/-! ## Theorems -/

/-- **C176.**  However often subexpressions are shared, the text of an expression, in operators, leaves and names of statements, is not larger than
`bound`: it does not have the size of the tree. -/
theorem text_bounded (nodes : List Node) (hp : PostOrder nodes) (ha : Annotations nodes) : textSize nodes ≤ 1 + bound nodes := by
  cases hn : nodes.length with
  | zero =>
    rw [List.length_eq_zero_iff] at hn
    subst hn
    simp [textSize]
  | succ n =>
    obtain ⟨_, hsel⟩ := select_prefix nodes hp nodes.length (Nat.le_refl _)
    obtain ⟨hlen, htok, htot⟩ := text_prefix nodes hp ha (select nodes) nodes.length (Nat.le_refl _)
    rw [List.take_length] at hsel hlen htok htot
    change ∀ (i : Nat) (x : Node), i < nodes.length → nodes[i]? = some x → Selected nodes (select nodes) i x at hsel
    have hnode : ∀ i, i < n + 1 → ∃ x, nodes[i]? = some x := fun i hi => ⟨nodes[i]'(by omega), by simp⟩
    unfold textSize
    dsimp only
    generalize nodes.foldl (textStep (select nodes)) ([], 0) = r at hlen htok htot ⊢
    let deps : Nat → List Nat := fun i => ((nodes[i]?).map Node.deps).getD []
    have hdeps : ∀ (i : Nat) (x : Node), nodes[i]? = some x → deps i = x.deps := fun i x hx => by simp [deps, hx]
    have F : Facts (n + 1) deps (fun i => (((select nodes)[i]?).getD (0, false)).2) (fun i => (((select nodes)[i]?).getD (0, false)).1)
        (fun i => (r.1[i]?).getD 0) := by
      constructor
      · intro i hi j hj
        obtain ⟨x, hx⟩ := hnode i hi
        rw [hdeps i x hx] at hj
        exact hp i x hx j hj
      · intro i hi
        obtain ⟨x, hx⟩ := hnode i hi
        rw [hdeps i x hx]
        exact htok i x (by omega) hx
      · intro i hi
        obtain ⟨x, hx⟩ := hnode i hi
        exact (hsel i x (by omega) hx).st
      · intro i hi
        obtain ⟨x, hx⟩ := hnode i hi
        rw [hdeps i x hx]
        exact (hsel i x (by omega) hx).dep
      · intro i hi
        obtain ⟨x, hx⟩ := hnode i hi
        exact (hsel i x (by omega) hx).pos
      · intro i hi h1 h2
        obtain ⟨x, hx⟩ := hnode i hi
        have := (hsel i x (by omega) hx).once h1 h2
        rw [parentCounts_get nodes i (by omega), sum_list _ (fun k => (deps k).count i) nodes (fun k y hy => by rw [hdeps k y hy]), hn] at this
        exact this
    have h := F.total
    have hlast : r.1.getLastD 0 = (r.1[n]?).getD 0 := by
      rw [List.getLastD_eq_getLast?, List.getLast?_eq_getElem?, hlen, hn]; rfl
    have hb : bound nodes = ∑ i ∈ range (n + 1), (2 + ((deps i).map fun j => 1 + (deps j).length).sum) := by
      unfold bound
      rw [sum_list _ (fun i => 2 + ((deps i).map fun j => 1 + (deps j).length).sum) nodes ?_, hn]
      intro i x hx
      rw [hdeps i x hx]
      congr 2
      refine List.map_congr_left fun j _ => ?_
      cases hj : nodes[j]? <;> simp [deps, arity, hj]
    rw [hb, hlast]
    rw [hn] at htot
    have h1 : (∑ i ∈ range (n + 1), if (((select nodes)[i]?).getD (0, false)).2 then 1 + (1 + ((deps i).map fun j => (r.1[j]?).getD 0).sum) else 0) ≤
        (n + 1) + ∑ i ∈ range (n + 1), if (((select nodes)[i]?).getD (0, false)).2 then 1 + ((deps i).map fun j => (r.1[j]?).getD 0).sum else 0 := by
      refine le_trans (b := (∑ _i ∈ range (n + 1), 1) + _) ?_ (Nat.add_le_add_right (by simp) _)
      rw [← Finset.sum_add_distrib]
      refine Finset.sum_le_sum fun i _ => ?_
      split <;> omega
    have h2 : ∑ i ∈ range (n + 1), (2 + ((deps i).map fun j => 1 + (deps j).length).sum) =
        (n + 1) + ∑ i ∈ range (n + 1), (1 + ((deps i).map fun j => 1 + (deps j).length).sum) := by
      refine Eq.trans (b := (∑ _i ∈ range (n + 1), 1) + _) ?_ (congrArg (· + _) (by simp))
      rw [← Finset.sum_add_distrib]
      refine Finset.sum_congr rfl fun i _ => ?_
      omega
    have htot' := le_trans htot h1
    rw [h2]
    omega

/-- Every name annotation is a statement; a node that is no statement and is used more than once is small: it has no inputs that are written out
and have inputs themselves. -/
theorem select_spec (nodes : List Node) (hp : PostOrder nodes) (i : Nat) (x : Node) (hx : nodes[i]? = some x) :
    (x.kind ≠ .plain → (((select nodes)[i]?).getD (0, false)).2 = true) ∧
    ((((select nodes)[i]?).getD (0, false)).2 = false → 1 < (nodes.map fun y => y.deps.count i).sum →
      ∀ (j : Nat) (y : Node), j ∈ x.deps → nodes[j]? = some y → (((select nodes)[j]?).getD (0, false)).2 = false → y.deps = []) := by
  obtain ⟨_, hsel⟩ := select_prefix nodes hp nodes.length (Nat.le_refl _)
  rw [List.take_length] at hsel
  change ∀ (i : Nat) (x : Node), i < nodes.length → nodes[i]? = some x → Selected nodes (select nodes) i x at hsel
  have hlt : ∀ (k : Nat) (z : Node), nodes[k]? = some z → k < nodes.length := fun k z hz => (List.getElem?_eq_some_iff.1 hz).1
  have hi := hlt i x hx
  have S := hsel i x hi hx
  refine ⟨S.named, ?_⟩
  intro h1 h2 j y hj hy h3
  have hd : ¬ 3 ≤ (((select nodes)[i]?).getD (0, false)).1 := by
    intro h
    have := S.once h1 h
    rw [parentCounts_get nodes i hi] at this
    omega
  have h4 := S.dep h1 j hj
  have T := hsel j y (hlt j y hy) hy
  apply List.eq_nil_iff_forall_not_mem.2
  intro k hk
  have h5 := T.dep h3 k hk
  have hkj := hp j y hy k hk
  have hkn : k < nodes.length := lt_trans hkj (hlt j y hy)
  have h6 := (hsel k nodes[k] hkn (by simp)).pos
  omega

/-! ## Examples -/

/-- `x0 = L.x; x1 = x0 + x0; x2 = x1 + x1; …`: the tree has `2 ^ n` leaves. -/
def exChain (n : Nat) : List Node := ⟨.plain, []⟩ :: (List.range n).map fun i => ⟨.plain, [i, i]⟩

theorem exChain_post (n : Nat) : PostOrder (exChain n) := by
  intro i x h j hj
  cases i with
  | zero => simp [exChain] at h; subst h; simp at hj
  | succ i =>
    simp only [exChain, List.getElem?_cons_succ, List.getElem?_map, Option.map_eq_some_iff] at h
    obtain ⟨k, hk, rfl⟩ := h
    have := List.getElem?_eq_some_iff.1 hk
    obtain ⟨h1, h2⟩ := this
    simp at h2 hj
    omega

theorem exChain_annotations (n : Nat) : Annotations (exChain n) := by
  intro x hx
  simp only [exChain, List.mem_cons, List.mem_map] at hx
  rcases hx with rfl | ⟨_, _, rfl⟩ <;> simp

/-- With twelve nodes the text has 43 parts, the tree more than four thousand. -/
example : textSize (exChain 11) = 43 := by decide
example : bound (exChain 11) = 86 := by decide

/-- A safe name, used twice, whose line is the expression. -/
def exNamed : List Node := [⟨.plain, []⟩, ⟨.plain, []⟩, ⟨.safeName, [0, 1]⟩, ⟨.plain, [2, 2]⟩]

example : textSize exNamed = 5 := by decide
example : (select exNamed).map Prod.snd = [false, false, true, false] := by decide

end Verif.DebugText
