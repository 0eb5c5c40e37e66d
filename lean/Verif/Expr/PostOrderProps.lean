import Verif.Expr.ScanLemmas

/-!
# C40: PostOrder
-/

namespace Verif.Expr
variable {O V A E T : Type} [DecidableEq O] [DecidableEq V] [DecidableEq A]

theorem put_mid (P X : List Nat) (x v : Nat) : put (P ++ x :: X) P.length v = some (P ++ v :: X) := by
  unfold put
  rw [if_pos (by simp)]
  simp

theorem putDeps_spec {nodes : List (Expr O V A)} (h : nodes.Nodup) : ∀ (ds : List (Expr O V A)) (P Y Z : List Nat),
    (∀ d ∈ ds, d ∈ nodes) → Y.length = ds.length →
    putDeps nodes.zipIdx ds P.length (P ++ (Y ++ Z)) =
      some (P.length + ds.length, P ++ (ds.map (fun d => nodes.idxOf d) ++ Z)) := by
  intro ds
  induction ds with
  | nil => intro P Y Z _ hY; simp at hY; subst hY; simp [putDeps]
  | cons d ds ih =>
    intro P Y Z hd hY
    cases Y with
    | nil => simp at hY
    | cons y Y =>
      have hm := hd d (by simp)
      have hl : lookup nodes.zipIdx d = some (nodes.idxOf d) := by
        rw [lookup_zipIdx h]
        refine ⟨by omega, ?_⟩
        rw [Nat.sub_zero, List.getElem?_eq_getElem (List.idxOf_lt_length_of_mem hm)]
        simp
      rw [putDeps, hl]
      dsimp only
      rw [List.cons_append, put_mid]
      dsimp only
      have := ih (P ++ [nodes.idxOf d]) Y Z (fun e he => hd e (by simp [he])) (by simpa using hY)
      simp only [List.length_append, List.length_singleton, List.append_assoc, List.singleton_append] at this
      rw [this]
      simp only [List.length_cons, List.map_cons, List.cons_append, Option.some.injEq, Prod.mk.injEq, and_true]
      omega

/-- The offsets of the adjacency lists, starting at `j`. -/
def offsets : List (Expr O V A) → Nat → List Nat
  | [], j => [j]
  | n :: ns, j => j :: offsets ns (j + n.deps.length)

theorem putNodes_spec {nodes : List (Expr O V A)} (h : nodes.Nodup) : ∀ (ns : List (Expr O V A)) (P X Q Y : List Nat),
    (∀ n ∈ ns, ∀ d ∈ n.deps, d ∈ nodes) → X.length = ns.length + 1 → Y.length = (ns.map (fun n => n.deps.length)).sum →
    putNodes nodes.zipIdx ns P.length (P.length + X.length + Q.length) (P ++ (X ++ (Q ++ Y))) =
      some (P ++ (offsets ns (P.length + X.length + Q.length) ++ (Q ++ ns.flatMap (fun n => n.deps.map (fun d => nodes.idxOf d))))) := by
  intro ns
  induction ns with
  | nil =>
    intro P X Q Y _ hX hY
    simp at hY
    match X, hX with
    | [x], _ =>
      rw [putNodes]
      simp only [List.cons_append, put_mid, offsets, hY, List.nil_append, List.flatMap_nil, List.append_nil]
  | cons n ns ih =>
    intro P X Q Y hd hX hY
    match X, hX with
    | x :: X, hX =>
      rw [putNodes, List.cons_append, put_mid]
      dsimp only
      simp only [List.map_cons, List.sum_cons] at hY
      have hsplit : Y = Y.take n.deps.length ++ Y.drop n.deps.length := (List.take_append_drop _ _).symm
      have e1 : P.length + (x :: X).length + Q.length =
          (P ++ (P.length + (x :: X).length + Q.length) :: (X ++ Q)).length := by simp; omega
      have key := putDeps_spec h n.deps (P ++ (P.length + (x :: X).length + Q.length) :: (X ++ Q)) (Y.take n.deps.length)
        (Y.drop n.deps.length) (hd n (by simp)) (by simp; omega)
      rw [← e1, ← hsplit] at key
      simp only [List.append_assoc, List.cons_append] at key
      rw [key]
      dsimp only
      have := ih (P ++ [P.length + (x :: X).length + Q.length]) X (Q ++ n.deps.map (fun d => nodes.idxOf d)) (Y.drop n.deps.length)
        (fun m hm => hd m (by simp [hm])) (by simpa using hX) (by simp; omega)
      simp only [List.length_append, List.length_singleton, List.append_assoc, List.singleton_append, List.length_map] at this
      have e2 : P.length + 1 + X.length + (Q.length + n.deps.length) = P.length + (x :: X).length + Q.length + n.deps.length := by
        simp; omega
      rw [e2] at this
      rw [this]
      simp only [offsets, List.flatMap_cons, List.cons_append, List.append_assoc]

theorem offsets_length : ∀ (ns : List (Expr O V A)) (j : Nat), (offsets ns j).length = ns.length + 1 := by
  intro ns
  induction ns with
  | nil => intro j; rfl
  | cons n ns ih => intro j; simp [offsets, ih]

theorem offsets_get : ∀ (ns : List (Expr O V A)) (j i : Nat), i ≤ ns.length →
    (offsets ns j)[i]? = some (j + ((ns.take i).map (fun n => n.deps.length)).sum) := by
  intro ns
  induction ns with
  | nil => intro j i hi; simp at hi; subst hi; simp [offsets]
  | cons n ns ih =>
    intro j i hi
    cases i with
    | zero => simp [offsets]
    | succ i =>
      rw [offsets, List.getElem?_cons_succ, ih _ _ (by simpa using hi)]
      simp
      omega

/-- The arrays built by the constructor. -/
theorem postOrder_eq (root : Expr O V A) :
    postOrder root = some ⟨visit root [], offsets (visit root []) ((visit root []).length + 1) ++
      (visit root []).flatMap (fun n => n.deps.map (fun d => (visit root []).idxOf d)), (visit root []).zipIdx⟩ := by
  have ho := (visit_ok root [] ordered_nil (by simp)).1
  unfold postOrder
  rw [scan_root]
  dsimp only
  have := putNodes_spec ho.1 (visit root []) [] (List.replicate ((visit root []).length + 1) 0) []
    (List.replicate ((visit root []).map (fun n => n.deps.length)).sum 0) ?_ (by simp) (by simp)
  · simp only [List.length_nil, List.nil_append, List.length_replicate, Nat.zero_add, Nat.add_zero, List.replicate_append_replicate] at this
    have e : (scanOf (visit root [])).nodes = visit root [] := rfl
    have e2 : (scanOf (visit root [])).idx = (visit root []).zipIdx := rfl
    have e3 : (scanOf (visit root [])).arcs = ((visit root []).map (fun n => n.deps.length)).sum := rfl
    rw [e, e2, e3, this]
  · intro n hn d hd
    exact ordered_sub ho (.dep (.refl d) hd) hn

theorem flatMap_slice {α β : Type} (f : α → List β) : ∀ (l : List α) (i : Nat) (x : α), l[i]? = some x →
    ((l.flatMap f).drop (((l.take i).map (fun y => (f y).length)).sum)).take (f x).length = f x := by
  intro l
  induction l with
  | nil => intro i x h; simp at h
  | cons y l ih =>
    intro i x h
    cases i with
    | zero => simp at h; subst h; simp
    | succ i =>
      simp only [List.getElem?_cons_succ] at h
      simp only [List.take_succ_cons, List.map_cons, List.sum_cons, List.flatMap_cons]
      rw [← List.drop_drop, List.drop_left]
      exact ih i x h

theorem flatMap_len {α β : Type} (f : α → List β) (l : List α) : (l.flatMap f).length = (l.map (fun y => (f y).length)).sum := by
  induction l with
  | nil => rfl
  | cons y l ih => simp [ih]

theorem depIndices_eq {root : Expr O V A} {po : PostOrder O V A} (h : postOrder root = some po) {i : Nat} {n : Expr O V A}
    (hi : po.nodes[i]? = some n) : po.depIndices i = some (n.deps.map (fun d => po.nodes.idxOf d)) := by
  rw [postOrder_eq] at h
  cases h
  dsimp only at hi ⊢
  unfold PostOrder.depIndices
  dsimp only
  generalize visit root [] = l at *
  have hlt := (List.getElem?_eq_some_iff.1 hi).1
  rw [List.getElem?_append_left (by rw [offsets_length]; omega), List.getElem?_append_left (by rw [offsets_length]; omega),
    offsets_get _ _ _ (by omega), offsets_get _ _ _ (by omega)]
  dsimp only
  have hsum : ((l.take (i + 1)).map (fun n => n.deps.length)).sum =
      ((l.take i).map (fun n => n.deps.length)).sum + n.deps.length := by
    rw [List.take_succ, hi]; simp
  have hle : ((l.take (i + 1)).map (fun n => n.deps.length)).sum ≤ (l.map (fun n => n.deps.length)).sum := by
    conv_rhs => rw [← List.take_append_drop (i + 1) l]
    rw [List.map_append, List.sum_append]; omega
  have hfl : (l.flatMap (fun n => n.deps.map (fun d => l.idxOf d))).length = (l.map (fun n => n.deps.length)).sum := by
    rw [flatMap_len]; simp
  rw [if_pos ⟨by omega, by rw [List.length_append, offsets_length, hfl]; omega⟩]
  have := flatMap_slice (fun n : Expr O V A => n.deps.map (fun d => l.idxOf d)) l i n hi
  simp only [List.length_map] at this
  rw [List.drop_append, List.drop_eq_nil_of_le (by rw [offsets_length]; omega), List.nil_append, offsets_length]
  rw [show l.length + 1 + ((l.take i).map (fun n => n.deps.length)).sum - (l.length + 1) =
      ((l.take i).map (fun n => n.deps.length)).sum from by omega]
  rw [show l.length + 1 + ((l.take (i + 1)).map (fun n => n.deps.length)).sum -
      (l.length + 1 + ((l.take i).map (fun n => n.deps.length)).sum) = n.deps.length from by omega]
  rw [this]

/-- `PostOrder` terminates without undefined behaviour; it lists each subexpression of the root exactly once, the
dependencies of a node before the node, the root last; `dep_indices(i)` are the positions of the dependencies of node `i`, in
order; `node_index` is the inverse of `node`. -/
theorem post_order (root : Expr O V A) : ∃ po, postOrder root = some po ∧ po.nodes.Nodup ∧
    (∀ n, n ∈ po.nodes ↔ Sub n root) ∧ po.nodes.getLast? = some root ∧
    (∀ (i : Nat) (n : Expr O V A), po.nodes[i]? = some n → ∃ ix, po.depIndices i = some ix ∧
      ix.map (fun k => po.nodes[k]?) = n.deps.map some ∧ ∀ k ∈ ix, k < i) ∧
    (∀ (n : Expr O V A) (i : Nat), po.nodeIndex n = some i ↔ po.nodes[i]? = some n) := by
  refine ⟨_, postOrder_eq root, ?_⟩
  have heq := postOrder_eq root
  have ho := (visit_ok root [] ordered_nil (by simp)).1
  have hroot : root ∈ visit root [] := by rw [visit_eq]; simp
  refine ⟨ho.1, fun n => ⟨fun hn => ?_, fun hn => ordered_sub ho hn hroot⟩, ?_, ?_, ?_⟩
  · rcases visit_mem root [] n hn with h | h
    · cases h
    · exact h
  · dsimp only
    conv_lhs => rw [visit_eq]
    simp
  · intro i n hi
    refine ⟨_, depIndices_eq heq hi, ?_, ?_⟩
    · dsimp only at hi ⊢
      rw [List.map_map]
      apply List.map_congr_left
      intro d hd
      have hm : d ∈ visit root [] := ordered_sub ho (.dep (.refl d) hd) (List.mem_of_getElem? hi)
      simp only [Function.comp]
      rw [List.getElem?_eq_getElem (List.idxOf_lt_length_of_mem hm)]
      simp
    · intro k hk
      simp only [List.mem_map] at hk
      obtain ⟨d, hd, rfl⟩ := hk
      obtain ⟨j, hj, hjd⟩ := ho.2 i n hi d hd
      have hjl := (List.getElem?_eq_some_iff.1 hjd)
      have : (visit root []).idxOf d = j := by
        rw [← hjl.2]
        exact ho.1.idxOf_getElem j hjl.1
      omega
  · intro n i
    unfold PostOrder.nodeIndex
    dsimp only
    rw [lookup_zipIdx ho.1]
    simp

end Verif.Expr
