import Verif.Jagged.ConcatSpec

/-! Interleaving of groups of list elements: helper lemmas about lists and trees. -/

namespace Verif.Jagged

variable {β γ : Type}

def rowCat : List Nat → List (List β) → List β
  | g :: gs, x :: xs => x.take g ++ rowCat gs xs
  | _, _ => []
def rowDrop : List Nat → List (List β) → List (List β)
  | g :: gs, x :: xs => x.drop g :: rowDrop gs xs
  | _, _ => []
def rowSum : List Nat → List (List Nat) → List Nat
  | g :: gs, x :: xs => (x.take g).sum :: rowSum gs xs
  | _, _ => []

/-- Interleave groups of elements: `gs[i][j]` elements of list `j` in round `i`. -/
def inter : List (List Nat) → List (List β) → List β
  | [], _ => []
  | row :: rows, xs => rowCat row xs ++ inter rows (rowDrop row xs)

def nextGs : List (List Nat) → List (List Nat) → List (List Nat)
  | [], _ => []
  | row :: rows, xs => rowSum row xs :: nextGs rows (rowDrop row xs)

/-- The groups cover the lists exactly. -/
def Fit : List (List Nat) → List (List β) → Prop
  | [], xs => ∀ x ∈ xs, x.length = 0
  | row :: rows, xs => List.Forall₂ (fun g (x : List β) => g ≤ x.length) row xs ∧ Fit rows (rowDrop row xs)

def Aligned (Ss : List (List Nat)) (Fs : List (List β)) : Prop :=
  List.Forall₂ (fun (S : List Nat) (F : List β) => F.length = S.sum) Ss Fs

theorem sum_take_drop (S : List Nat) (g : Nat) : (S.take g).sum + (S.drop g).sum = S.sum := by
  rw [← List.sum_append, List.take_append_drop]

theorem chunk_append : ∀ (A B : List Nat) (xs ys : List β), xs.length = A.sum →
    chunk (A ++ B) (xs ++ ys) = chunk A xs ++ chunk B ys := by
  intro A
  induction A with
  | nil =>
    intro B xs ys h
    have : xs = [] := by simpa using h
    subst this
    rfl
  | cons a A ih =>
    intro B xs ys h
    rw [List.sum_cons] at h
    have h1 : (xs ++ ys).take a = xs.take a := List.take_append_of_le_length (by omega)
    have h2 : (xs ++ ys).drop a = xs.drop a ++ ys := List.drop_append_of_le_length (by omega)
    rw [List.cons_append, chunk, h1, h2, ih B _ _ (by rw [List.length_drop]; omega)]
    rfl

theorem chunk_length : ∀ (A : List Nat) (xs : List β), (chunk A xs).length = A.length := by
  intro A
  induction A with
  | nil => intro xs; rfl
  | cons a A ih => intro xs; rw [chunk, List.length_cons, ih, List.length_cons]

theorem chunk_flatten : ∀ (A : List Nat) (xs : List β), xs.length = A.sum → (chunk A xs).flatten = xs := by
  intro A
  induction A with
  | nil => intro xs h; rw [List.length_eq_zero_iff.1 (show xs.length = 0 from h)]; rfl
  | cons a A ih =>
    intro xs h
    rw [List.sum_cons] at h
    rw [chunk, List.flatten_cons, ih _ (by rw [List.length_drop]; omega), List.take_append_drop]

theorem chunk_drop : ∀ (g : Nat) (S : List Nat) (F : List β),
    (chunk S F).drop g = chunk (S.drop g) (F.drop (S.take g).sum) := by
  intro g
  induction g with
  | zero => intro S F; simp
  | succ g ih =>
    intro S F
    cases S with
    | nil => simp [chunk]
    | cons a S =>
      rw [chunk, List.drop_succ_cons, ih, List.drop_succ_cons, List.take_succ_cons, List.sum_cons,
        List.drop_drop]

theorem chunk_take : ∀ (g : Nat) (S : List Nat) (F : List β),
    (chunk S F).take g = chunk (S.take g) (F.take (S.take g).sum) := by
  intro g
  induction g with
  | zero => intro S F; simp [chunk]
  | succ g ih =>
    intro S F
    cases S with
    | nil => simp [chunk]
    | cons a S =>
      rw [chunk, List.take_succ_cons, ih, List.take_succ_cons, List.sum_cons, chunk, List.take_take,
        Nat.min_eq_left (by omega), List.drop_take]
      congr 3
      omega

theorem rowCat_sum_length : ∀ (row : List Nat) (Ss : List (List Nat)) (Fs : List (List β)), Aligned Ss Fs →
    (rowCat (rowSum row Ss) Fs).length = (rowCat row Ss).sum := by
  intro row
  induction row with
  | nil => intro Ss Fs _; rfl
  | cons g row ih =>
    intro Ss Fs h
    cases h with
    | nil => rfl
    | @cons S F Ss Fs h1 h2 =>
      have := sum_take_drop S g
      rw [rowSum, rowCat, rowCat, List.length_append, List.sum_append, ih Ss Fs h2, List.length_take]
      omega

theorem rowSum_sum : ∀ (row : List Nat) (Ss : List (List Nat)),
    (rowSum row Ss).sum = (rowCat row Ss).sum := by
  intro row
  induction row with
  | nil => intro Ss; rfl
  | cons g row ih =>
    intro Ss
    cases Ss with
    | nil => rfl
    | cons S Ss => rw [rowSum, rowCat, List.sum_cons, List.sum_append, ih]

theorem aligned_drop : ∀ (row : List Nat) (Ss : List (List Nat)) (Fs : List (List β)), Aligned Ss Fs →
    Aligned (rowDrop row Ss) (rowDrop (rowSum row Ss) Fs) := by
  intro row
  induction row with
  | nil => intro Ss Fs _; exact .nil
  | cons g row ih =>
    intro Ss Fs h
    cases h with
    | nil => exact .nil
    | @cons S F Ss Fs h1 h2 =>
      have := sum_take_drop S g
      exact .cons (by rw [List.length_drop]; omega) (ih Ss Fs h2)

theorem row_chunk : ∀ (row : List Nat) (Ss : List (List Nat)) (Fs : List (List β)), Aligned Ss Fs →
    chunk (rowCat row Ss) (rowCat (rowSum row Ss) Fs) = rowCat row (List.zipWith chunk Ss Fs) := by
  intro row
  induction row with
  | nil => intro Ss Fs _; rfl
  | cons g row ih =>
    intro Ss Fs h
    cases h with
    | nil => rfl
    | @cons S F Ss Fs h1 h2 =>
      have := sum_take_drop S g
      rw [rowSum, rowCat, rowCat, List.zipWith_cons_cons, rowCat,
        chunk_append _ _ _ _ (by rw [List.length_take]; omega), ih Ss Fs h2, chunk_take]

theorem rowDrop_chunk : ∀ (row : List Nat) (Ss : List (List Nat)) (Fs : List (List β)), Aligned Ss Fs →
    rowDrop row (List.zipWith chunk Ss Fs) =
      List.zipWith chunk (rowDrop row Ss) (rowDrop (rowSum row Ss) Fs) := by
  intro row
  induction row with
  | nil => intro Ss Fs _; rfl
  | cons g row ih =>
    intro Ss Fs h
    cases h with
    | nil => rfl
    | @cons S F Ss Fs h1 h2 =>
      rw [rowSum, rowDrop, rowDrop, List.zipWith_cons_cons, List.zipWith_cons_cons, rowDrop,
        ih Ss Fs h2, chunk_drop]

theorem inter_chunk : ∀ (gs : List (List Nat)) (Ss : List (List Nat)) (Fs : List (List β)), Aligned Ss Fs →
    chunk (inter gs Ss) (inter (nextGs gs Ss) Fs) = inter gs (List.zipWith chunk Ss Fs) := by
  intro gs
  induction gs with
  | nil => intro Ss Fs _; rfl
  | cons row gs ih =>
    intro Ss Fs h
    rw [inter, nextGs, inter, inter, chunk_append _ _ _ _ (rowCat_sum_length row Ss Fs h),
      ih _ _ (aligned_drop row Ss Fs h), row_chunk row Ss Fs h, rowDrop_chunk row Ss Fs h]

theorem rowCat_map (f : β → γ) : ∀ (row : List Nat) (Xs : List (List β)),
    rowCat row (Xs.map (List.map f)) = (rowCat row Xs).map f := by
  intro row
  induction row with
  | nil => intro Xs; rfl
  | cons g row ih =>
    intro Xs
    cases Xs with
    | nil => rfl
    | cons X Xs => simp [rowCat, ih, List.map_take]

theorem rowDrop_map (f : β → γ) : ∀ (row : List Nat) (Xs : List (List β)),
    rowDrop row (Xs.map (List.map f)) = (rowDrop row Xs).map (List.map f) := by
  intro row
  induction row with
  | nil => intro Xs; rfl
  | cons g row ih =>
    intro Xs
    cases Xs with
    | nil => rfl
    | cons X Xs => simp [rowDrop, ih, List.map_drop]

theorem inter_map (f : β → γ) : ∀ (gs : List (List Nat)) (Xs : List (List β)),
    inter gs (Xs.map (List.map f)) = (inter gs Xs).map f := by
  intro gs
  induction gs with
  | nil => intro Xs; rfl
  | cons row gs ih => intro Xs; rw [inter, inter, List.map_append, rowCat_map, rowDrop_map, ih]

/-! ## Suffix dimensions -/

def forests : List (List (List Nat)) → List (List β) → List (List (Tree β))
  | [], Xs => Xs.map (List.map .leaf)
  | S :: L, Xs => (List.zipWith chunk S (forests L Xs)).map (List.map .node)

def resLevels : List (List Nat) → List (List (List Nat)) → List (List Nat)
  | _, [] => []
  | gs, S :: L => inter gs S :: resLevels (nextGs gs S) L

def finalGs : List (List Nat) → List (List (List Nat)) → List (List Nat)
  | gs, [] => gs
  | gs, S :: L => finalGs (nextGs gs S) L

def AlignedAll : List (List (List Nat)) → List (List β) → Prop
  | [], _ => True
  | S :: L, Xs => Aligned S (forests L Xs) ∧ AlignedAll L Xs

theorem suffix_forest : ∀ (L : List (List (List Nat))) (gs : List (List Nat)) (Xs : List (List β)),
    AlignedAll L Xs →
    forest (resLevels gs L) (inter (finalGs gs L) Xs) = inter gs (forests L Xs) := by
  intro L
  induction L with
  | nil => intro gs Xs _; rw [resLevels, finalGs, forest, forests, inter_map]
  | cons S L ih =>
    intro gs Xs h
    rw [resLevels, finalGs, forest, forests, ih _ _ h.2, inter_chunk _ _ _ h.1, inter_map]

/-! ## Rows of all inputs -/

theorem rowCat_ones : ∀ (Gs : List (List β)),
    rowCat (List.replicate Gs.length 1) Gs = Gs.filterMap (·[0]?) := by
  intro Gs
  induction Gs with
  | nil => rfl
  | cons G Gs ih =>
    rw [List.length_cons, List.replicate_succ, rowCat, ih]
    cases G <;> simp

theorem rowDrop_ones : ∀ (Gs : List (List β)),
    rowDrop (List.replicate Gs.length 1) Gs = Gs.map (List.drop 1) := by
  intro Gs
  induction Gs with
  | nil => rfl
  | cons G Gs ih => rw [List.length_cons, List.replicate_succ, rowDrop, ih]; rfl

theorem zipRows_succ (f : List β → γ) {Gs : List (List β)} {n : Nat} (hne : Gs ≠ [])
    (h : ∀ G ∈ Gs, G.length = n + 1) :
    zipRows f Gs = f (Gs.filterMap (·[0]?)) :: zipRows f (Gs.map (List.drop 1)) := by
  cases Gs with
  | nil => exact absurd rfl hne
  | cons G Gs =>
    have hG := h G (by simp)
    unfold zipRows
    rw [List.headD_cons, List.map_cons, List.headD_cons, hG, List.length_drop, hG, List.range_succ_eq_map,
      List.map_cons, List.map_map, show n + 1 - 1 = n by omega]
    congr 1
    apply List.map_congr_left
    intro i _
    have h0 : ∀ l : List β, (List.drop 1 l)[i]? = l[i + 1]? := by
      intro l; rw [List.getElem?_drop, Nat.add_comm]
    have := List.filterMap_map (f := List.drop 1) (g := fun l : List β => l[i]?) (l := G :: Gs)
    rw [List.map_cons] at this
    rw [this]
    simp only [Function.comp_def, h0]

theorem zipRows_nil (f : List β → γ) {Gs : List (List β)} (h : ∀ G ∈ Gs, G.length = 0) :
    zipRows f Gs = [] := by
  unfold zipRows
  cases Gs with
  | nil => rfl
  | cons G Gs => rw [List.headD_cons, h G (by simp)]; rfl

theorem zipRows_length (f : List β → γ) {Gs : List (List β)} {n : Nat} (hne : Gs ≠ [])
    (h : ∀ G ∈ Gs, G.length = n) : (zipRows f Gs).length = n := by
  cases Gs with
  | nil => exact absurd rfl hne
  | cons G Gs => simp [zipRows, h G (by simp)]

theorem filterMap_congr_list {f g : List β → Option γ} : ∀ {l : List (List β)},
    (∀ x ∈ l, f x = g x) → l.filterMap f = l.filterMap g := by
  intro l
  induction l with
  | nil => intro _; rfl
  | cons x l ih =>
    intro h
    rw [List.filterMap_cons, List.filterMap_cons, h x (by simp), ih (fun y hy => h y (by simp [hy]))]

theorem zipRows_take (f : List β → γ) (Gs : List (List β)) (a : Nat) :
    (zipRows f Gs).take a = zipRows f (Gs.map (List.take a)) := by
  unfold zipRows
  cases Gs with
  | nil => simp
  | cons G Gs =>
    rw [List.headD_cons, List.map_cons, List.headD_cons, ← List.map_take, List.take_range,
      List.length_take]
    apply List.map_congr_left
    intro i hi
    have hi : i < min a G.length := List.mem_range.1 hi
    congr 1
    have := List.filterMap_map (f := List.take a) (g := fun l : List β => l[i]?) (l := G :: Gs)
    rw [List.map_cons] at this
    rw [this]
    apply filterMap_congr_list
    intro x _
    simp only [Function.comp_def]
    rw [List.getElem?_take_of_lt (by omega)]

theorem zipRows_drop (f : List β → γ) (Gs : List (List β)) (a : Nat) :
    (zipRows f Gs).drop a = zipRows f (Gs.map (List.drop a)) := by
  unfold zipRows
  cases Gs with
  | nil => simp
  | cons G Gs =>
    rw [List.headD_cons, List.map_cons, List.headD_cons, List.length_drop]
    apply List.ext_getElem?
    intro i
    rw [List.getElem?_drop, List.getElem?_map, List.getElem?_map]
    by_cases hi : i < G.length - a
    · rw [List.getElem?_range (by omega), List.getElem?_range hi]
      simp only [Option.map_some]
      congr 2
      have := List.filterMap_map (f := List.drop a) (g := fun l : List β => l[i]?) (l := G :: Gs)
      rw [List.map_cons] at this
      rw [this]
      apply filterMap_congr_list
      intro x _
      simp only [Function.comp_def]
      rw [List.getElem?_drop]
    · rw [List.getElem?_eq_none (by simp; omega), List.getElem?_eq_none (by simp; omega)]
      rfl

theorem drop_one_length {Gs : List (List β)} {n : Nat} (h : ∀ G ∈ Gs, G.length = n + 1) :
    ∀ G ∈ Gs.map (List.drop 1), G.length = n := by
  intro G hG
  obtain ⟨G', h1, rfl⟩ := List.mem_map.1 hG
  rw [List.length_drop, h G' h1]
  omega

def ones (n m : Nat) : List (List Nat) := List.replicate n (List.replicate m 1)

/-- Stacking: one group per row. -/
theorem stack_level : ∀ (n : Nat) (Gs : List (List (Tree β))), Gs ≠ [] → (∀ G ∈ Gs, G.length = n) →
    (chunk (List.replicate n Gs.length) (inter (ones n Gs.length) Gs)).map Tree.node =
      zipRows (stackAt 0) Gs := by
  intro n
  induction n with
  | zero => intro Gs _ h; rw [zipRows_nil _ h]; rfl
  | succ n ih =>
    intro Gs hne h
    have hl : (Gs.filterMap (·[0]?)).length = Gs.length := by
      rw [← rowCat_ones]
      clear ih hne
      induction Gs with
      | nil => rfl
      | cons G Gs ihg =>
        rw [List.length_cons, List.replicate_succ, rowCat, List.length_append,
          ihg (fun x hx => h x (by simp [hx])), List.length_take, h G (by simp)]
        omega
    rw [zipRows_succ _ hne h, ones, List.replicate_succ, List.replicate_succ, inter, rowCat_ones,
      rowDrop_ones, ← List.singleton_append, chunk_append [Gs.length] _ _ _ (by rw [hl]; simp),
      List.map_append]
    have := ih (Gs.map (List.drop 1)) (by simpa using hne) (drop_one_length h)
    rw [List.length_map, ones] at this
    rw [this, chunk, chunk, List.take_of_length_le (by omega)]
    rfl

theorem filterMap_node (Gs : List (List (List (Tree β)))) :
    (Gs.map (List.map Tree.node)).filterMap (·[0]?) = (Gs.filterMap (·[0]?)).map Tree.node := by
  induction Gs with
  | nil => rfl
  | cons G Gs ih =>
    rw [List.map_cons, List.filterMap_cons, List.filterMap_cons, ih]
    cases G <;> rfl

theorem zipWith_chunk_length {n : Nat} : ∀ (Ss : List (List Nat)) (Fs : List (List β)),
    (∀ S ∈ Ss, S.length = n) → ∀ G ∈ List.zipWith chunk Ss Fs, G.length = n := by
  intro Ss
  induction Ss with
  | nil => intro Fs _ G hG; simp at hG
  | cons S Ss ih =>
    intro Fs h G hG
    cases Fs with
    | nil => simp at hG
    | cons F Fs =>
      rw [List.zipWith_cons_cons, List.mem_cons] at hG
      rcases hG with rfl | hG
      · rw [chunk_length, h S (by simp)]
      · exact ih Fs (fun x hx => h x (by simp [hx])) G hG

theorem map_node_drop (Gs : List (List (List (Tree β)))) :
    (Gs.map (List.map Tree.node)).map (List.drop 1) = (Gs.map (List.drop 1)).map (List.map Tree.node) := by
  simp [Function.comp_def, List.map_drop]

theorem flatMap_children (l : List (List (Tree β))) : (l.map Tree.node).flatMap Tree.children = l.flatten := by
  induction l with
  | nil => rfl
  | cons x l ih => rw [List.map_cons, List.flatMap_cons, ih, List.flatten_cons]; rfl

theorem zipWith_drop_one : ∀ (Ss : List (List Nat)) (Fs : List (List β)), Aligned Ss Fs →
    (List.zipWith chunk Ss Fs).map (List.drop 1) = List.zipWith chunk (rowDrop (List.replicate Ss.length 1) Ss)
      (rowDrop (rowSum (List.replicate Ss.length 1) Ss) Fs) := by
  intro Ss Fs h
  have hl : (List.zipWith chunk Ss Fs).length = Ss.length := by
    rw [List.length_zipWith, h.length_eq, Nat.min_self]
  rw [← rowDrop_ones, hl, rowDrop_chunk _ _ _ h]

/-- Concatenation: the rows of all inputs joined. -/
theorem concat_level : ∀ (n : Nat) (Ss : List (List Nat)) (Fs : List (List (Tree β))), Ss ≠ [] →
    (∀ S ∈ Ss, S.length = n) → Aligned Ss Fs →
    (chunk ((nextGs (ones n Ss.length) Ss).map List.sum) (inter (nextGs (ones n Ss.length) Ss) Fs)).map
      Tree.node = zipRows (concatAt 0) ((List.zipWith chunk Ss Fs).map (List.map Tree.node)) := by
  intro n
  induction n with
  | zero =>
    intro Ss Fs _ h hal
    rw [zipRows_nil]
    · rfl
    · intro G hG
      obtain ⟨G', h1, rfl⟩ := List.mem_map.1 hG
      rw [List.length_map]
      exact zipWith_chunk_length Ss Fs h G' h1
  | succ n ih =>
    intro Ss Fs hne h hal
    have hzl : (List.zipWith chunk Ss Fs).length = Ss.length := by
      rw [List.length_zipWith, hal.length_eq, Nat.min_self]
    have hlen : ∀ G ∈ (List.zipWith chunk Ss Fs).map (List.map Tree.node), G.length = n + 1 := by
      intro G hG
      obtain ⟨G', h1, rfl⟩ := List.mem_map.1 hG
      rw [List.length_map]
      exact zipWith_chunk_length Ss Fs h G' h1
    have hnz : (List.zipWith chunk Ss Fs).map (List.map Tree.node) ≠ [] := by
      intro hc
      have := congrArg List.length hc
      rw [List.length_map, hzl] at this
      exact hne (List.length_eq_zero_iff.1 this)
    rw [zipRows_succ _ hnz hlen, ones, List.replicate_succ, nextGs, inter, List.map_cons,
      ← List.singleton_append,
      chunk_append [_] _ _ _ (by rw [rowCat_sum_length _ _ _ hal, ← rowSum_sum]; simp), List.map_append]
    have hlr : (rowDrop (List.replicate Ss.length 1) Ss).length = Ss.length := by
      rw [rowDrop_ones, List.length_map]
    have := ih (rowDrop (List.replicate Ss.length 1) Ss) (rowDrop (rowSum (List.replicate Ss.length 1) Ss) Fs)
      (by rw [rowDrop_ones]; simpa using hne) (by rw [rowDrop_ones]; exact drop_one_length h)
      (aligned_drop _ _ _ hal)
    rw [hlr, ones] at this
    rw [this, map_node_drop, zipWith_drop_one _ _ hal]
    rw [← List.singleton_append (x := concatAt 0 _)]
    congr 1
    rw [filterMap_node, chunk, chunk, List.map_cons, List.map_nil, concatAt, flatMap_children,
      List.take_of_length_le (by rw [rowCat_sum_length _ _ _ hal, ← rowSum_sum]; omega), ← rowCat_ones, hzl,
      ← row_chunk _ _ _ hal, chunk_flatten _ _ (rowCat_sum_length _ _ _ hal)]

/-! ## Prefix dimensions -/

theorem prefix_step (f : List (Tree β) → Tree β) : ∀ (l : List Nat) (Fs : List (List (Tree β))), Fs ≠ [] →
    (∀ F ∈ Fs, F.length = l.sum) →
    (chunk l (zipRows f Fs)).map Tree.node =
      zipRows (fun ts => Tree.node (zipRows f (ts.map Tree.children)))
        (Fs.map (fun F => (chunk l F).map Tree.node)) := by
  intro l
  induction l with
  | nil =>
    intro Fs _ _
    rw [zipRows_nil (Gs := Fs.map _)]
    · rfl
    · intro G hG
      obtain ⟨F, _, rfl⟩ := List.mem_map.1 hG
      rfl
  | cons a l ih =>
    intro Fs hne h
    have hlen : ∀ G ∈ Fs.map (fun F => (chunk (a :: l) F).map Tree.node), G.length = l.length + 1 := by
      intro G hG
      obtain ⟨F, _, rfl⟩ := List.mem_map.1 hG
      rw [List.length_map, chunk_length, List.length_cons]
    rw [zipRows_succ _ (by simpa using hne) hlen, chunk, List.map_cons, zipRows_take, zipRows_drop,
      ih (Fs.map (List.drop a)) (by simpa using hne) (by
        intro F hF
        obtain ⟨F', h1, rfl⟩ := List.mem_map.1 hF
        have := h F' h1
        rw [List.sum_cons] at this
        rw [List.length_drop]; omega)]
    congr 1
    · congr 2
      rw [List.filterMap_map]
      have : ((fun x : List (Tree β) => x[0]?) ∘ fun F => (chunk (a :: l) F).map Tree.node) =
          fun F => some (Tree.node (F.take a)) := by
        funext F; rfl
      rw [this, List.filterMap_eq_map']
      simp [Function.comp_def, Tree.children]
    · rw [List.map_map, List.map_map]
      rfl

def nestAt (f : List (Tree β) → Tree β) : Nat → List (Tree β) → Tree β
  | 0, ts => f ts
  | d + 1, ts => .node (zipRows (nestAt f d) (ts.map Tree.children))

theorem nestAt_concat : ∀ d, nestAt (concatAt (β := β) 0) d = concatAt d := by
  intro d
  induction d with
  | zero => rfl
  | succ d ih => funext ts; rw [nestAt, concatAt, ih]

theorem nestAt_stack : ∀ d, nestAt (stackAt (β := β) 0) d = stackAt d := by
  intro d
  induction d with
  | zero => rfl
  | succ d ih => funext ts; rw [nestAt, stackAt, ih]

/-- Number of rows at each level. -/
def Chn : Nat → List (List Nat) → Nat → Prop
  | n, [], N => n = N
  | n, l :: ls, N => l.length = n ∧ Chn l.sum ls N

theorem chn_append : ∀ (P R : List (List Nat)) (n N : Nat),
    Chn n (P ++ R) N ↔ ∃ k, Chn n P k ∧ Chn k R N := by
  intro P
  induction P with
  | nil => intro R n N; simp [Chn]
  | cons p P ih => intro R n N; simp only [List.cons_append, Chn, ih]; grind

theorem forest_length : ∀ (ls : List (List Nat)) (n : Nat) (xs : List β), Chn n ls xs.length →
    (forest ls xs).length = n := by
  intro ls
  cases ls with
  | nil => intro n xs h; simpa [forest, Chn] using h.symm
  | cons l ls => intro n xs h; rw [forest, List.length_map, chunk_length]; exact h.1

theorem prefix_forest (f : List (Tree β) → Tree β) (R : List (List Nat)) (Y : List β)
    (Rs : List (List (List Nat) × List β)) (hne : Rs ≠ []) :
    ∀ (P : List (List Nat)) (n k : Nat), Chn n P k → (∀ x ∈ Rs, (forest x.1 x.2).length = k) →
    forest R Y = zipRows f (Rs.map (fun x => forest x.1 x.2)) →
    forest (P ++ R) Y = zipRows (nestAt f P.length) (Rs.map (fun x => forest (P ++ x.1) x.2)) := by
  intro P
  induction P with
  | nil => intro n k _ _ h; exact h
  | cons p P ih =>
    intro n k hc hk h
    rw [List.cons_append, forest, ih p.sum k hc.2 hk h,
      prefix_step _ p (Rs.map (fun x => forest (P ++ x.1) x.2)) (by simpa using hne) ?_, List.map_map]
    · rfl
    · intro F hF
      obtain ⟨x, h1, rfl⟩ := List.mem_map.1 hF
      cases P with
      | nil =>
        have : p.sum = k := hc.2
        rw [List.nil_append, hk x h1, this]
      | cons q P =>
        rw [List.cons_append, forest, List.length_map, chunk_length]
        exact hc.2.1

/-! ## Covering -/

theorem fit_ones : ∀ (n : Nat) (Gs : List (List β)), (∀ G ∈ Gs, G.length = n) →
    Fit (ones n Gs.length) Gs := by
  intro n
  induction n with
  | zero => intro Gs h; exact h
  | succ n ih =>
    intro Gs h
    rw [ones, List.replicate_succ, Fit, rowDrop_ones]
    constructor
    · clear ih
      induction Gs with
      | nil => exact .nil
      | cons G Gs ihg =>
        exact .cons (by rw [h G (by simp)]; omega) (ihg (fun x hx => h x (by simp [hx])))
    · have := ih (Gs.map (List.drop 1)) (drop_one_length h)
      rwa [List.length_map] at this

theorem rowfit_next : ∀ (row : List Nat) (Ss : List (List Nat)) (Fs : List (List β)), Aligned Ss Fs →
    List.Forall₂ (fun g (x : List Nat) => g ≤ x.length) row Ss →
    List.Forall₂ (fun g (x : List β) => g ≤ x.length) (rowSum row Ss) Fs := by
  intro row Ss Fs hal h
  induction h generalizing Fs with
  | nil => cases hal; exact .nil
  | @cons g S row Ss _ _ ih =>
    cases hal with
    | @cons _ F _ Fs h1 h2 =>
      have := sum_take_drop S g
      exact .cons (by omega) (ih _ h2)

theorem fit_next : ∀ (gs : List (List Nat)) (Ss : List (List Nat)) (Fs : List (List β)), Aligned Ss Fs →
    Fit gs Ss → Fit (nextGs gs Ss) Fs := by
  intro gs
  induction gs with
  | nil =>
    intro Ss Fs hal h
    rw [nextGs]
    intro F hF
    unfold Fit at h
    induction hal with
    | nil => simp at hF
    | @cons S F' Ss Fs h1 _ ih =>
      rcases List.mem_cons.1 hF with rfl | hF
      · have : S = [] := List.length_eq_zero_iff.1 (h S (by simp))
        rw [h1, this]; rfl
      · exact ih hF (fun x hx => h x (by simp [hx]))
  | cons row gs ih =>
    intro Ss Fs hal h
    exact ⟨rowfit_next row Ss Fs hal h.1, ih _ _ (aligned_drop row Ss Fs hal) h.2⟩

theorem rowfit_length {row : List Nat} {Xs : List (List β)}
    (h : List.Forall₂ (fun g (x : List β) => g ≤ x.length) row Xs) :
    (rowCat row Xs).length = row.sum ∧
    (rowCat row Xs).length + ((rowDrop row Xs).map List.length).sum = (Xs.map List.length).sum := by
  induction h with
  | nil => exact ⟨rfl, rfl⟩
  | @cons g X row Xs h1 _ ih =>
    simp only [rowCat, rowDrop, List.length_append, List.length_take, List.sum_cons, List.map_cons,
      List.length_drop]
    omega

theorem inter_length : ∀ (gs : List (List Nat)) (Xs : List (List β)), Fit gs Xs →
    (inter gs Xs).length = gs.flatten.sum ∧ (inter gs Xs).length = (Xs.map List.length).sum := by
  intro gs
  induction gs with
  | nil =>
    intro Xs h
    refine ⟨rfl, ?_⟩
    have : Xs.map List.length = Xs.map (fun _ => 0) := List.map_congr_left h
    rw [this]
    simp [inter]
  | cons row gs ih =>
    intro Xs h
    obtain ⟨h1, h2⟩ := ih _ h.2
    obtain ⟨h3, h4⟩ := rowfit_length h.1
    rw [inter, List.length_append, List.flatten_cons, List.sum_append]
    omega

theorem nextGs_sum : ∀ (gs : List (List Nat)) (Ss : List (List Nat)),
    (nextGs gs Ss).flatten.sum = (inter gs Ss).sum := by
  intro gs
  induction gs with
  | nil => intro Ss; rfl
  | cons row gs ih =>
    intro Ss
    rw [nextGs, inter, List.flatten_cons, List.sum_append, List.sum_append, ih, rowSum_sum]

theorem map_sum_sum : ∀ (gs : List (List Nat)), (gs.map List.sum).sum = gs.flatten.sum := by
  intro gs
  induction gs with
  | nil => rfl
  | cons row gs ih => rw [List.map_cons, List.sum_cons, List.flatten_cons, List.sum_append, ih]

theorem nextGs_length : ∀ (gs : List (List Nat)) (Ss : List (List Nat)),
    (nextGs gs Ss).length = gs.length := by
  intro gs
  induction gs with
  | nil => intro Ss; rfl
  | cons row gs ih => intro Ss; rw [nextGs, List.length_cons, ih, List.length_cons]

/-- The sum of the result sizes is the sum of the input sizes. -/
theorem rowCat_total {row : List Nat} {Ss : List (List Nat)}
    (h : List.Forall₂ (fun g (x : List Nat) => g ≤ x.length) row Ss) :
    (rowCat row Ss).sum + ((rowDrop row Ss).map List.sum).sum = (Ss.map List.sum).sum := by
  induction h with
  | nil => rfl
  | @cons g S row Ss _ _ ih =>
    have := sum_take_drop S g
    simp only [rowCat, rowDrop, List.sum_append, List.map_cons, List.sum_cons]
    omega

theorem inter_total : ∀ (gs : List (List Nat)) (Ss : List (List Nat)), Fit gs Ss →
    (inter gs Ss).sum = (Ss.map List.sum).sum := by
  intro gs
  induction gs with
  | nil =>
    intro Ss h
    have : Ss.map List.sum = Ss.map (fun _ => 0) := List.map_congr_left (fun S hS => by
      rw [List.length_eq_zero_iff.1 (h S hS)]; rfl)
    rw [this]
    simp [inter]
  | cons row gs ih =>
    intro Ss h
    rw [inter, List.sum_append, ih _ h.2, rowCat_total h.1]

end Verif.Jagged
