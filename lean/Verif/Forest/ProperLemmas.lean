import Verif.Forest.ForestLemmas

/-!
# Proper trees denote finite binary trees
-/

namespace Verif.Forest

variable {C A : Type}

theorem denotes_unique {t : Tree C A} {r : Ref} {b b' : BT C A} (h : Denotes t r b) (h' : Denotes t r b') : b = b' := by
  induction h generalizing b' with
  | leaf h => cases h' with | leaf h' => rw [h] at h'; cases h'; rfl
  | node hn _ _ ih1 ih2 =>
    cases h' with
    | node hn' h1 h2 => rw [hn] at hn'; cases hn'; rw [ih1 h1, ih2 h2]

theorem eval_of_denotes {ev : C → Bool} {t : Tree C A} {r : Ref} {b : BT C A} (h : Denotes t r b) :
    ∃ i, Path ev t r i ∧ t.adjustments[i]? = some (b.eval ev) := by
  induction h with
  | leaf h => exact ⟨_, .leaf _, h⟩
  | @node k n f g hn _ _ ih1 ih2 =>
    obtain ⟨i, h1, h2⟩ := ih1
    obtain ⟨j, g1, g2⟩ := ih2
    by_cases he : ev n.cond = true
    · exact ⟨j, .yes hn he g1, by simpa [BT.eval, he] using g2⟩
    · exact ⟨i, .no hn (by simpa using he) h1, by simpa [BT.eval, he] using h2⟩

/-- The unfolding of a tree to a limited depth. -/
def unfoldTree (t : Tree C A) : Nat → Ref → Option (BT C A)
  | _, .leaf i => (t.adjustments[i]?).map .leaf
  | 0, .split _ => none
  | fuel + 1, .split k =>
    match t.splits[k]? with
    | none => none
    | some n =>
      match unfoldTree t fuel n.ifFalse, unfoldTree t fuel n.ifTrue with
      | some f, some g => some (.node n.cond f g)
      | _, _ => none

theorem unfoldTree_denotes (t : Tree C A) : ∀ (fuel : Nat) (r : Ref) (b : BT C A),
    unfoldTree t fuel r = some b → Denotes t r b := by
  intro fuel
  induction fuel with
  | zero =>
    intro r b h
    cases r with
    | leaf i =>
      simp only [unfoldTree, Option.map_eq_some_iff] at h
      obtain ⟨a, ha, rfl⟩ := h
      exact .leaf ha
    | split k => simp [unfoldTree] at h
  | succ fuel ih =>
    intro r b h
    cases r with
    | leaf i =>
      simp only [unfoldTree, Option.map_eq_some_iff] at h
      obtain ⟨a, ha, rfl⟩ := h
      exact .leaf ha
    | split k =>
      simp only [unfoldTree] at h
      split at h
      · simp at h
      · rename_i n hn
        split at h
        · rename_i f g hf hg
          cases h
          exact .node hn (ih _ _ hf) (ih _ _ hg)
        · simp at h

theorem unfoldTree_none {t : Tree C A} (hc : Closed t) : ∀ (fuel : Nat) (r : Ref), childOk t r = true →
    unfoldTree t fuel r = none →
      ∃ (k : Nat) (l : List Nat), r = .split k ∧ l.length = fuel + 1 ∧ l.head? = some k ∧ l.IsChain (Child t) := by
  intro fuel
  induction fuel with
  | zero =>
    intro r hr h
    cases r with
    | leaf i => simp only [childOk, decide_eq_true_eq] at hr; simp [unfoldTree, hr] at h
    | split k => exact ⟨k, [k], rfl, rfl, rfl, by simp⟩
  | succ fuel ih =>
    intro r hr h
    cases r with
    | leaf i => simp only [childOk, decide_eq_true_eq] at hr; simp [unfoldTree, hr] at h
    | split k =>
      have hk : k < t.splits.length := by simpa [childOk] using hr
      have hn : t.splits[k]? = some t.splits[k] := List.getElem?_eq_getElem hk
      have hcn := hc _ (List.getElem_mem hk)
      have key : ∀ r', (t.splits[k].ifFalse = r' ∨ t.splits[k].ifTrue = r') → childOk t r' = true →
          unfoldTree t fuel r' = none →
          ∃ (k' : Nat) (l : List Nat), Ref.split k = .split k' ∧ l.length = fuel + 1 + 1 ∧ l.head? = some k' ∧
            l.IsChain (Child t) := by
        intro r' hmem hok hnone
        obtain ⟨j, l, rfl, h1, h2, h3⟩ := ih r' hok hnone
        cases l with
        | nil => simp at h2
        | cons b l =>
          simp only [List.head?_cons, Option.some.injEq] at h2
          subst h2
          exact ⟨k, k :: b :: l, rfl, by simp at h1 ⊢; omega, rfl, List.isChain_cons_cons.2 ⟨⟨_, hn, hmem⟩, h3⟩⟩
      simp only [unfoldTree, hn] at h
      cases hf : unfoldTree t fuel t.splits[k].ifFalse with
      | none => exact key _ (.inl rfl) hcn.1 hf
      | some f =>
        cases hg : unfoldTree t fuel t.splits[k].ifTrue with
        | none => exact key _ (.inr rfl) hcn.2 hg
        | some g => simp [hf, hg] at h

/-- A well-formed tree without cycles denotes a finite binary tree. -/
theorem denotes_of_acyclic {t : Tree C A} (hw : WellFormed t) (ha : Acyclic t) : ∃ b, Denotes t t.root b := by
  obtain ⟨-, -, hreg, hc⟩ := (wellFormed_iff t).1 hw
  cases h : unfoldTree t t.splits.length t.root with
  | some b => exact ⟨b, unfoldTree_denotes t _ _ _ h⟩
  | none =>
    exfalso
    obtain ⟨k, l, h0, h1, h2, h3⟩ := unfoldTree_none hc _ _ (root_ok hreg) h
    have hk : k = 0 ∧ 0 < t.splits.length := by
      unfold Tree.root at h0
      split at h0
      · cases h0
      · rename_i he
        cases h0
        cases hs : t.splits with
        | nil => simp [hs] at he
        | cons a l => simp
    obtain ⟨rfl, hpos⟩ := hk
    have := chain_length hc ha h3 (by
      intro k hk
      rw [h2] at hk
      cases hk
      exact ⟨hpos, .inl rfl⟩)
    omega

/-! ### Unique parents -/

theorem mem_childRefs {t : Tree C A} {r : Ref} :
    r ∈ t.childRefs ↔ ∃ (k : Nat) (n : SplitNode C), t.splits[k]? = some n ∧ (n.ifFalse = r ∨ n.ifTrue = r) := by
  simp only [Tree.childRefs, List.mem_flatMap, List.mem_cons, List.not_mem_nil, or_false]
  constructor
  · rintro ⟨n, hn, h⟩
    obtain ⟨k, hk, hkn⟩ := List.mem_iff_getElem.1 hn
    refine ⟨k, n, by rw [List.getElem?_eq_getElem hk, hkn], ?_⟩
    rcases h with h | h
    · exact .inr h.symm
    · exact .inl h.symm
  · rintro ⟨k, n, hn, h⟩
    refine ⟨n, List.mem_of_getElem? hn, ?_⟩
    rcases h with h | h
    · exact .inr h.symm
    · exact .inl h.symm

/-- In a list of nodes without repeated children, a child determines its parent, and the two children differ. -/
theorem parent_unique_aux : ∀ (l : List (SplitNode C)), (l.flatMap fun n => [n.ifTrue, n.ifFalse]).Nodup →
    (∀ n ∈ l, n.ifFalse ≠ n.ifTrue) ∧
    ∀ (i j : Nat) (n m : SplitNode C) (r : Ref), l[i]? = some n → l[j]? = some m →
      (n.ifFalse = r ∨ n.ifTrue = r) → (m.ifFalse = r ∨ m.ifTrue = r) → i = j := by
  intro l
  induction l with
  | nil => intro _; simp
  | cons a l ih =>
    intro h
    simp only [List.flatMap_cons, List.cons_append, List.nil_append, List.nodup_cons] at h
    obtain ⟨h1, h2, h3⟩ := h
    obtain ⟨i1, i2⟩ := ih h3
    have hmem : ∀ (j : Nat) (m : SplitNode C) (r : Ref), l[j]? = some m → (m.ifFalse = r ∨ m.ifTrue = r) →
        r ∈ l.flatMap fun n => [n.ifTrue, n.ifFalse] := by
      intro j m r hm hr
      refine List.mem_flatMap.2 ⟨m, List.mem_of_getElem? hm, ?_⟩
      rcases hr with hr | hr <;> simp [hr]
    have hne : ∀ (j : Nat) (m : SplitNode C) (r : Ref), l[j]? = some m → (m.ifFalse = r ∨ m.ifTrue = r) →
        (a.ifFalse = r ∨ a.ifTrue = r) → False := by
      intro j m r hm hr ha
      have := hmem j m r hm hr
      rcases ha with rfl | rfl
      · exact h2 this
      · exact h1 (List.mem_cons_of_mem _ this)
    refine ⟨?_, ?_⟩
    · intro n hn
      rcases List.mem_cons.1 hn with rfl | hn
      · intro he
        exact h1 (by simp [he])
      · exact i1 n hn
    · intro i j n m r hn hm hr hr'
      cases i with
      | zero =>
        cases j with
        | zero => rfl
        | succ j =>
          simp only [List.getElem?_cons_zero, Option.some.injEq] at hn
          subst hn
          exact (hne j m r (by simpa using hm) hr' hr).elim
      | succ i =>
        cases j with
        | zero =>
          simp only [List.getElem?_cons_zero, Option.some.injEq] at hm
          subst hm
          exact (hne i n r (by simpa using hn) hr hr').elim
        | succ j =>
          have := i2 i j n m r (by simpa using hn) (by simpa using hm) hr hr'
          omega

theorem parent_unique {t : Tree C A} (hp : Proper t) {i j : Nat} {n m : SplitNode C} {r : Ref}
    (hn : t.splits[i]? = some n) (hm : t.splits[j]? = some m) (h1 : n.ifFalse = r ∨ n.ifTrue = r)
    (h2 : m.ifFalse = r ∨ m.ifTrue = r) : i = j :=
  (parent_unique_aux t.splits hp.once).2 i j n m r hn hm h1 h2

theorem child_unique {t : Tree C A} (hp : Proper t) {i j k : Nat} (h1 : Child t i k) (h2 : Child t j k) : i = j := by
  obtain ⟨n, hn, h⟩ := h1
  obtain ⟨m, hm, h'⟩ := h2
  exact parent_unique hp hn hm h h'

theorem root_not_child {t : Tree C A} (hp : Proper t) {k : Nat} (h : Child t k 0) : False := by
  obtain ⟨n, hn, h⟩ := h
  refine hp.root ?_
  have hr : t.root = .split 0 := by
    unfold Tree.root
    cases hs : t.splits with
    | nil => simp [hs] at hn
    | cons a l => simp
  rw [hr]
  exact mem_childRefs.2 ⟨k, n, hn, h⟩

theorem proper_acyclic {t : Tree C A} (hp : Proper t) : Acyclic t := by
  have h00 : ∀ k, ¬ Below t k 0 := by
    intro k h
    cases h with
    | child h => exact root_not_child hp h
    | step _ h => exact root_not_child hp h
  refine ⟨h00 0, ?_⟩
  intro k h
  induction h with
  | @child k hc =>
    intro hkk
    cases hkk with
    | child h =>
      have := child_unique hp hc h
      subst this
      exact root_not_child hp hc
    | @step j _ hb h =>
      have := child_unique hp hc h
      subst this
      exact h00 _ hb
  | @step j k hb hc ih =>
    intro hkk
    cases hkk with
    | child h =>
      have := child_unique hp hc h
      subst this
      exact ih (.child h)
    | @step j' _ hb' h =>
      have := child_unique hp hc h
      subst this
      exact ih (below_trans (.child hc) hb')

theorem proper_denotes {t : Tree C A} (hp : Proper t) : ∃ b, Denotes t t.root b :=
  denotes_of_acyclic hp.toWellFormed (proper_acyclic hp)

/-! ### A proper tree has at most as many leaves as adjustments -/

/-- The number of inner nodes. -/
def BT.inner : BT C A → Nat
  | .leaf _ => 0
  | .node _ f g => f.inner + g.inner + 1

theorem leaves_length (b : BT C A) : b.leaves.length = b.inner + 1 := by
  induction b with
  | leaf a => rfl
  | node c f g ih1 ih2 => simp [BT.leaves, BT.inner, ih1, ih2]; omega

theorem conds_length (b : BT C A) : b.conds.length = b.inner := by
  induction b with
  | leaf a => rfl
  | node c f g ih1 ih2 => simp [BT.conds, BT.inner, ih1, ih2]

/-- Split node `x` is visited from `r`. -/
inductive Visits (t : Tree C A) : Ref → Nat → Prop
  | here (k : Nat) : Visits t (.split k) k
  | down {r : Ref} {j k : Nat} : Visits t r j → Child t j k → Visits t r k

/-- The visited split nodes, with their unfolding. -/
theorem denotes_visited {t : Tree C A} (hp : Proper t) {r : Ref} {b : BT C A} (h : Denotes t r b) :
    ∃ l : List Nat, l.Nodup ∧ l.length = b.inner ∧ (∀ k ∈ l, k < t.splits.length) ∧ (∀ k ∈ l, Visits t r k) := by
  -- split nodes below a node unfold to smaller trees
  have hsize : ∀ {r : Ref} {b : BT C A}, Denotes t r b → ∀ k, Visits t r k →
      ∃ b', Denotes t (.split k) b' ∧ b'.inner ≤ b.inner := by
    intro r b hb k hv
    induction hv with
    | here k => exact ⟨b, hb, Nat.le_refl _⟩
    | down _ hch ih =>
      obtain ⟨b1, hb1, hle⟩ := ih hb
      obtain ⟨n, hn, hr⟩ := hch
      cases hb1 with
      | node hn' h1 h2 =>
        rw [hn] at hn'
        cases hn'
        rcases hr with hr | hr
        · rw [hr] at h1
          exact ⟨_, h1, by simp [BT.inner] at hle; omega⟩
        · rw [hr] at h2
          exact ⟨_, h2, by simp [BT.inner] at hle; omega⟩
  have hsub : ∀ {r : Ref} {a k : Nat}, Visits t r a → Visits t (.split a) k → Visits t r k := by
    intro r a k h1 h2
    generalize hx : Ref.split a = x at h2
    induction h2 with
    | here k => cases hx; exact h1
    | down _ hc ih => exact .down (ih hx) hc
  -- two ways to a node: one start is above the other
  have hcmp : ∀ {a c k : Nat}, Visits t (.split a) k → Visits t (.split c) k →
      Visits t (.split a) c ∨ Visits t (.split c) a := by
    intro a c k h1
    generalize hx : Ref.split a = x at h1
    induction h1 with
    | here k => cases hx; intro h2; exact .inr h2
    | @down _ j k hv hch ih =>
      intro h2
      subst hx
      cases h2 with
      | here => exact .inl (.down hv hch)
      | down hv' hch' =>
        have := child_unique hp hch hch'
        subst this
        exact ih rfl hv'
  induction h with
  | leaf h => exact ⟨[], by simp, rfl, by simp, by simp⟩
  | @node k n f g hn hf hg ih1 ih2 =>
    obtain ⟨l1, a1, a2, a3, a4⟩ := ih1
    obtain ⟨l2, b1, b2, b3, b4⟩ := ih2
    have hk : k < t.splits.length := (List.getElem?_eq_some_iff.1 hn).1
    have hself : ∀ r' b', Denotes t r' b' → b'.inner < f.inner + g.inner + 1 → ¬ Visits t r' k := by
      intro r' b' hd hlt hv
      obtain ⟨b1, hb1, hle⟩ := hsize hd k hv
      have := denotes_unique hb1 (.node hn hf hg)
      subst this
      simp [BT.inner] at hle
      omega
    have hlift : ∀ r', (n.ifFalse = r' ∨ n.ifTrue = r') → ∀ x, Visits t r' x → Visits t (.split k) x := by
      intro r' hr x hv
      cases hv with
      | here x => exact .down (.here k) ⟨n, hn, hr⟩
      | @down _ j _ hv hc =>
        cases r' with
        | leaf i =>
          exfalso
          clear hc hr
          generalize hy : Ref.leaf i = y at hv
          induction hv with
          | here => cases hy
          | down _ _ ih => exact ih hy
        | split a => exact hsub (Visits.down (.here k) ⟨n, hn, hr⟩) (.down hv hc)
    have hleafv : ∀ i x, ¬ Visits t (.leaf i) x := by
      intro i x hv
      generalize hy : Ref.leaf i = y at hv
      induction hv with
      | here => cases hy
      | down _ _ ih => exact ih hy
    refine ⟨k :: (l1 ++ l2), ?_, ?_, ?_, ?_⟩
    · refine List.nodup_cons.2 ⟨?_, List.nodup_append.2 ⟨a1, b1, ?_⟩⟩
      · intro hm
        rcases List.mem_append.1 hm with hm | hm
        · exact hself _ _ hf (by omega) (a4 k hm)
        · exact hself _ _ hg (by omega) (b4 k hm)
      · rintro x hx y hy rfl
        have hv1 := a4 x hx
        have hv2 := b4 x hy
        have hne := (parent_unique_aux t.splits hp.once).1 n (List.mem_of_getElem? hn)
        cases hr1 : n.ifFalse with
        | leaf i => rw [hr1] at hv1; exact hleafv i x hv1
        | split p =>
          cases hr2 : n.ifTrue with
          | leaf i => rw [hr2] at hv2; exact hleafv i x hv2
          | split q =>
            rw [hr1] at hv1 hf
            rw [hr2] at hv2 hg
            have hpq : p ≠ q := by rintro rfl; exact hne (by rw [hr1, hr2])
            rcases hcmp hv1 hv2 with hv | hv
            · cases hv with
              | here => exact hpq rfl
              | @down _ j _ hv hc =>
                have : j = k := child_unique hp hc ⟨n, hn, .inr hr2⟩
                subst this
                exact hself _ _ hf (by omega) hv
            · cases hv with
              | here => exact hpq rfl
              | @down _ j _ hv hc =>
                have : j = k := child_unique hp hc ⟨n, hn, .inl hr1⟩
                subst this
                exact hself _ _ hg (by omega) hv
    · simp [BT.inner, a2, b2]
    · intro x hx
      rcases List.mem_cons.1 hx with rfl | hx
      · exact hk
      · rcases List.mem_append.1 hx with hx | hx
        · exact a3 x hx
        · exact b3 x hx
    · intro x hx
      rcases List.mem_cons.1 hx with rfl | hx
      · exact .here x
      · rcases List.mem_append.1 hx with hx | hx
        · exact hlift _ (.inl rfl) x (a4 x hx)
        · exact hlift _ (.inr rfl) x (b4 x hx)

theorem proper_leaves {t : Tree C A} (hp : Proper t) {b : BT C A} (h : Denotes t t.root b) :
    b.leaves.length ≤ t.adjustments.length := by
  obtain ⟨l, h1, h2, h3, -⟩ := denotes_visited hp h
  have hsub : l ⊆ List.range t.splits.length := fun x hx => List.mem_range.2 (h3 x hx)
  have := (List.Nodup.subperm h1 hsub).length_le
  rw [List.length_range] at this
  rw [leaves_length, hp.regions]
  omega

/-- All conditions of the unfolding are conditions of split nodes. -/
theorem denotes_conds {t : Tree C A} {r : Ref} {b : BT C A} (h : Denotes t r b) :
    ∀ c ∈ b.conds, ∃ n ∈ t.splits, n.cond = c := by
  induction h with
  | leaf h => simp [BT.conds]
  | @node k n f g hn _ _ ih1 ih2 =>
    intro c hc
    simp only [BT.conds, List.mem_cons, List.mem_append] at hc
    rcases hc with rfl | hc | hc
    · exact ⟨n, List.mem_of_getElem? hn, rfl⟩
    · exact ih1 c hc
    · exact ih2 c hc

end Verif.Forest
