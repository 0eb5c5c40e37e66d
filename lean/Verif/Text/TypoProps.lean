import Verif.Text.TypoModel

/-!
# IsWithinOneTypo
-/

namespace Verif.Text

/-- One edit: `t` is `s` with an element inserted, deleted or substituted, or with two adjacent elements transposed. -/
inductive Typo : List Nat → List Nat → Prop
  | insertion (x y c) : Typo (x ++ y) (x ++ c :: y)
  | deletion (x y c) : Typo (x ++ c :: y) (x ++ y)
  | substitution (x y c d) : Typo (x ++ c :: y) (x ++ d :: y)
  | transposition (x y c d) : Typo (x ++ c :: d :: y) (x ++ d :: c :: y)

theorem mismatch_split : ∀ a b : List Nat, ∃ p a' b', a = p ++ a' ∧ b = p ++ b' ∧ p.length = mismatch a b ∧
    ∀ x y, a'.head? = some x → b'.head? = some y → x ≠ y := by
  intro a
  induction a with
  | nil => intro b; exact ⟨[], [], b, rfl, rfl, by cases b <;> rfl, by intro x y h; cases h⟩
  | cons c a ih =>
    intro b
    cases b with
    | nil => exact ⟨[], c :: a, [], rfl, rfl, rfl, by intro x y _ h; cases h⟩
    | cons d b =>
      rw [mismatch]
      by_cases h : c = d
      · subst h
        obtain ⟨p, a', b', rfl, rfl, h1, h2⟩ := ih b
        rw [if_pos rfl]
        exact ⟨c :: p, a', b', rfl, rfl, by simp [h1], h2⟩
      · rw [if_neg h]
        refine ⟨[], c :: a, d :: b, rfl, rfl, rfl, ?_⟩
        intro x y hx hy
        cases hx; cases hy
        exact h

theorem mismatch_le : ∀ (x s t : List Nat), x.length ≤ mismatch (x ++ s) (x ++ t) := by
  intro x s t
  induction x with
  | nil => simp
  | cons c x ih => simp only [List.cons_append, mismatch, if_true, List.length_cons]; omega

theorem mismatch_append : ∀ (x s t : List Nat), mismatch (x ++ s) (x ++ t) = x.length + mismatch s t := by
  intro x s t
  induction x with
  | nil => simp
  | cons c x ih => simp only [List.cons_append, mismatch, if_true, List.length_cons]; omega

theorem mismatch_self (s : List Nat) : mismatch s s = s.length := by
  induction s with
  | nil => rfl
  | cons c s ih => simp [mismatch, ih]

theorem mismatch_bound : ∀ s t : List Nat, mismatch s t ≤ s.length ∧ mismatch s t ≤ t.length := by
  intro s t
  obtain ⟨p, a, b, h1, h2, h3, _⟩ := mismatch_split s t
  rw [← h3]
  have e1 := congrArg List.length h1
  have e2 := congrArg List.length h2
  simp only [List.length_append] at e1 e2
  omega

/-- A common suffix is seen from the end. -/
theorem mismatch_suffix (s t y : List Nat) : y.length ≤ mismatch (s ++ y).reverse (t ++ y).reverse := by
  rw [List.reverse_append, List.reverse_append]
  simpa using mismatch_le y.reverse s.reverse t.reverse

/-- The strings are decomposed into a common prefix, the middles, and a common suffix. -/
theorem decompose (a b : List Nat) : ∃ p u v q, a = p ++ u ++ q ∧ b = p ++ v ++ q ∧ p.length = mismatch a b ∧
    q.length = mismatch (a.drop (mismatch a b)).reverse (b.drop (mismatch a b)).reverse := by
  obtain ⟨p, a', b', h1, h2, h3, _⟩ := mismatch_split a b
  obtain ⟨q, u, v, g1, g2, g3, _⟩ := mismatch_split a'.reverse b'.reverse
  refine ⟨p, u.reverse, v.reverse, q.reverse, ?_, ?_, h3, ?_⟩
  · rw [List.append_assoc, ← List.reverse_append, ← g1, List.reverse_reverse, h1]
  · rw [List.append_assoc, ← List.reverse_append, ← g2, List.reverse_reverse, h2]
  · rw [← h3]
    have ha : a.drop p.length = a' := by rw [h1, List.drop_left]
    have hb : b.drop p.length = b' := by rw [h2, List.drop_left]
    rw [ha, hb, List.length_reverse, g3]

/-- After the common prefix, the rests in the case of an insertion. -/
theorem tail_suffix (x y : List Nat) (c : Nat) {l : Nat} (hl : x.length ≤ l) :
    ∃ w, (x ++ c :: y).drop l = w ++ (x ++ y).drop l := by
  obtain ⟨k, rfl⟩ := Nat.le.dest hl
  rw [← List.drop_drop, ← List.drop_drop, List.drop_left, List.drop_left]
  cases k with
  | zero => exact ⟨[c], rfl⟩
  | succ k =>
    rw [List.drop_succ_cons]
    have : y.drop k = (y.drop k).take 1 ++ (y.drop k).drop 1 := (List.take_append_drop 1 _).symm
    rw [List.drop_drop] at this
    exact ⟨_, this⟩

/-- The function is true exactly for equal strings and strings that differ by one edit; it reads no character out of range. -/
theorem within_one_typo (a b : List Nat) : ∃ v, isWithinOneTypo a b = some v ∧ (v = true ↔ a = b ∨ Typo a b) := by
  obtain ⟨p, u, v, q, h1, h2, h3, h4⟩ := decompose a b
  have hn : a.length = p.length + u.length + q.length := by rw [h1]; simp only [List.length_append]
  have hm : b.length = p.length + v.length + q.length := by rw [h2]; simp only [List.length_append]
  -- the forward direction of an edit
  have hedit : a = b ∨ Typo a b → (u.length ≤ 1 ∧ v.length ≤ 1) ∨
      ∃ x y c d, a = x ++ c :: d :: y ∧ b = x ++ d :: c :: y ∧ c ≠ d := by
    rintro (rfl | h)
    · rw [mismatch_self] at h3
      left; omega
    · cases h with
      | insertion x y c =>
        left
        have hl := mismatch_le x y (c :: y)
        obtain ⟨w, hw⟩ := tail_suffix x y c hl
        have hs := mismatch_suffix [] w ((x ++ y).drop (mismatch (x ++ y) (x ++ c :: y)))
        rw [List.nil_append, ← hw, ← h4] at hs
        simp only [List.length_drop, List.length_append, List.length_cons] at *
        omega
      | deletion x y c =>
        left
        have hl := mismatch_le x (c :: y) y
        obtain ⟨w, hw⟩ := tail_suffix x y c hl
        have hs := mismatch_suffix w [] ((x ++ y).drop (mismatch (x ++ c :: y) (x ++ y)))
        rw [List.nil_append, ← hw, ← h4] at hs
        simp only [List.length_drop, List.length_append, List.length_cons] at *
        omega
      | substitution x y c d =>
        by_cases hcd : c = d
        · subst hcd
          rw [mismatch_self] at h3
          left; omega
        · left
          have hl : mismatch (x ++ c :: y) (x ++ d :: y) = x.length := by
            rw [mismatch_append, mismatch, if_neg hcd]; rfl
          rw [hl, List.drop_left, List.drop_left] at h4
          have hs := mismatch_suffix [c] [d] y
          simp only [List.singleton_append] at hs
          rw [← h4] at hs
          simp only [List.length_append, List.length_cons] at *
          omega
      | transposition x y c d =>
        by_cases hcd : c = d
        · subst hcd
          rw [mismatch_self] at h3
          left; omega
        · right
          exact ⟨x, y, c, d, rfl, rfl, hcd⟩
  have hback : u.length ≤ 1 ∧ v.length ≤ 1 → a = b ∨ Typo a b := by
    rintro ⟨hu, hv⟩
    match u, v, hu, hv with
    | [], [], _, _ => exact Or.inl (by rw [h1, h2])
    | [c], [], _, _ => exact Or.inr (by rw [h1, h2]; simpa using Typo.deletion p q c)
    | [], [c], _, _ => exact Or.inr (by rw [h1, h2]; simpa using Typo.insertion p q c)
    | [c], [d], _, _ => exact Or.inr (by rw [h1, h2]; simpa using Typo.substitution p q c d)
  unfold isWithinOneTypo
  dsimp only
  rw [← h4, ← h3]
  by_cases hc : a.length - p.length - q.length ≤ 1 ∧ b.length - p.length - q.length ≤ 1
  · rw [if_pos hc]
    exact ⟨true, rfl, iff_of_true rfl (hback (by omega))⟩
  · rw [if_neg hc]
    by_cases ht : p.length + q.length + 2 = a.length ∧ a.length = b.length
    · rw [if_pos ht]
      match u, v, (show u.length = 2 by omega), (show v.length = 2 by omega) with
      | [u1, u2], [v1, v2], _, _ =>
        have r1 : a[p.length]? = some u1 := by rw [h1]; simp
        have r2 : a[p.length + 1]? = some u2 := by rw [h1]; simp
        have r3 : b[p.length]? = some v1 := by rw [h2]; simp
        have r4 : b[p.length + 1]? = some v2 := by rw [h2]; simp
        rw [r1, r2, r3, r4]
        refine ⟨_, rfl, ?_⟩
        simp only [Bool.and_eq_true, decide_eq_true_eq]
        constructor
        · rintro ⟨rfl, rfl⟩
          exact Or.inr (by rw [h1, h2]; simpa using Typo.transposition p q u1 u2)
        · intro h
          rcases hedit h with h | ⟨x, y, c, d, e1, e2, hcd⟩
          · simp at h
          · have hl : mismatch a b = x.length := by
              rw [e1, e2, mismatch_append, mismatch, if_neg hcd]; rfl
            rw [e1] at h1 r1 r2
            rw [e2] at h2 r3 r4
            rw [h3, hl] at r1 r2 r3 r4
            simp at r1 r2 r3 r4
            exact ⟨by rw [← r1, r4], by rw [← r2, r3]⟩
    · rw [if_neg ht]
      refine ⟨false, rfl, ?_⟩
      simp only [Bool.false_eq_true, false_iff]
      intro h
      rcases hedit h with h | ⟨x, y, c, d, e1, e2, hcd⟩
      · omega
      · have hl : mismatch a b = x.length := by
          rw [e1, e2, mismatch_append, mismatch, if_neg hcd]; rfl
        rw [hl] at h3 h4
        have hs := mismatch_suffix [c, d] [d, c] y
        rw [e1, e2, List.drop_left, List.drop_left] at h4
        simp only [List.cons_append, List.nil_append] at hs
        rw [← h4] at hs
        have hb2 : q.length = y.length := by
          rw [h4]
          simp only [List.reverse_cons, List.append_assoc, List.singleton_append]
          rw [mismatch_append]
          simp only [List.length_reverse, mismatch]
          rw [if_neg (fun e => hcd e.symm)]
          rfl
        have e3 := congrArg List.length e1
        have e4 := congrArg List.length e2
        simp only [List.length_append, List.length_cons] at e3 e4
        omega

example : isWithinOneTypo [97, 98, 99] [98, 97, 99] = some true := by decide +kernel
example : isWithinOneTypo [97, 98, 99] [97, 98, 98, 99] = some true := by decide +kernel
example : isWithinOneTypo [97, 98, 99] [99, 98, 97] = some false := by decide +kernel

end Verif.Text
