import Verif.Util.StringModel
import Mathlib.Tactic.ByContra

/-!
# C58: names; C59: one typo
-/

namespace Verif.Str

/-- A letter or underscore; a letter, digit or underscore. -/
def Letter (c : Nat) : Prop := c = 95 ∨ (65 ≤ c ∧ c ≤ 90) ∨ (97 ≤ c ∧ c ≤ 122)
def LetterOrDigit (c : Nat) : Prop := Letter c ∨ (48 ≤ c ∧ c ≤ 57)

/-- An identifier. -/
def Ident (s : List Nat) : Prop := ∃ c cs, s = c :: cs ∧ Letter c ∧ ∀ x ∈ cs, LetterOrDigit x

/-- Identifiers separated by single dots. -/
inductive Qual : List Nat → Prop
  | one {p : List Nat} : Ident p → Qual p
  | more {p q : List Nat} : Ident p → Qual q → Qual (p ++ 46 :: q)

theorem letter_iff {c : Nat} : (decide (c ≠ underscore) && !isAlpha c) = false ↔ Letter c := by
  unfold underscore isAlpha Letter
  by_cases h : c = 95
  · simp [h]
  · rw [decide_eq_true h, Bool.true_and]
    simp only [Bool.not_eq_false', Bool.or_eq_true, Bool.and_eq_true, decide_eq_true_eq]
    omega

theorem letterOrDigit_iff {c : Nat} : (decide (c ≠ underscore) && !isAlnum c) = false ↔ LetterOrDigit c := by
  unfold underscore isAlnum isAlpha isDigit LetterOrDigit Letter
  by_cases h : c = 95
  · simp [h]
  · rw [decide_eq_true h, Bool.true_and]
    simp only [Bool.not_eq_false', Bool.or_eq_true, Bool.and_eq_true, decide_eq_true_eq]
    omega

theorem identTail_iff : ∀ {cs : List Nat}, identTail cs = true ↔ ∀ x ∈ cs, LetterOrDigit x := by
  intro cs
  induction cs with
  | nil => simp [identTail]
  | cons c cs ih =>
    rw [identTail]
    cases h : (decide (c ≠ underscore) && !isAlnum c) with
    | true =>
      rw [if_pos rfl]
      simp only [Bool.false_eq_true, List.mem_cons, forall_eq_or_imp, false_iff, not_and]
      intro h'
      rw [letterOrDigit_iff.2 h'] at h
      cases h
    | false =>
      rw [if_neg (by simp), ih]
      simp [letterOrDigit_iff.1 h]

/-- `IsIdentifier` accepts exactly the identifiers. -/
theorem is_identifier_iff (s : List Nat) : isIdentifier s = true ↔ Ident s := by
  unfold Ident
  cases s with
  | nil => simp [isIdentifier]
  | cons c cs =>
    rw [isIdentifier]
    cases h : (decide (c ≠ underscore) && !isAlpha c) with
    | true =>
      rw [if_pos rfl]
      simp only [Bool.false_eq_true, false_iff]
      rintro ⟨c', cs', he, hc, _⟩
      obtain ⟨rfl, rfl⟩ := List.cons.inj he
      rw [letter_iff.2 hc] at h
      cases h
    | false =>
      rw [if_neg (by simp), identTail_iff]
      constructor
      · intro h'; exact ⟨c, cs, rfl, letter_iff.1 h, h'⟩
      · rintro ⟨c', cs', he, _, h'⟩
        obtain ⟨rfl, rfl⟩ := List.cons.inj he
        exact h'

theorem qualLoop_fail : ∀ {cs : List Nat} {e : Bool}, qualLoop true e cs = false := by
  intro cs
  induction cs with
  | nil => intro e; simp [qualLoop]
  | cons c cs ih =>
    intro e
    cases e
    · rw [qualLoop]; split <;> exact ih
    · rw [qualLoop]
      split
      · exact ih
      · split <;> exact ih

theorem not_dot_of_letterOrDigit {c : Nat} (h : LetterOrDigit c) : c ≠ 46 := by
  unfold LetterOrDigit Letter at h
  omega

theorem not_dot_of_letter {c : Nat} (h : Letter c) : c ≠ 46 := not_dot_of_letterOrDigit (Or.inl h)

theorem qualLoop_spec : ∀ {cs : List Nat},
    (qualLoop false true cs = true ↔ ∃ w, (∀ x ∈ w, LetterOrDigit x) ∧ (cs = w ∨ ∃ t, cs = w ++ 46 :: t ∧ Qual t)) ∧
    (qualLoop false false cs = true ↔ Qual cs) := by
  intro cs
  induction cs with
  | nil =>
    refine ⟨?_, ?_⟩
    · simp only [qualLoop]
      refine ⟨fun _ => ⟨[], by simp, Or.inl rfl⟩, fun _ => rfl⟩
    · simp only [qualLoop, Bool.and_false, Bool.false_eq_true, false_iff]
      intro h
      generalize hq : ([] : List Nat) = q at h
      cases h with
      | one h => obtain ⟨c, cs, h, _⟩ := h; rw [h] at hq; cases hq
      | more h _ => simp at hq
  | cons c cs ih =>
    refine ⟨?_, ?_⟩
    · rw [qualLoop]
      by_cases hd : c = dot
      · rw [if_pos hd, ih.2]
        constructor
        · intro h
          exact ⟨[], by simp, Or.inr ⟨cs, by rw [hd]; rfl, h⟩⟩
        · rintro ⟨w, hw, h | ⟨t, h, hq⟩⟩
          · exact absurd hd (not_dot_of_letterOrDigit (hw c (by rw [← h]; simp)))
          · cases w with
            | nil =>
              simp only [List.nil_append, List.cons.injEq] at h
              rw [h.2]; exact hq
            | cons a as =>
              simp only [List.cons_append, List.cons.injEq] at h
              exact absurd hd (not_dot_of_letterOrDigit (hw c (by rw [h.1]; simp)))
      · rw [if_neg hd]
        cases hc : (decide (c ≠ underscore) && !isAlnum c) with
        | true =>
          rw [if_pos rfl, qualLoop_fail]
          simp only [Bool.false_eq_true, false_iff]
          rintro ⟨w, hw, h⟩
          have hcw : c ∈ w := by
            rcases h with h | ⟨t, h, hq⟩
            · rw [← h]; simp
            · cases w with
              | nil =>
                simp only [List.nil_append, List.cons.injEq] at h
                exact absurd h.1 hd
              | cons a as =>
                simp only [List.cons_append, List.cons.injEq] at h
                rw [h.1]; simp
          rw [letterOrDigit_iff.2 (hw c hcw)] at hc
          cases hc
        | false =>
          rw [if_neg (by simp), ih.1]
          constructor
          · rintro ⟨w, hw, h⟩
            refine ⟨c :: w, ?_, ?_⟩
            · intro x hx
              rcases List.mem_cons.1 hx with rfl | hx
              · exact letterOrDigit_iff.1 hc
              · exact hw x hx
            · rcases h with h | ⟨t, h, hq⟩
              · exact Or.inl (by rw [h])
              · exact Or.inr ⟨t, by rw [h]; rfl, hq⟩
          · rintro ⟨w, hw, h⟩
            cases w with
            | nil =>
              rcases h with h | ⟨t, h, hq⟩
              · cases h
              · simp only [List.nil_append, List.cons.injEq] at h
                exact absurd h.1 hd
            | cons a as =>
              refine ⟨as, fun x hx => hw x (by simp [hx]), ?_⟩
              rcases h with h | ⟨t, h, hq⟩
              · exact Or.inl (List.cons.inj h).2
              · simp only [List.cons_append, List.cons.injEq] at h
                exact Or.inr ⟨t, h.2, hq⟩
    · rw [qualLoop]
      cases hc : (decide (c ≠ underscore) && !isAlpha c) with
      | true =>
        rw [if_pos rfl, qualLoop_fail]
        simp only [Bool.false_eq_true, false_iff]
        intro h
        have hl : Letter c := by
          generalize hq : c :: cs = q at h
          cases h with
          | one h =>
            obtain ⟨c', cs', rfl, h, _⟩ := h
            rw [(List.cons.inj hq).1]; exact h
          | more h _ =>
            obtain ⟨c', cs', rfl, h, _⟩ := h
            rw [(List.cons.inj hq).1]; exact h
        rw [letter_iff.2 hl] at hc
        cases hc
      | false =>
        rw [if_neg (by simp), ih.1]
        constructor
        · rintro ⟨w, hw, h⟩
          have hi : Ident (c :: w) := ⟨c, w, rfl, letter_iff.1 hc, hw⟩
          rcases h with h | ⟨t, h, hq⟩
          · rw [h]; exact .one hi
          · rw [h]; exact .more hi hq
        · intro h
          generalize hq : c :: cs = q at h
          cases h with
          | one h =>
            obtain ⟨c', cs', rfl, h, hw⟩ := h
            exact ⟨cs', hw, Or.inl (List.cons.inj hq).2⟩
          | more h h2 =>
            obtain ⟨c', cs', rfl, h, hw⟩ := h
            simp only [List.cons_append, List.cons.injEq] at hq
            exact ⟨cs', hw, Or.inr ⟨_, hq.2, h2⟩⟩

/-- `IsQualifiedIdentifier` accepts exactly the identifiers separated by single dots. -/
theorem is_qualified_iff (s : List Nat) : isQualified s = true ↔ Qual s := qualLoop_spec.2

/-- "a_1.B" -/
example : isQualified [97, 95, 49, 46, 66] = true := by decide
/-- "a..b", ".a", "a.", "1a", "" -/
example : [[97, 46, 46, 98], [46, 97], [97, 46], [49, 97], []].map isQualified = [false, false, false, false, false] := by
  decide

/-- `Truncate` keeps short strings and otherwise returns a string of the given length: a prefix and dots. -/
theorem truncate_spec (s : List Nat) (k : Nat) (hk : 3 < k) :
    (s.length ≤ k → truncate s k = s) ∧
    (k < s.length → truncate s k = s.take (k - 3) ++ [46, 46, 46] ∧ (truncate s k).length = k) := by
  unfold truncate
  constructor
  · intro h; rw [if_neg (by omega)]
  · intro h
    rw [if_pos h]
    have : (s.take k).drop (k - 3 + 3) = [] := by
      rw [List.drop_eq_nil_iff, List.length_take]; omega
    dsimp only
    rw [this, List.append_nil, List.take_take, Nat.min_eq_left (by omega)]
    refine ⟨rfl, ?_⟩
    simp only [List.length_append, List.length_take, List.length_cons, List.length_nil]
    omega

example : truncate [1, 2, 3, 4, 5, 6] 5 = [1, 2, 46, 46, 46] := by decide

/-! ## One typo -/

/-- Distance at most one: equal, or one insertion, deletion, substitution or transposition of neighbours. -/
def OneTypo (s t : List Nat) : Prop :=
  s = t ∨ (∃ a b x, s = a ++ b ∧ t = a ++ x :: b) ∨ (∃ a b x, s = a ++ x :: b ∧ t = a ++ b) ∨
  (∃ a b x y, s = a ++ x :: b ∧ t = a ++ y :: b) ∨ ∃ a b x y, s = a ++ x :: y :: b ∧ t = a ++ y :: x :: b

theorem mism_le : ∀ {s t : List Nat}, mism s t ≤ s.length ∧ mism s t ≤ t.length := by
  intro s
  induction s with
  | nil => intro t; simp [mism]
  | cons a s ih =>
    intro t
    cases t with
    | nil => simp [mism]
    | cons b t =>
      rw [mism]
      have := @ih t
      simp only [List.length_cons]
      split <;> omega

theorem mism_take : ∀ {s t : List Nat}, s.take (mism s t) = t.take (mism s t) := by
  intro s
  induction s with
  | nil => intro t; simp [mism]
  | cons a s ih =>
    intro t
    cases t with
    | nil => simp [mism]
    | cons b t =>
      rw [mism]
      split
      · next h => rw [List.take_succ_cons, List.take_succ_cons, h, ih]
      · simp

theorem mism_ge : ∀ {a s t : List Nat}, a.length ≤ mism (a ++ s) (a ++ t) := by
  intro a
  induction a with
  | nil => intro s t; simp
  | cons x a ih =>
    intro s t
    rw [List.cons_append, List.cons_append, mism, if_pos rfl]
    simpa using ih

theorem mism_ge' {a s t s' t' : List Nat} (h1 : s' = a ++ s) (h2 : t' = a ++ t) : a.length ≤ mism s' t' := by
  rw [h1, h2]; exact mism_ge

/-- The common prefix ends where the strings differ. -/
theorem mism_eq : ∀ {a s t : List Nat} {x y : Nat}, x ≠ y → mism (a ++ x :: s) (a ++ y :: t) = a.length := by
  intro a
  induction a with
  | nil => intro s t x y h; simp [mism, h]
  | cons z a ih =>
    intro s t x y h
    rw [List.cons_append, List.cons_append, mism, if_pos rfl, ih h]
    rfl

/-- The decomposition computed by the code. -/
theorem decompose (s t : List Nat) :
    let l := mism s t
    let r := mism (s.drop l).reverse (t.drop l).reverse
    l + r ≤ s.length ∧ l + r ≤ t.length ∧
    ∃ p u v q, s = p ++ (u ++ q) ∧ t = p ++ (v ++ q) ∧ p.length = l ∧ q.length = r := by
  intro l r
  have h1 := @mism_le s t
  have h2 := @mism_le (s.drop l).reverse (t.drop l).reverse
  simp only [List.length_reverse, List.length_drop] at h2
  have e1 := @mism_take s t
  have e2 := @mism_take (s.drop l).reverse (t.drop l).reverse
  refine ⟨by omega, by omega, s.take l, (s.drop l).take (s.length - l - r), (t.drop l).take (t.length - l - r),
    (s.drop l).drop (s.length - l - r), ?_, ?_, ?_, ?_⟩
  · rw [List.take_append_drop, List.take_append_drop]
  · have : (s.drop l).drop (s.length - l - r) = (t.drop l).drop (t.length - l - r) := by
      rw [List.take_reverse, List.take_reverse, List.reverse_inj] at e2
      simp only [List.length_drop] at e2
      exact e2
    rw [this, List.take_append_drop]
    have e1' : s.take l = t.take l := e1
    rw [e1', List.take_append_drop]
  · rw [List.length_take]; omega
  · rw [List.length_drop, List.length_drop]; omega

theorem suffix_ge {l : Nat} {s t u v b : List Nat} (hs : s = u ++ b) (ht : t = v ++ b) (k : Nat) (hb : k ≤ b.length)
    (hk1 : k ≤ s.length - l) (hk2 : k ≤ t.length - l) : k ≤ mism (s.drop l).reverse (t.drop l).reverse := by
  have key : ∀ {s u : List Nat}, s = u ++ b → k ≤ s.length - l →
      ∃ w, (s.drop l).reverse = (b.reverse.take k) ++ w := by
    intro s u hs hk
    refine ⟨(s.drop l).reverse.drop k, ?_⟩
    have e : (s.drop l).reverse.take k = b.reverse.take k := by
      by_cases hk0 : k = 0
      · rw [hk0]; simp
      rw [List.take_reverse, List.take_reverse, List.drop_drop, List.length_drop, hs]
      rw [hs, List.length_append] at hk
      rw [show l + ((u ++ b).length - l - k) = u.length + (b.length - k) by rw [List.length_append]; omega,
        List.drop_length_add_append]
    rw [← e, List.take_append_drop]
  obtain ⟨w1, hw1⟩ := key hs hk1
  obtain ⟨w2, hw2⟩ := key ht hk2
  have := mism_ge' hw1 hw2
  rw [List.length_take, List.length_reverse] at this
  omega

/-- `IsWithinOneTypo` decides whether the distance is at most one. -/
theorem within_one_typo_iff (s t : List Nat) : isWithinOneTypo s t = true ↔ OneTypo s t := by
  have hdec := decompose s t
  unfold isWithinOneTypo
  dsimp only at hdec ⊢
  generalize hl : mism s t = l at *
  generalize hr : mism (s.drop l).reverse (t.drop l).reverse = r at *
  obtain ⟨b1, b2, p, u, v, q, hs, ht, hp, hq⟩ := hdec
  have hsl : s.length = l + u.length + r := by rw [hs]; simp only [List.length_append]; omega
  have htl : t.length = l + v.length + r := by rw [ht]; simp only [List.length_append]; omega
  by_cases hc : (decide (s.length - l - r ≤ 1) && decide (t.length - l - r ≤ 1)) = true
  · rw [if_pos hc]
    simp only [Bool.and_eq_true, decide_eq_true_eq] at hc
    simp only [true_iff]
    have hu : u.length ≤ 1 := by omega
    have hv : v.length ≤ 1 := by omega
    match u, v, hu, hv with
    | [], [], _, _ => exact Or.inl (by rw [hs, ht])
    | [], [x], _, _ => exact Or.inr (Or.inl ⟨p, q, x, by rw [hs]; simp, by rw [ht]; simp⟩)
    | [x], [], _, _ => exact Or.inr (Or.inr (Or.inl ⟨p, q, x, by rw [hs]; simp, by rw [ht]; simp⟩))
    | [x], [y], _, _ => exact Or.inr (Or.inr (Or.inr (Or.inl ⟨p, q, x, y, by rw [hs]; simp, by rw [ht]; simp⟩)))
    | _ :: _ :: _, _, h, _ => simp at h
    | _, _ :: _ :: _, _, h => simp at h
  · rw [if_neg hc]
    simp only [Bool.and_eq_true, decide_eq_true_eq] at hc
    simp only [Bool.and_eq_true, decide_eq_true_eq]
    constructor
    · rintro ⟨⟨⟨h1, h2⟩, h3⟩, h4⟩
      have hu : u.length = 2 := by omega
      have hv : v.length = 2 := by omega
      match u, v, hu, hv with
      | [x, y], [x', y'], _, _ =>
        rw [hs, ht] at h3 h4
        have g : ∀ (z : List Nat) (i : Nat), (p ++ z)[l + i]? = z[i]? := by
          intro z i
          rw [List.getElem?_append_right (by omega), hp, Nat.add_sub_cancel_left]
        have g0 : ∀ (z : List Nat), (p ++ z)[l]? = z[0]? := fun z => g z 0
        rw [g, g0] at h3 h4
        simp only [List.cons_append, List.nil_append, List.getElem?_cons_zero, List.getElem?_cons_succ,
          Option.some.injEq] at h3 h4
        refine Or.inr (Or.inr (Or.inr (Or.inr ⟨p, q, x, y, by rw [hs]; simp, by rw [ht, h3, h4]; simp⟩)))
    · rintro (h | ⟨a, b, x, h1, h2⟩ | ⟨a, b, x, h1, h2⟩ | ⟨a, b, x, y, h1, h2⟩ | ⟨a, b, x, y, h1, h2⟩)
      · exfalso
        refine hc ?_
        have ha := mism_ge' (a := s) (s := []) (t := []) (s' := s) (t' := t) (by simp) (by rw [← h]; simp)
        rw [hl] at ha
        subst h
        omega
      · exfalso
        refine hc ?_
        have ha := mism_ge' h1 h2
        rw [hl] at ha
        have l1 : s.length = a.length + b.length := by rw [h1, List.length_append]
        have l2 : t.length = a.length + (b.length + 1) := by rw [h2]; simp
        have := suffix_ge (l := l) h1 (t := t) (v := a ++ [x]) (by rw [h2]; simp) (s.length - l) (by omega)
          (by omega) (by omega)
        omega
      · exfalso
        refine hc ?_
        have ha := mism_ge' h1 h2
        rw [hl] at ha
        have l1 : s.length = a.length + (b.length + 1) := by rw [h1]; simp
        have l2 : t.length = a.length + b.length := by rw [h2]; simp
        have := suffix_ge (l := l) (s := s) (u := a ++ [x]) (by rw [h1]; simp) h2 (t.length - l) (by omega)
          (by omega) (by omega)
        omega
      · exfalso
        refine hc ?_
        have ha := mism_ge' h1 h2
        rw [hl] at ha
        have l1 : s.length = a.length + (b.length + 1) := by rw [h1]; simp
        have l2 : t.length = a.length + (b.length + 1) := by rw [h2]; simp
        have := suffix_ge (l := l) (s := s) (t := t) (u := a ++ [x]) (v := a ++ [y]) (b := b) (by rw [h1]; simp)
          (by rw [h2]; simp) (min b.length (s.length - l)) (by omega) (by omega) (by omega)
        omega
      · have l1 : s.length = a.length + (b.length + 1 + 1) := by rw [h1]; simp
        have l2 : t.length = a.length + (b.length + 1 + 1) := by rw [h2]; simp
        by_cases hxy : x = y
        · exfalso
          refine hc ?_
          subst hxy
          have ha := mism_ge' (a := s) (s := []) (t := []) (s' := s) (t' := t) (by simp) (by rw [h1, h2]; simp)
          rw [hl] at ha
          omega
        · have hla : l = a.length := by rw [← hl, h1, h2, mism_eq hxy]
          have hrb : r = b.length := by
            rw [← hr, hla, h1, h2]
            simp only [List.drop_left, List.reverse_cons, List.append_assoc, List.singleton_append]
            rw [mism_eq (fun h => hxy h.symm), List.length_reverse]
          subst hla
          refine ⟨⟨⟨by omega, by omega⟩, ?_⟩, ?_⟩
          · rw [h1, h2]; simp
          · rw [h1, h2]; simp

/-- "apple"/"apply", "plum"/"plumb", "grape"/"gape", "banana"/"bnaana", "ab"/"ba"; two typos. -/
example : isWithinOneTypo [1, 2, 2, 3, 4] [1, 2, 2, 3, 5] = true ∧ isWithinOneTypo [1, 2, 3] [1, 2, 3, 4] = true ∧
    isWithinOneTypo [1, 2, 3] [1, 3] = true ∧ isWithinOneTypo [1, 2, 3, 2] [1, 3, 2, 2] = true ∧
    isWithinOneTypo [1, 2] [2, 1] = true ∧ isWithinOneTypo [1, 2, 3] [3, 2, 1] = false := by decide

end Verif.Str
