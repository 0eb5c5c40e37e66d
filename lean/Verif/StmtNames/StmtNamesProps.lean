import Verif.StmtNames.StmtNamesModel

/-! # C173: the names of statements in the text of an expression -/

namespace Verif.StmtNames

open Verif.Str

theorem dec_eq (n : Nat) : dec n = if n < 10 then [48 + n] else dec (n / 10) ++ [48 + n % 10] := by
  rw [dec]
  split <;> rfl

theorem dec_ne_nil (n : Nat) : dec n ≠ [] := by
  rw [dec_eq]
  split <;> simp

theorem dec_digits : ∀ n, ∀ c ∈ dec n, isDigit c = true := by
  intro n
  induction n using Nat.strongRecOn with
  | _ n ih =>
    intro c hc
    rw [dec_eq] at hc
    split at hc
    · simp only [List.mem_singleton] at hc
      subst hc
      simp [isDigit]; omega
    · rcases List.mem_append.1 hc with h | h
      · exact ih (n / 10) (by omega) c h
      · simp only [List.mem_singleton] at h
        subst h
        simp [isDigit]; omega

theorem dec_inj : ∀ a b, dec a = dec b → a = b := by
  intro a
  induction a using Nat.strongRecOn with
  | _ a ih =>
    intro b h
    rw [dec_eq a, dec_eq b] at h
    split at h <;> split at h
    · simp at h; exact h
    · exfalso
      have := congrArg List.length h
      simp only [List.length_singleton, List.length_append] at this
      exact dec_ne_nil (b / 10) (List.length_eq_zero_iff.1 (by omega))
    · exfalso
      have := congrArg List.length h
      simp only [List.length_singleton, List.length_append] at this
      exact dec_ne_nil (a / 10) (List.length_eq_zero_iff.1 (by omega))
    · obtain ⟨h1, h2⟩ := List.append_inj' h rfl
      have := ih (a / 10) (by omega) _ h1
      simp at h2
      omega

/-- A name with a number is one in one way. -/
theorem numbered_inj {s t d e : Text} (hd : ∀ c ∈ d, isDigit c = true) (he : ∀ c ∈ e, isDigit c = true)
    (h : s ++ dot :: underscore :: d = t ++ dot :: underscore :: e) : s = t ∧ d = e := by
  have hlen : d.length = e.length := by
    have key : ∀ {s t d e : Text}, (∀ c ∈ e, isDigit c = true) → s ++ dot :: underscore :: d = t ++ dot :: underscore :: e →
        ¬ d.length < e.length := by
      intro s t d e he h hlt
      have hl := congrArg List.length h
      simp only [List.length_append, List.length_cons] at hl
      have h1 : (s ++ dot :: underscore :: d)[s.length + 1]? = some underscore := by
        rw [List.getElem?_append_right (by omega)]
        simp
      rw [h, List.getElem?_append_right (by omega)] at h1
      have hk : s.length + 1 - t.length = (s.length - t.length - 1) + 2 := by omega
      rw [hk, List.getElem?_cons_succ, List.getElem?_cons_succ] at h1
      have := he _ (List.mem_of_getElem? h1)
      simp [isDigit, underscore] at this
    have a := key he h
    have b := key hd h.symm
    omega
  obtain ⟨h1, h2⟩ := List.append_inj' h (by simp [hlen])
  simp at h2
  exact ⟨h1, h2⟩

/-- No safe name is another safe name with a number. -/
def NoNumbered (names : List Text) : Prop :=
  ∀ s ∈ names, ∀ t ∈ names, isSafe s = true → isSafe t = true → ∀ k, t ≠ s ++ dot :: underscore :: dec k

/-- What a name can be: the number of an anonymous statement, a name that occurs once, or a name with a number. -/
inductive Form (names : List Text) (anonymous : Nat) (counts : Text → Nat) (rest : List Text) : Text → Prop
  | anon (k : Nat) : anonymous ≤ k → Form names anonymous counts rest (underscore :: dec k)
  | bare (s : Text) : s ∈ rest → isSafe s = true → counts s = 0 → Form names anonymous counts rest s
  | numbered (s : Text) (k : Nat) : s ∈ rest → isSafe s = true → counts s ≠ 0 → counts s ≤ k →
      Form names anonymous counts rest (s ++ dot :: underscore :: dec k)

theorem genLoop_form (names : List Text) : ∀ (rest : List Text) (anonymous : Nat) (counts : Text → Nat), ∀ x ∈ genLoop anonymous counts rest,
    Form names anonymous counts rest x
  | [], _, _, x, h => by cases h
  | name :: rest, anonymous, counts, x, h => by
    rw [genLoop] at h
    split at h
    · rcases List.mem_cons.1 h with rfl | h
      · exact .anon _ (Nat.le_refl _)
      · cases genLoop_form names rest _ _ x h with
        | anon k hk => exact .anon k (by omega)
        | bare s h1 h2 h3 => exact .bare _ (List.mem_cons_of_mem _ h1) h2 h3
        | numbered s k h1 h2 h3 h4 => exact .numbered s k (List.mem_cons_of_mem _ h1) h2 h3 h4
    · next hs =>
      have hs' : isSafe name = true := by simpa using hs
      split at h
      · next hc =>
        rcases List.mem_cons.1 h with rfl | h
        · exact .bare _ List.mem_cons_self hs' hc
        · cases genLoop_form names rest _ _ x h with
          | anon k hk => exact .anon k hk
          | bare s h1 h2 h3 => exact .bare _ (List.mem_cons_of_mem _ h1) h2 h3
          | numbered s k h1 h2 h3 h4 => exact .numbered s k (List.mem_cons_of_mem _ h1) h2 h3 h4
      · next hc =>
        rcases List.mem_cons.1 h with rfl | h
        · exact .numbered _ _ List.mem_cons_self hs' hc (Nat.le_refl _)
        · cases genLoop_form names rest _ _ x h with
          | anon k hk => exact .anon k hk
          | bare s h1 h2 h3 =>
            refine .bare _ (List.mem_cons_of_mem _ h1) h2 ?_
            split at h3 <;> omega
          | numbered s k h1 h2 h3 h4 =>
            refine .numbered s k (List.mem_cons_of_mem _ h1) h2 ?_ ?_
            · split at h3
              · next e => rw [e]; exact hc
              · exact h3
            · split at h4 <;> omega

theorem safe_not_anon {s : Text} {k : Nat} (h : isSafe s = true) : s ≠ underscore :: dec k := by
  rintro rfl
  unfold isSafe at h
  simp only [Bool.and_eq_true, Bool.not_eq_true'] at h
  have : looksNumbered (underscore :: dec k) = true := by
    simp only [looksNumbered, Bool.and_eq_true, Bool.not_eq_true', beq_self_eq_true, and_true]
    refine ⟨?_, List.all_eq_true.2 (dec_digits k)⟩
    cases hd : dec k with
    | nil => exact absurd hd (dec_ne_nil k)
    | cons _ _ => rfl
  rw [this] at h
  simp at h

theorem numbered_not_anon {s : Text} {j k : Nat} : s ++ dot :: underscore :: dec j ≠ underscore :: dec k := by
  intro h
  have hm : dot ∈ s ++ dot :: underscore :: dec j := by simp
  rw [h] at hm
  rcases List.mem_cons.1 hm with h | h
  · simp [dot, underscore] at h
  · have := dec_digits k _ h
    simp [isDigit, dot] at this

theorem genLoop_nodup (names : List Text) (hn : NoNumbered names) : ∀ (rest : List Text) (anonymous : Nat) (counts : Text → Nat),
    (∀ s ∈ rest, s ∈ names) → (∀ s, isSafe s = true → counts s = 0 → rest.count s ≤ 1) → (genLoop anonymous counts rest).Nodup
  | [], _, _, _, _ => List.nodup_nil
  | name :: rest, anonymous, counts, hm, hc => by
    have hm' : ∀ s ∈ rest, s ∈ names := fun s h => hm s (List.mem_cons_of_mem _ h)
    have hmn := hm name List.mem_cons_self
    rw [genLoop]
    split
    · rw [List.nodup_cons]
      refine ⟨?_, genLoop_nodup names hn rest _ _ hm' fun s h1 h2 => ?_⟩
      · intro h
        generalize hx : underscore :: dec anonymous = x at h
        cases genLoop_form names rest _ _ x h with
        | anon k hk =>
          simp at hx
          have := dec_inj _ _ hx
          omega
        | bare s h1 h2 h3 => exact safe_not_anon h2 hx.symm
        | numbered s k h1 h2 h3 h4 => exact numbered_not_anon hx.symm
      · have := hc s h1 h2
        rw [List.count_cons] at this
        omega
    · next hs =>
      have hs' : isSafe name = true := by simpa using hs
      split
      · next h0 =>
        rw [List.nodup_cons]
        have hcn := hc name hs' h0
        rw [List.count_cons_self] at hcn
        refine ⟨?_, genLoop_nodup names hn rest _ _ hm' fun s h1 h2 => ?_⟩
        · intro h
          generalize hx : name = x at h
          cases genLoop_form names rest _ _ x h with
          | anon k hk => exact safe_not_anon hs' hx
          | bare s h1 h2 h3 =>
            subst hx
            have := List.count_pos_iff.2 h1
            omega
          | numbered s k h1 h2 h3 h4 => exact hn s (hm' s h1) name hmn h2 hs' k hx
        · have := hc s h1 h2
          rw [List.count_cons] at this
          omega
      · next h0 =>
        rw [List.nodup_cons]
        refine ⟨?_, genLoop_nodup names hn rest _ _ hm' fun s h1 h2 => ?_⟩
        · intro h
          generalize hx : name ++ dot :: underscore :: dec (counts name) = x at h
          cases genLoop_form names rest _ _ x h with
          | anon k hk => exact numbered_not_anon hx
          | bare s h1 h2 h3 => exact hn name hmn _ (hm' _ h1) hs' h2 _ hx.symm
          | numbered s k h1 h2 h3 h4 =>
            obtain ⟨e1, e2⟩ := numbered_inj (dec_digits _) (dec_digits _) hx
            subst e1
            have := dec_inj _ _ e2
            rw [if_pos rfl] at h4
            omega
        · have : counts s = 0 := by split at h2 <;> omega
          have := hc s h1 this
          rw [List.count_cons] at this
          omega

/-- **Every statement has its own name, if no name of a statement is the name of another one with a number.** -/
theorem names_unique_partial (names : List Text) (hn : NoNumbered names) : (genNames names).Nodup ∧ (genNames names).length = names.length := by
  refine ⟨genLoop_nodup names hn names 1 _ (fun _ h => h) ?_, ?_⟩
  · intro s hs h0
    unfold initCounts at h0
    split at h0
    · cases h0
    · next h =>
      rw [List.count_filter hs] at h
      omega
  · have key : ∀ (l : List Text) (a : Nat) (c : Text → Nat), (genLoop a c l).length = l.length := by
      intro l
      induction l with
      | nil => intros; rfl
      | cons n l ih =>
        intro a c
        rw [genLoop]
        split
        · simp [ih]
        · split <;> simp [ih]
    exact key _ _ _

/-- **A name that occurs once is used as it is.** -/
theorem unique_name_kept {names : List Text} {i : Nat} {s : Text} (h : names[i]? = some s) (hs : isSafe s = true) (h1 : names.count s = 1) :
    (genNames names)[i]? = some s := by
  have key : ∀ (l : List Text) (a : Nat) (c : Text → Nat) (i : Nat), l[i]? = some s → c s = 0 → (genLoop a c l)[i]? = some s := by
    intro l
    induction l with
    | nil => intro a c i h _; simp at h
    | cons n l ih =>
      intro a c i h hc
      rw [genLoop]
      cases i with
      | zero =>
        simp only [List.getElem?_cons_zero, Option.some.injEq] at h
        subst h
        simp [hs, hc]
      | succ i =>
        rw [List.getElem?_cons_succ] at h
        split
        · exact ih _ _ i h hc
        · split
          · exact ih _ _ i h hc
          · next hne =>
            refine ih _ _ i h ?_
            rw [if_neg]
            · exact hc
            · rintro rfl
              exact hne hc
  refine key _ _ _ i h ?_
  unfold initCounts
  rw [List.count_filter hs, h1]
  rfl

/-- `x`, `x`, `x._1`. -/
def clash : List Text := [[120], [120], [120, dot, underscore, 49]]

/-- **In general names are not unique**: with two statements `x` and one `x._1`, two different statements are both called `x._1`. -/
theorem names_counterexample : (∀ s ∈ clash, isSafe s = true) ∧ (genNames clash)[0]? = some [120, dot, underscore, 49] ∧
    (genNames clash)[2]? = some [120, dot, underscore, 49] := by
  refine ⟨by decide +kernel, ?_, ?_⟩ <;> simp [genNames, clash, genLoop, initCounts, isSafe, isQualified, qualLoop, looksNumbered, dec_eq,
    underscore, dot, isAlpha, isAlnum, isDigit, List.count_cons]

/-! ## Examples -/

example : genNames [[120], [], [121], [120], [95, 53]] =
    [[120, 46, 95, 49], [95, 49], [121], [120, 46, 95, 50], [95, 50]] := by
  simp [genNames, genLoop, initCounts, isSafe, isQualified, qualLoop, looksNumbered, dec_eq, underscore, dot, isAlpha, isAlnum, isDigit,
    List.count_cons]

example : NoNumbered [[120], [], [121], [120], [95, 53]] := by
  intro s hs t ht _ _ k h
  have h1 := congrArg List.length h
  have h2 : t.length ≤ 2 := by
    simp only [List.mem_cons, List.not_mem_nil, or_false] at ht
    rcases ht with rfl | rfl | rfl | rfl | rfl <;> simp
  have h3 : 0 < (dec k).length := List.length_pos_iff.2 (dec_ne_nil k)
  simp only [List.length_append, List.length_cons] at h1
  omega

end Verif.StmtNames
