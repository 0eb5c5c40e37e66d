import Verif.Rules.RowLemmas

/-!
# The laws for one row
-/

namespace Verif.Rules
variable {α : Type} [DecidableEq α]
set_option linter.unusedSimpArgs false

theorem opt_cases {β : Type} (x : Option β) : x = none ∨ ∃ y, x = some y := by cases x <;> simp

omit [DecidableEq α] in
theorem RowOk.unit_cases {t : Ty} {x : Option (Elem α)} (h : RowOk t x) (ht : t.s = .unit) : x = none ∨ x = some .u := by
  rcases x with _ | y
  · exact Or.inl rfl
  · have := h.sort y rfl
    rw [ht] at this
    rcases y with _ | v | a <;> simp [Elem.sort] at this ⊢

theorem presence_laws (N : Num α) : ∀ r ∈ (presencePack ++ codegenPresencePack : List (Rule α)), r.Law N := by
  simp only [presencePack, codegenPresencePack, hasRemoval, presenceAndRemoval, presenceOrRemoval, hasPropagation,
    hasPropagationFor, toOptionalPropagation, presenceAndOptional, presenceAndOrCombination, whereRules, andOrToWhere,
    insideWherePropagation, presenceAndOr, andOrToOr, whereToPresenceAnd, List.flatMap_cons, List.flatMap_nil,
    List.cons_append, List.nil_append, List.append_nil, List.mem_cons, List.not_mem_nil, or_false, forall_eq_or_imp, forall_eq]
  refine ⟨?_, ?_, ?_, ?_, ?_, ?_, ?_, ?_, ?_, ?_, ?_, ?_, ?_, ?_, ?_, ?_, ?_, ?_, ?_, ?_, ?_, ?_, ?_, ?_, ?_, ?_, ?_, ?_, ?_, ?_,
    ?_, ?_, ?_, ?_, ?_, ?_, ?_, ?_, ?_, ?_, ?_⟩
  all_goals
    intro τ e T ht hr hc
    simp only [List.mem_cons, List.not_mem_nil, or_false, forall_eq_or_imp, forall_eq, Cond.rowOk, and_true, false_implies,
      implies_true, true_and] at hc
    first
    | (clear hr ht
       simp only [Pat.elP, el, mask, presentLit, Val.row] <;>
       rcases opt_cases (e 0) with h0 | ⟨x, h0⟩ <;> rcases opt_cases (e 1) with h1 | ⟨y, h1⟩ <;>
         rcases opt_cases (e 2) with h2 | ⟨z, h2⟩ <;> rcases opt_cases (e 3) with h3 | ⟨w, h3⟩ <;> simp_all
       done)
    | (simp only [Pat.type, infer, Option.bind_eq_bind, Option.bind_some, Option.ite_none_right_eq_some] at ht
       have hb := (hr 1 (by simp [Pat.vars])).unit_cases (by first | exact ht.1 | exact ht.1.1)
       simp only [Pat.elP, el]
       rcases hb with h1 | h1 <;> simp [hc, h1])

theorem short_circuit_laws (N : Num α) : ∀ r ∈ (shortCircuitPack : List (Rule α)), r.Law N := by
  simp only [shortCircuitPack, List.mem_cons, List.not_mem_nil, or_false, forall_eq_or_imp, forall_eq]
  refine ⟨?_, ?_, ?_⟩
  all_goals
    intro τ e T _ hr hc
    simp [Pat.elP, el, presentLit, missingLit, Val.row]

/-! ## Cases by sort -/

omit [DecidableEq α] in
/-- The rows of a scalar type. -/
theorem RowOk.bool_cases {t : Ty} {x : Option (Elem α)} (h : RowOk t x) (ht : t.s = .bool) :
    x = none ∨ x = some (.b true) ∨ x = some (.b false) := by
  rcases x with _ | y
  · exact Or.inl rfl
  · have := h.sort y rfl
    rw [ht] at this
    rcases y with _ | ⟨_ | _⟩ | _ <;> simp [Elem.sort] at this ⊢

omit [DecidableEq α] in
theorem RowOk.num_cases {t : Ty} {x : Option (Elem α)} (h : RowOk t x) (ht : t.s = .num) : x = none ∨ ∃ a, x = some (.n a) := by
  rcases x with _ | y
  · exact Or.inl rfl
  · have := h.sort y rfl
    rw [ht] at this
    rcases y with _ | v | a <;> simp [Elem.sort] at this ⊢

omit [DecidableEq α] in
theorem RowOk.eq_sort {t t' : Ty} {x y : Elem α} (h : RowOk t (some x)) (h' : RowOk t' (some y)) (ht : t.s = t'.s) :
    x.sort = y.sort := by rw [h.sort x rfl, h'.sort y rfl, ht]

/-! ## bool.cc -/

theorem neE_eq {N : Num α} (hN : N.Laws) {x y : Elem α} (h : x.sort = y.sort) : neE N x y = !eqE N x y := by
  cases x <;> cases y <;> simp [Elem.sort] at h <;> simp [neE, eqE, hN.ne_eq, bne]

theorem leE_eq {N : Num α} (hN : N.Laws) (x y : Elem α) : leE N x y = (ltE N x y || eqE N x y) := by
  cases x <;> cases y <;> simp [leE, ltE, eqE, hN.le_eq]
  rename_i a b
  cases a <;> cases b <;> rfl

theorem common_s {a b t : Ty} (h : common a b = some t) : a.s = b.s ∧ t.s = a.s := by
  simp only [common, Option.ite_none_right_eq_some, Option.some.injEq] at h
  obtain ⟨h1, rfl⟩ := h
  exact ⟨h1, rfl⟩

theorem not_total {N : Num α} (hN : N.Total) {x y : Elem α} (h : x.sort = y.sort) :
    leE N y x = (!ltE N x y) ∧ ltE N y x = (!leE N x y) := by
  cases x <;> cases y <;> simp [Elem.sort] at h
  · simp [leE, ltE]
  · rename_i a b
    cases a <;> cases b <;> simp [leE, ltE]
  · simpa [leE, ltE] using hN _ _


/-- Types of both arguments of a comparison. -/
theorem cmp_sorts {α : Type} {τ : Nat → Ty} {o : Op} {T : Ty} (ho : o = .beq ∨ o = .bne ∨ o = .blt ∨ o = .ble)
    (h : (Pat.c1 .bnot (.c2 o (.var 0) (.var 1)) : Pat α).type infer τ = some T) : (τ 0).s = (τ 1).s := by
  simp only [Pat.type, Option.bind_eq_bind, Option.bind_some, Option.bind_eq_some_iff] at h
  obtain ⟨t, ht, -⟩ := h
  rcases ho with rfl | rfl | rfl | rfl <;>
  · simp only [infer, Option.map_eq_some_iff] at ht
    obtain ⟨t', ht, -⟩ := ht
    exact (common_s ht).1

theorem not_comparison_laws {N : Num α} (hN : N.Laws) :
    ∀ r ∈ ((logicalNotComparison : List (Rule α)).take 3), r.Law N := by
  simp only [logicalNotComparison, List.cons_append, List.nil_append, List.take_succ_cons, List.take_zero, List.mem_cons,
    List.not_mem_nil, or_false, forall_eq_or_imp, forall_eq]
  refine ⟨?_, ?_, ?_⟩
  · intro τ e T ht hr _
    simp only [Pat.type, infer, Option.bind_eq_bind, Option.bind_some, Option.bind_eq_some_iff,
      Option.ite_none_right_eq_some] at ht
    obtain ⟨_, ⟨h, -⟩, -⟩ := ht
    rcases (hr 0 (by simp [Pat.vars])).bool_cases h with h0 | h0 | h0 <;> simp [Pat.elP, el, h0, notE]
  all_goals
    intro τ e T ht hr _
    have hs := cmp_sorts (by simp) ht
    have r0 := hr 0 (by simp [Pat.vars])
    have r1 := hr 1 (by simp [Pat.vars])
    simp only [Pat.elP, el]
    rcases opt_cases (e 0) with h0 | ⟨x, h0⟩ <;> rcases opt_cases (e 1) with h1 | ⟨y, h1⟩ <;> rw [h0, h1] <;>
      simp only [lift2, notE]
    rw [h0] at r0
    rw [h1] at r1
    simp [neE_eq hN (r0.eq_sort r1 hs)]

theorem not_less_laws {N : Num α} (hN : N.Total) : ∀ r ∈ (notLess : List (Rule α)), r.Law N := by
  simp only [notLess, List.mem_cons, List.not_mem_nil, or_false, forall_eq_or_imp, forall_eq]
  refine ⟨?_, ?_⟩
  all_goals
    intro τ e T ht hr _
    have hs := cmp_sorts (by simp) ht
    have r0 := hr 0 (by simp [Pat.vars])
    have r1 := hr 1 (by simp [Pat.vars])
    simp only [Pat.elP, el]
    rcases opt_cases (e 0) with h0 | ⟨x, h0⟩ <;> rcases opt_cases (e 1) with h1 | ⟨y, h1⟩ <;> rw [h0, h1] <;>
      simp only [lift2, notE]
    rw [h0] at r0
    rw [h1] at r1
    have := not_total hN (r0.eq_sort r1 hs)
    simp [this]

theorem core_bool_laws {N : Num α} (hN : N.Laws) : ∀ r ∈ (coreBoolComparison : List (Rule α)), r.Law N := by
  simp only [coreBoolComparison, List.flatMap_cons, List.flatMap_nil, List.cons_append, List.nil_append, List.append_nil,
    List.mem_cons, List.not_mem_nil, or_false, forall_eq_or_imp, forall_eq]
  refine ⟨?_, ?_, ?_, ?_, ?_, ?_, ?_, ?_, ?_, ?_, ?_, ?_, ?_⟩
  · intro τ e T ht hr hc
    have h4 : e 4 = some (.b true) := hc (4, .boolLit true) (by simp)
    simp only [Pat.elP, el, h4]
    rcases opt_cases (e 0) with h0 | ⟨x | ⟨_ | _⟩ | _, h0⟩ <;> simp [h0, lift2, eqE]
  iterate 8
    · intro τ e T ht hr hc
      have h4 : e 4 = some (.b true) := hc (4, .boolLit true) (by simp)
      simp only [Pat.elP, el, h4]
      rcases opt_cases (e 0) with h0 | ⟨x, h0⟩ <;> rcases opt_cases (e 1) with h1 | ⟨y, h1⟩ <;> simp [h0, h1, lift2, eqE, leE_eq hN]
  all_goals
    intro τ e T ht hr hc
    have h4 : e 4 = some (.b true) := hc (4, .boolLit true) (by simp)
    simp only [Pat.type, Option.bind_eq_bind, Option.bind_some, Option.bind_eq_some_iff] at ht
    obtain ⟨t, ht, -⟩ := ht
    simp only [infer, Option.ite_none_right_eq_some] at ht
    have r0 := (hr 0 (by simp [Pat.vars])).bool_cases ht.1.1
    have r1 := (hr 1 (by simp [Pat.vars])).bool_cases ht.1.2
    simp only [Pat.elP, el, h4]
    rcases r0 with h0 | h0 | h0 <;> rcases r1 with h1 | h1 | h1 <;> simp [h0, h1, lift2, eqE, andE, orE, mask]

theorem logical_if_laws (N : Num α) : ∀ r ∈ (logicalIf : List (Rule α)), r.Law N := by
  simp only [logicalIf, List.mem_cons, List.not_mem_nil, or_false, forall_eq_or_imp, forall_eq]
  refine ⟨?_, ?_, ?_, ?_, ?_⟩
  · intro τ e T ht hr hc
    obtain ⟨v, h6⟩ : ∃ v, e 6 = some (.b v) := hc (6, .scalarBool) (by simp)
    cases v <;> simp [Pat.elP, el, h6, ifE, boolLit, Val.row, lift2, eqE, mask]
  · intro τ e T ht hr hc
    have h5 : e 5 = some (.b false) := hc (5, .boolLit false) (by simp)
    simp only [Pat.type, Option.bind_eq_bind, Option.bind_some, Option.bind_eq_some_iff] at ht
    obtain ⟨t, ht, ht2⟩ := ht
    simp only [infer, Option.ite_none_right_eq_some, Option.some.injEq] at ht ht2
    obtain ⟨h1, rfl⟩ := ht
    rcases (hr 6 (by simp [Pat.vars])).bool_cases ht2.1 with h6 | h6 | h6 <;>
      simp [Pat.elP, el, h5, h6, ifE, boolLit, Val.row, lift2, eqE, mask]
  · intro τ e T ht hr hc
    simp only [Pat.type, Option.bind_eq_bind, Option.bind_some, infer, Option.ite_none_right_eq_some] at ht
    rcases (hr 6 (by simp [Pat.vars])).bool_cases ht.1 with h6 | h6 | h6 <;>
      simp [Pat.elP, el, h6, ifE, boolLit, Val.row, lift2, eqE, mask]
  · intro τ e T ht hr hc
    have h4 : e 4 = some (.b true) := hc (4, .boolLit true) (by simp)
    simp only [Pat.type, Option.bind_eq_bind, Option.bind_some, Option.bind_eq_some_iff] at ht
    obtain ⟨t, ht, ht2⟩ := ht
    simp only [infer, Option.ite_none_right_eq_some, Option.some.injEq] at ht ht2
    obtain ⟨h1, rfl⟩ := ht
    rcases (hr 6 (by simp [Pat.vars])).bool_cases ht2.1 with h6 | h6 | h6 <;>
      simp [Pat.elP, el, h4, h6, ifE, boolLit, Val.row, lift2, eqE, mask]
  · intro τ e T ht hr hc
    have h4 : e 4 = some (.b true) := hc (4, .boolLit true) (by simp)
    have h5 : e 5 = some (.b false) := hc (5, .boolLit false) (by simp)
    simp only [Pat.type, Option.bind_eq_bind, Option.bind_some, infer, Option.ite_none_right_eq_some] at ht
    rcases (hr 6 (by simp [Pat.vars])).bool_cases ht.1 with h6 | h6 | h6 <;>
      simp [Pat.elP, el, h4, h5, h6, ifE]

/-! ## balance.cc, arithmetic.cc, reduce.cc -/

/-- The scalar types of the placeholders in the rules of balance.cc and reduce.cc. -/
theorem chain_sorts {α : Type} {τ : Nat → Ty} {o : Op} {T : Ty} {s : Sc}
    (hos : (o = .bor ∨ o = .band) ∧ s = .bool ∨ (o = .mul ∨ o = .add) ∧ s = .num) {p : Pat α}
    (hp : p = .c2 o pa (.c2 o pb (.c2 o pc pd)) ∨ p = .c2 o (.c2 o (.c2 o pa pb) pc) pd ∨
      p = .c2 o (.c2 o pa pb) (.c2 o pc pd))
    (h : p.type infer τ = some T) : (τ 0).s = s ∧ (τ 1).s = s ∧ (τ 2).s = s ∧ (τ 3).s = s := by
  have ho : ∀ x y t, infer o [x, y] = some t → x.s = s ∧ y.s = s := by
    intro x y t h
    rcases hos with ⟨rfl | rfl, rfl⟩ | ⟨rfl | rfl, rfl⟩ <;> simp only [infer, Option.ite_none_right_eq_some] at h <;> exact h.1
  rcases hp with rfl | rfl | rfl <;> simp only [Pat.type, Option.bind_eq_bind, Option.bind_some, Option.bind_eq_some_iff] at h
  · obtain ⟨t1, ⟨t2, h2, h1⟩, h0⟩ := h
    exact ⟨(ho _ _ _ h0).1, (ho _ _ _ h1).1, ho _ _ _ h2⟩
  · obtain ⟨t1, ⟨t2, h2, h1⟩, h0⟩ := h
    exact ⟨(ho _ _ _ h2).1, (ho _ _ _ h2).2, (ho _ _ _ h1).2, (ho _ _ _ h0).2⟩
  · obtain ⟨t1, h1, t2, h2, h0⟩ := h
    exact ⟨(ho _ _ _ h1).1, (ho _ _ _ h1).2, ho _ _ _ h2⟩

theorem balance_presence_laws (N : Num α) : ∀ r ∈ ([.pand, .por].flatMap balanceFor : List (Rule α)), r.Law N := by
  simp only [balanceFor, List.flatMap_cons, List.flatMap_nil, List.cons_append, List.nil_append, List.append_nil,
    List.mem_cons, List.not_mem_nil, or_false, forall_eq_or_imp, forall_eq]
  refine ⟨?_, ?_, ?_, ?_⟩
  all_goals
    intro τ e T _ _ _
    simp only [Pat.elP, el]
    rcases opt_cases (e 0) with h0 | ⟨x, h0⟩ <;> rcases opt_cases (e 1) with h1 | ⟨y, h1⟩ <;>
      rcases opt_cases (e 2) with h2 | ⟨z, h2⟩ <;> rcases opt_cases (e 3) with h3 | ⟨w, h3⟩ <;> simp [h0, h1, h2, h3]

theorem balance_bool_laws (N : Num α) : ∀ r ∈ ([.bor, .band].flatMap balanceFor : List (Rule α)), r.Law N := by
  simp only [balanceFor, List.flatMap_cons, List.flatMap_nil, List.cons_append, List.nil_append, List.append_nil,
    List.mem_cons, List.not_mem_nil, or_false, forall_eq_or_imp, forall_eq]
  refine ⟨?_, ?_, ?_, ?_⟩
  all_goals
    intro τ e T ht hr _
    obtain ⟨s0, s1, s2, s3⟩ : (τ 0).s = .bool ∧ (τ 1).s = .bool ∧ (τ 2).s = .bool ∧ (τ 3).s = .bool := by
      first
      | exact chain_sorts (by simp) (Or.inl rfl) ht
      | exact chain_sorts (by simp) (Or.inr (Or.inl rfl)) ht
      | exact chain_sorts (by simp) (Or.inr (Or.inr rfl)) ht
    have r0 := (hr 0 (by simp [Pat.vars])).bool_cases s0
    have r1 := (hr 1 (by simp [Pat.vars])).bool_cases s1
    have r2 := (hr 2 (by simp [Pat.vars])).bool_cases s2
    have r3 := (hr 3 (by simp [Pat.vars])).bool_cases s3
    simp only [Pat.elP, el]
    rcases r0 with h0 | h0 | h0 <;> rcases r1 with h1 | h1 | h1 <;> rcases r2 with h2 | h2 | h2 <;>
      rcases r3 with h3 | h3 | h3 <;> rw [h0, h1, h2, h3] <;> rfl

theorem balance_mul_laws' {N : Num α} (hN : ∀ a b c d, N.mul a (N.mul b (N.mul c d)) = N.mul (N.mul a b) (N.mul c d) ∧
      N.mul (N.mul (N.mul a b) c) d = N.mul (N.mul a b) (N.mul c d)) :
    ∀ r ∈ (balanceFor .mul : List (Rule α)), r.Law N := by
  simp only [balanceFor, List.mem_cons, List.not_mem_nil, or_false, forall_eq_or_imp, forall_eq]
  refine ⟨?_, ?_⟩
  all_goals
    intro τ e T ht hr _
    obtain ⟨s0, s1, s2, s3⟩ : (τ 0).s = .num ∧ (τ 1).s = .num ∧ (τ 2).s = .num ∧ (τ 3).s = .num := by
      first
      | exact chain_sorts (by simp) (Or.inl rfl) ht
      | exact chain_sorts (by simp) (Or.inr (Or.inl rfl)) ht
      | exact chain_sorts (by simp) (Or.inr (Or.inr rfl)) ht
    have r0 := (hr 0 (by simp [Pat.vars])).num_cases s0
    have r1 := (hr 1 (by simp [Pat.vars])).num_cases s1
    have r2 := (hr 2 (by simp [Pat.vars])).num_cases s2
    have r3 := (hr 3 (by simp [Pat.vars])).num_cases s3
    simp only [Pat.elP, el] <;>
    rcases r0 with h0 | ⟨x, h0⟩ <;> rcases r1 with h1 | ⟨y, h1⟩ <;> rcases r2 with h2 | ⟨z, h2⟩ <;>
      rcases r3 with h3 | ⟨w, h3⟩ <;> simp [h0, h1, h2, h3, lift2, numE, hN]

theorem reduce_laws' {N : Num α} (hN : ∀ a b c d, N.add (N.add a b) (N.add c d) = N.add (N.add (N.add a b) c) d ∧
      N.add a (N.add b (N.add c d)) = N.add (N.add (N.add a b) c) d) :
    ∀ r ∈ (reducePack : List (Rule α)), r.Law N := by
  simp only [reducePack, List.mem_cons, List.not_mem_nil, or_false, forall_eq_or_imp, forall_eq]
  refine ⟨?_, ?_, ?_⟩
  all_goals
    intro τ e T ht hr _
    obtain ⟨s0, s1, s2, s3⟩ : (τ 0).s = .num ∧ (τ 1).s = .num ∧ (τ 2).s = .num ∧ (τ 3).s = .num := by
      first
      | exact chain_sorts (by simp) (Or.inl rfl) ht
      | exact chain_sorts (by simp) (Or.inr (Or.inl rfl)) ht
      | exact chain_sorts (by simp) (Or.inr (Or.inr rfl)) ht
    have r0 := (hr 0 (by simp [Pat.vars])).num_cases s0
    have r1 := (hr 1 (by simp [Pat.vars])).num_cases s1
    have r2 := (hr 2 (by simp [Pat.vars])).num_cases s2
    have r3 := (hr 3 (by simp [Pat.vars])).num_cases s3
    simp only [Pat.elP, el] <;>
    rcases r0 with h0 | ⟨x, h0⟩ <;> rcases r1 with h1 | ⟨y, h1⟩ <;> rcases r2 with h2 | ⟨z, h2⟩ <;>
      rcases r3 with h3 | ⟨w, h3⟩ <;> simp [h0, h1, h2, h3, lift2, numE, hN]

theorem arithmetic_laws {N : Num α} {zero one : α} (h0 : ∀ a, N.add a zero = a ∧ N.add zero a = a)
    (h1 : ∀ a, N.mul a one = a ∧ N.mul one a = a) : ∀ r ∈ (arithmeticPack zero one : List (Rule α)), r.Law N := by
  simp only [arithmeticPack, List.flatMap_cons, List.flatMap_nil, List.cons_append, List.nil_append, List.append_nil,
    List.mem_cons, List.not_mem_nil, or_false, forall_eq_or_imp, forall_eq]
  refine ⟨?_, ?_, ?_, ?_, ?_, ?_, ?_, ?_⟩
  all_goals
    intro τ e T ht hr _
    simp only [Pat.type, Option.bind_eq_bind, Option.bind_some, infer, Option.ite_none_right_eq_some] at ht
    have r0 := (hr 0 (by simp [Pat.vars])).num_cases (by first | exact ht.1.1 | exact ht.1.2)
    simp only [Pat.elP, el]
    rcases r0 with h | ⟨x, h⟩ <;> simp [h, lift2, numE, numLit, Val.row, h0, h1]

end Verif.Rules
