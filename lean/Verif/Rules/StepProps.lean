import Verif.Rules.RulesProps

/-!
# Optimization by the rules keeps the value of an expression
-/

namespace Verif.Rules
variable {α : Type} [DecidableEq α]

/-- The rules that are correct for every scalar type. -/
def safeRules : List (Rule α) :=
  (presencePack ++ codegenPresencePack) ++ (logicalNotComparison.take 3 ++ coreBoolComparison ++ logicalIf) ++
    [.pand, .por, .bor, .band].flatMap balanceFor ++ shortCircuitPack

/-- All rules: also those that need a total order or laws of arithmetic. -/
def allRules (zero one : α) : List (Rule α) :=
  safeRules ++ notLess ++ (balanceFor .mul ++ arithmeticPack zero one ++ reducePack)

/-- The laws of integers. -/
structure Num.IntLaws (N : Num α) (zero one : α) : Prop where
  laws : N.Laws
  total : N.Total
  add_assoc : ∀ a b c, N.add (N.add a b) c = N.add a (N.add b c)
  mul_assoc : ∀ a b c, N.mul (N.mul a b) c = N.mul a (N.mul b c)
  add_zero : ∀ a, N.add a zero = a ∧ N.add zero a = a
  mul_one : ∀ a, N.mul a one = a ∧ N.mul one a = a

omit [DecidableEq α] in
theorem lits_wf : (presentLit : Val α).Wf ∧ (missingLit : Val α).Wf ∧ ∀ v, (boolLit v : Val α).Wf := by
  refine ⟨⟨?_, ?_, ?_⟩, ⟨?_, ?_, ?_⟩, fun v => ⟨?_, ?_, ?_⟩⟩ <;> simp [presentLit, missingLit, boolLit, Elem.sort]

theorem pack_fit {N : Num α} {rs : List (Rule α)} {ss : List (Rule Unit)} (he : rs.map Rule.erase = ss)
    (hc : ss.all (fun s => s.shape) = true) (hl : ∀ r ∈ rs, r.dst.LitsOk) (hk : ∀ r ∈ rs, r.Keeps N) :
    ∀ r ∈ rs, r.Fit N := by
  intro r hr
  refine ⟨hk r hr, ?_, hl r hr⟩
  have h := List.all_eq_true.1 hc r.erase (he ▸ List.mem_map_of_mem hr)
  rw [shape_erase] at h
  simp only [Rule.shape, Bool.and_eq_true, List.all_eq_true, List.contains_iff_mem] at h
  exact h.1.2

theorem presence_fit (N : Num α) : ∀ r ∈ (presencePack ++ codegenPresencePack : List (Rule α)), r.Fit N := by
  have := lits_wf (α := α)
  refine pack_fit (ss := presencePack ++ codegenPresencePack) rfl (by decide +kernel) ?_ (presence_keeps N)
  simp only [presencePack, codegenPresencePack, hasRemoval, presenceAndRemoval, presenceOrRemoval,
    hasPropagation, hasPropagationFor, toOptionalPropagation, presenceAndOptional, presenceAndOrCombination, whereRules,
    andOrToWhere, insideWherePropagation, presenceAndOr, andOrToOr, whereToPresenceAnd, pa, pb, pc, pd, ptrue, pfalse, pcond,
    List.map_cons, List.map_nil, List.flatMap_cons,
    List.flatMap_nil, List.cons_append, List.nil_append, List.append_nil, List.mem_cons, List.not_mem_nil, or_false,
    forall_eq_or_imp, forall_eq, Pat.LitsOk, this, and_self]

theorem bool_fit {N : Num α} (hN : N.Laws) :
    ∀ r ∈ ((logicalNotComparison : List (Rule α)).take 3 ++ coreBoolComparison ++ logicalIf), r.Fit N := by
  have := lits_wf (α := α)
  refine pack_fit (ss := (logicalNotComparison : List (Rule Unit)).take 3 ++ coreBoolComparison ++ logicalIf) rfl
    (by decide +kernel) ?_ (bool_keeps hN)
  simp [logicalNotComparison, coreBoolComparison, logicalIf, Pat.LitsOk, this, pa, pb, pc, ptrue, pcond]

theorem balance_fit (N : Num α) : ∀ r ∈ ([.pand, .por, .bor, .band].flatMap balanceFor : List (Rule α)), r.Fit N := by
  refine pack_fit (ss := [.pand, .por, .bor, .band].flatMap balanceFor) rfl (by decide +kernel) ?_ (balance_keeps N)
  simp [balanceFor, Pat.LitsOk, pa, pb, pc, pd]

theorem short_circuit_fit (N : Num α) : ∀ r ∈ (shortCircuitPack : List (Rule α)), r.Fit N := by
  refine pack_fit (ss := shortCircuitPack) rfl (by decide +kernel) ?_ (short_circuit_keeps N)
  simp [shortCircuitPack, Pat.LitsOk, pa, pb, pcond]

theorem not_less_fit {N : Num α} (h : N.Total) : ∀ r ∈ (notLess : List (Rule α)), r.Fit N := by
  refine pack_fit (ss := notLess) rfl (by decide +kernel) ?_ (not_less_keeps_iff.2 h)
  simp [notLess, Pat.LitsOk, pa, pb]

theorem arith_fit {N : Num α} {zero one : α} (h : N.IntLaws zero one) :
    ∀ r ∈ (balanceFor .mul ++ arithmeticPack zero one ++ reducePack : List (Rule α)), r.Fit N := by
  refine pack_fit (ss := balanceFor .mul ++ arithmeticPack () () ++ reducePack) rfl (by decide +kernel) ?_ ?_
  · simp [balanceFor, arithmeticPack, reducePack, Pat.LitsOk, pa, pb, pc, pd]
  · simp only [List.mem_append]
    rintro r ((hr | hr) | hr)
    · exact balance_mul_keeps_iff.2 (fun a b c d => by simp only [h.mul_assoc, and_self]) r hr
    · exact arithmetic_keeps_iff.2 ⟨h.add_zero, h.mul_one⟩ r hr
    · exact reduce_keeps_iff.2 (fun a b c d => by simp only [h.add_assoc, and_self]) r hr

theorem safe_fit {N : Num α} (hN : N.Laws) : ∀ r ∈ (safeRules : List (Rule α)), r.Fit N := by
  intro r hr
  rcases List.mem_append.1 hr with hr | h
  · rcases List.mem_append.1 hr with hr | h
    · rcases List.mem_append.1 hr with h | h
      · exact presence_fit N r h
      · exact bool_fit hN r h
    · exact balance_fit N r h
  · exact short_circuit_fit N r h

/-- **Optimization keeps the value of an expression.**  Any number of applications of the rules, in any order, anywhere in an
expression, each accepted by the type check of the optimizer: the type stays the same, and for all inputs, if the expression
had a value, the optimized expression has the same value.  This holds for every scalar type, also with NaN; the rules that
depend on arithmetic or on totality of `<` are left out. -/
theorem optimize_keeps {N : Num α} (hN : N.Laws) {τ : Nat → Ty} {e e' : Ex α} (h : Steps N safeRules τ e e') (hl : e.LitsOk)
    {ρ : Nat → Val α} (hρ : ∀ k, (ρ k).Wf) (hτ : ∀ k, (ρ k).ty = τ k) :
    e'.type infer τ = e.type infer τ ∧ ∀ v, e.eval N ρ = some v → e'.eval N ρ = some v := by
  exact steps_eval (safe_fit hN) h hρ hτ hl

/-- The same for all rules if the scalar type obeys the laws of integers. -/
theorem optimize_keeps_int {N : Num α} {zero one : α} (hN : N.IntLaws zero one) {τ : Nat → Ty} {e e' : Ex α}
    (h : Steps N (allRules zero one) τ e e') (hl : e.LitsOk) {ρ : Nat → Val α} (hρ : ∀ k, (ρ k).Wf)
    (hτ : ∀ k, (ρ k).ty = τ k) :
    e'.type infer τ = e.type infer τ ∧ ∀ v, e.eval N ρ = some v → e'.eval N ρ = some v := by
  refine steps_eval (fun r hr => ?_) h hρ hτ hl
  rcases List.mem_append.1 hr with hr | h
  · rcases List.mem_append.1 hr with h | h
    · exact safe_fit hN.laws r h
    · exact not_less_fit hN.total r h
  · exact arith_fit hN r h

/-- `int32_t` and `int64_t` with wrapping arithmetic. -/
def intNum (w : Nat) : Num (BitVec w) where
  lt := BitVec.slt
  le := BitVec.sle
  eq a b := decide (a = b)
  ne a b := decide (a ≠ b)
  add := (· + ·)
  mul := (· * ·)

/-- Integers obey the laws. -/
theorem int_laws (w : Nat) : (intNum w).IntLaws 0 1 := by
  refine ⟨⟨?_, ?_⟩, ?_, BitVec.add_assoc, BitVec.mul_assoc, ?_, ?_⟩
  · intro a b
    simp only [intNum, BitVec.sle_eq_decide, BitVec.slt_eq_decide, ← BitVec.toInt_inj, Bool.or_eq_decide, decide_eq_true_eq]
    congr 1
    rw [eq_iff_iff]
    omega
  · intro a b
    simp [intNum]
  · intro a b
    simp only [intNum, BitVec.sle_eq_decide, BitVec.slt_eq_decide, ← decide_not]
    constructor <;> congr 1 <;> rw [eq_iff_iff] <;> omega
  · intro a; simp [intNum]
  · intro a; simp [intNum]

/-- Two steps on an expression over an array of integers:
`equal(not (x < y), true) & present`, first `not (x < y) → x >= y`, then `e & present → to_optional(e)`. -/
example :
    let N := intNum 32
    let arr : Ty := ⟨.arr, .num⟩
    let e : Ex (BitVec 32) :=
      .c2 .pand (.c2 .ceq (.c1 .bnot (.c2 .blt (.var 0) (.var 1))) (.lit (boolLit true))) (.lit presentLit)
    let e' : Ex (BitVec 32) := .c1 .toOpt (.c2 .ceq (.c2 .bge (.var 0) (.var 1)) (.lit (boolLit true)))
    let ρ : Nat → Val (BitVec 32) := fun k =>
      if k = 0 then ⟨arr, [some (.n 1), none, some (.n 3)]⟩ else ⟨arr, [some (.n 2), some (.n 5), some (.n 3)]⟩
    Steps N (allRules 0 1) (fun _ => arr) e e' ∧ e.LitsOk ∧
      e.eval N ρ = some ⟨⟨.arr, .unit⟩, [none, none, some .u]⟩ ∧ e'.eval N ρ = some ⟨⟨.arr, .unit⟩, [none, none, some .u]⟩ := by
  intro N arr e e' ρ
  refine ⟨?_, ⟨⟨⟨trivial, trivial⟩, lits_wf.2.2 true⟩, lits_wf.1⟩, by decide +kernel, by decide +kernel⟩
  refine Steps.step (Step.c2a (Step.c2a (Step.root ⟨.c1 .bnot (.c2 .blt pa pb), .c2 .bge pa pb, []⟩ ?_ (fun k => .var k)
    (fun _ => ⟨arr, none, false, none⟩) ?_ ?_ rfl))) (Steps.step (Step.root ⟨.c2 .pand pa pb, .c1 .toOpt pa,
    [(1, .alwaysPresentOptionalValue)]⟩ ?_ (fun k => if k = 0 then .c2 .ceq (.c2 .bge (.var 0) (.var 1)) (.lit (boolLit true))
      else .lit presentLit)
    (fun k => if k = 0 then ⟨⟨.arr, .unit⟩, none, false, some .ceq⟩ else ⟨⟨.opt, .unit⟩, some presentLit, true, none⟩) ?_ ?_ rfl)
    (Steps.refl _))
  · simp [allRules, notLess]
  · exact fun k _ => ⟨rfl, by simp⟩
  · intro c hc; cases hc
  · simp [allRules, safeRules, presencePack, presenceAndRemoval]
  · intro k hk
    simp only [Pat.vars, List.cons_append, List.nil_append, List.mem_cons, List.not_mem_nil, or_false] at hk
    rcases hk with rfl | rfl
    · exact ⟨rfl, by simp⟩
    · refine ⟨rfl, fun q hq => ?_⟩
      simp only [Nat.one_ne_zero, if_false, Option.some.injEq] at hq
      subst hq
      exact ⟨rfl, fun ρ _ _ v hv => by simpa [Pat.eval] using hv.symm⟩
  · intro c hc
    simp only [List.mem_singleton] at hc
    subst hc
    rfl

/-- Every rule of the packs is covered. -/
theorem all_rules_complete {zero one : α} : ∀ r ∈ (presencePack ++ codegenPresencePack ++ boolPack ++ balancePack ++
    arithmeticPack zero one ++ reducePack ++ shortCircuitPack : List (Rule α)), r ∈ (allRules zero one : List (Rule α)) := by
  intro r
  simp only [allRules, safeRules, boolPack, balancePack, logicalNotComparison, List.flatMap_cons, List.flatMap_nil,
    List.append_nil, List.take_append, List.mem_append, List.take_succ_cons, List.take_zero, List.take_nil, List.length_cons,
    List.length_nil, Nat.reduceAdd, Nat.sub_self]
  tauto

end Verif.Rules
