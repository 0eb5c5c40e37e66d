import Verif.Rules.StepLemmas

/-!
# The rules of the default optimizer keep values and types
-/

namespace Verif.Rules
variable {α : Type} [DecidableEq α]

/-! ## presence.cc -/

/-- No rule of presence.cc changes a value, for all types, sizes of arrays and values of the placeholders that satisfy the
conditions of the rule. -/
theorem presence_keeps (N : Num α) : ∀ r ∈ (presencePack ++ codegenPresencePack : List (Rule α)), r.Keeps N :=
  pack_keeps (ss := presencePack ++ codegenPresencePack) rfl (by decide +kernel) (presence_laws N)

/-- `(a & c) | (b & ~c) → to_optional(where(c, a, b))` on arrays. -/
example :
    let r : Rule Int := ⟨.c2 .por (.c2 .pand pa pc) (.c2 .pand pb (.c1 .pnotB pc)), .c1 .toOpt (.c3 .whr pc pa pb), [(2, .optionalLike)]⟩
    let N : Num Int := ⟨(· < ·), (· ≤ ·), (· == ·), (· != ·), (· + ·), (· * ·)⟩
    let ρ : Nat → Val Int := fun k =>
      if k = 0 then ⟨⟨.arr, .num⟩, [some (.n 1), none, some (.n 3)]⟩
      else if k = 1 then ⟨⟨.arr, .num⟩, [some (.n 4), some (.n 5), some (.n 6)]⟩
      else ⟨⟨.arr, .unit⟩, [some .u, some .u, none]⟩
    r ∈ (presencePack : List (Rule Int)) ∧ Cond.test .optionalLike (⟨(ρ 2).ty, none, false, none⟩ : Info Int) = true ∧
    r.src.eval N ρ = some ⟨⟨.arr, .num⟩, [some (.n 1), none, some (.n 6)]⟩ ∧
    r.dst.eval N ρ = some ⟨⟨.arr, .num⟩, [some (.n 1), none, some (.n 6)]⟩ := by
  refine ⟨?_, by decide +kernel, by decide +kernel, by decide +kernel⟩
  simp [presencePack, whereRules]

/-- presence.cc:372-384. -/
def andToAndOr : Rule α :=
  ⟨.c2 .por (.c2 .pand pa pc) pb, .c3 .pandor pa pc pb, [(0, .baseQType), (1, .baseQType), (2, .baseQType)]⟩

/-- A rule with one more condition. -/
def Rule.withCond (r : Rule α) (c : Nat × Cond) : Rule α := ⟨r.src, r.dst, r.conds ++ [c]⟩

/-- Types: all rules but three keep the type of every expression with exact backend signatures.
Missing: the three rules of `and_or_type_counterexample`. -/
theorem presence_types_partial : ∀ r ∈ (presencePack ++ codegenPresencePack : List (Rule α)),
    r ∈ [andOrToWhere, andToAndOr, andOrToOr] ∨ r.Typed sig := by
  have h : ∀ r ∈ (hasRemoval ++ presenceAndRemoval ++ presenceOrRemoval ++ hasPropagation ++ toOptionalPropagation ++
      presenceAndOptional ++ presenceAndOrCombination ++ (whereRules.take 1 ++ whereRules.drop 3) ++ insideWherePropagation ++
      presenceAndOr.drop 1 ++ codegenPresencePack : List (Rule α)), r.Typed sig :=
    pack_typed (ss := hasRemoval ++ presenceAndRemoval ++ presenceOrRemoval ++ hasPropagation ++ toOptionalPropagation ++
      presenceAndOptional ++ presenceAndOrCombination ++ (whereRules.take 1 ++ whereRules.drop 3) ++ insideWherePropagation ++
      presenceAndOr.drop 1 ++ codegenPresencePack) rfl (by decide +kernel)
  intro r hr
  simp only [presencePack, List.mem_append] at hr
  simp only [List.mem_append] at h
  rcases hr with (((((((((hr | hr) | hr) | hr) | hr) | hr) | hr) | hr) | hr) | hr) | hr
  any_goals (refine Or.inr (h r ?_); simp only [hr, true_or, or_true]; done)
  · simp only [whereRules, List.mem_cons, List.not_mem_nil, or_false] at hr
    rcases hr with rfl | rfl | rfl | rfl
    · exact Or.inr (h _ (by simp [whereRules]))
    · exact Or.inl (by simp)
    · exact Or.inl (by simp [andToAndOr])
    · exact Or.inr (h _ (by simp [whereRules]))
  · simp only [presenceAndOr, List.mem_cons, List.not_mem_nil, or_false] at hr
    rcases hr with rfl | rfl
    · exact Or.inl (by simp)
    · exact Or.inr (h _ (by simp [presenceAndOr]))

/-- What a condition sees of a leaf of type `t`. -/
def leafInfo (t : Ty) : Info α := ⟨t, none, false, none⟩

/-- The rules `_presence_and_or(a, c, b & ~c) → where(c, a, b)`, `(a & c) | b → _presence_and_or(a, c, b)` and
`_presence_and_or(a, b, c) → a | c` change the type for some arguments: scalars `a` and `b`; scalar `a` and `c` with optional `b`;
scalar `a`, a literal `b` that is present and optional `c`.  The optimizer reports this as an internal error. -/
theorem and_or_type_counterexample :
    ¬ (andOrToWhere : Rule α).Typed sig ∧ ¬ (andToAndOr : Rule α).Typed sig ∧ ¬ (andOrToOr : Rule α).Typed sig := by
  refine ⟨fun h => ?_, fun h => ?_, fun h => ?_⟩
  · have := h (fun k => leafInfo (if k = 2 then ⟨.opt, .unit⟩ else ⟨.sc, .bool⟩)) (by simp [leafInfo])
      (by simp [Rule.Applies, andOrToWhere]) ⟨.opt, .bool⟩ (by rfl)
    simp [andOrToWhere, Pat.type, infer, common, leafInfo, Wr.max] at this
  · have := h (fun k => leafInfo (if k = 2 then ⟨.sc, .unit⟩ else if k = 0 then ⟨.sc, .bool⟩ else ⟨.opt, .bool⟩)) (by simp [leafInfo])
      (by simp [Rule.Applies, andToAndOr, leafInfo, Cond.test, isBaseQType]) ⟨.sc, .bool⟩ (by rfl)
    simp [andToAndOr, Pat.type, infer, leafInfo] at this
  · have := h (fun k => if k = 1 then ⟨⟨.opt, .unit⟩, some presentLit, true, none⟩ else
        leafInfo (if k = 0 then ⟨.sc, .bool⟩ else ⟨.opt, .bool⟩))
      (by
        intro k _ q
        split
        · intro h; simp only [Option.some.injEq] at h; subst h; rfl
        · simp [leafInfo])
      (by simp [Rule.Applies, andOrToOr, Cond.test, isAlwaysPresent, isAlwaysPresentType, isAlwaysPresentOptionalValue,
            presentLit, isPresent, Val.row]) ⟨.opt, .bool⟩ (by rfl)
    simp [andOrToOr, Pat.type, infer, leafInfo] at this

/-- `(a & c) | b → _presence_and_or(a, c, b)` keeps the type if `c` is not a scalar; for scalars the inner `a & c` is removed by
an earlier rule. -/
theorem and_to_and_or_typed : (andToAndOr.withCond (2, .optionalLike) : Rule α).Typed sig :=
  pack_typed (α := α) (f := sig) (rs := [andToAndOr.withCond (2, .optionalLike)]) (ss := [andToAndOr.withCond (2, .optionalLike)]) rfl
    (by decide +kernel) (andToAndOr.withCond (2, .optionalLike)) (List.mem_singleton.2 rfl)

/-! ## bool.cc -/

/-- All rules of bool.cc but those for `not (a < b)` and `not (a <= b)` keep values. -/
theorem bool_keeps {N : Num α} (hN : N.Laws) :
    ∀ r ∈ ((logicalNotComparison : List (Rule α)).take 3 ++ coreBoolComparison ++ logicalIf), r.Keeps N := by
  refine pack_keeps (ss := (logicalNotComparison : List (Rule Unit)).take 3 ++ coreBoolComparison ++ logicalIf) rfl
    (by decide +kernel) ?_
  simp only [List.mem_append]
  rintro r ((h | h) | h)
  · exact not_comparison_laws hN r h
  · exact core_bool_laws hN r h
  · exact logical_if_laws N r h

/-- A scalar. -/
def scalar (a : α) : Val α := ⟨⟨.sc, .num⟩, [some (.n a)]⟩

theorem scalar_wf (a : α) : (scalar a).Wf :=
  ⟨by simp [scalar], by simp [scalar], by simp [scalar, Elem.sort]⟩

/-- The rules for `not (a < b)` and `not (a <= b)` keep values exactly if any two values are comparable. -/
theorem not_less_keeps_iff {N : Num α} : (∀ r ∈ (notLess : List (Rule α)), r.Keeps N) ↔ N.Total := by
  constructor
  · intro h a b
    have go : ∀ r ∈ (notLess : List (Rule α)), ∀ v, r.src.eval N (fun k => scalar (if k = 0 then a else b)) = some v →
        r.dst.eval N (fun k => scalar (if k = 0 then a else b)) = some v := by
      intro r hr v
      refine h r hr (fun k => leafInfo ⟨.sc, .num⟩) _ (fun k _ => scalar_wf _) (fun k _ => ⟨rfl, by simp [leafInfo]⟩) ?_ ⟨.sc, .bool⟩
        ?_ ?_ v
      all_goals
        simp only [notLess, List.mem_cons, List.not_mem_nil, or_false] at hr
        rcases hr with rfl | rfl <;> first | rfl | (intro c hc; cases hc)
    have h1 := go ⟨.c1 .bnot (.c2 .blt pa pb), .c2 .bge pa pb, []⟩ (by simp [notLess])
      ⟨⟨.sc, .bool⟩, [some (.b (!N.lt a b))]⟩ rfl
    have h2 := go ⟨.c1 .bnot (.c2 .ble pa pb), .c2 .bgt pa pb, []⟩ (by simp [notLess])
      ⟨⟨.sc, .bool⟩, [some (.b (!N.le a b))]⟩ rfl
    have e1 : (Pat.c2 .bge pa pb : Pat α).eval N (fun k => scalar (if k = 0 then a else b)) =
        some ⟨⟨.sc, .bool⟩, [some (.b (N.le b a))]⟩ := rfl
    have e2 : (Pat.c2 .bgt pa pb : Pat α).eval N (fun k => scalar (if k = 0 then a else b)) =
        some ⟨⟨.sc, .bool⟩, [some (.b (N.lt b a))]⟩ := rfl
    rw [e1] at h1
    rw [e2] at h2
    simp only [Option.some.injEq, Val.mk.injEq, List.cons.injEq, Elem.b.injEq, true_and, and_true] at h1 h2
    exact ⟨h1, h2⟩
  · intro hN
    exact pack_keeps (ss := notLess) rfl (by decide +kernel) (not_less_laws hN)

/-- Floating point comparison: `none` is NaN. -/
def nanNum : Num (Option Int) where
  lt a b := match a, b with | some a, some b => decide (a < b) | _, _ => false
  le a b := match a, b with | some a, some b => decide (a ≤ b) | _, _ => false
  eq a b := match a, b with | some a, some b => decide (a = b) | _, _ => false
  ne a b := match a, b with | some a, some b => decide (a ≠ b) | _, _ => true
  add a b := match a, b with | some a, some b => some (a + b) | _, _ => none
  mul a b := match a, b with | some a, some b => some (a * b) | _, _ => none

/-- With NaN the value changes: `not (NaN < 1)` is true, `NaN >= 1` is false. -/
theorem not_less_counterexample : nanNum.Laws ∧ ¬ ∀ r ∈ (boolPack : List (Rule (Option Int))), r.Keeps nanNum := by
  refine ⟨⟨?_, ?_⟩, fun h => ?_⟩
  · intro a b
    cases a <;> cases b <;> simp [nanNum, Int.le_iff_lt_or_eq]
  · intro a b
    cases a <;> cases b <;> simp [nanNum]
  · have := not_less_keeps_iff.1 (fun r hr => h r (by simp [boolPack, logicalNotComparison, hr]))
    have := (this none (some 1)).1
    simp [nanNum] at this

/-- No rule of bool.cc changes a type. -/
theorem bool_typed : ∀ r ∈ (boolPack : List (Rule α)), r.Typed sig :=
  pack_typed (ss := boolPack) rfl (by decide +kernel)

/-! ## balance.cc, arithmetic.cc, reduce.cc, short_circuit_where.cc -/

/-- Balancing of chains of `&`, `|`, `logical_or`, `logical_and` keeps values. -/
theorem balance_keeps (N : Num α) : ∀ r ∈ ([.pand, .por, .bor, .band].flatMap balanceFor : List (Rule α)), r.Keeps N := by
  refine pack_keeps (ss := [.pand, .por, .bor, .band].flatMap balanceFor) rfl (by decide +kernel) ?_
  intro r hr
  have : r ∈ ([.pand, .por].flatMap balanceFor : List (Rule α)) ++ [.bor, .band].flatMap balanceFor := hr
  rcases List.mem_append.1 this with h | h
  · exact balance_presence_laws N r h
  · exact balance_bool_laws N r h

/-- The values of the placeholders are scalars. -/
def scalars (a b c d : α) (k : Nat) : Val α := scalar (if k = 0 then a else if k = 1 then b else if k = 2 then c else d)

theorem keeps_scalars {N : Num α} {r : Rule α} (h : r.Keeps N) (hc : r.conds = []) (a b c d : α)
    (ht : r.src.type infer (fun _ => ⟨.sc, .num⟩) = some ⟨.sc, .num⟩)
    (ht' : r.dst.type infer (fun _ => ⟨.sc, .num⟩) = some ⟨.sc, .num⟩) {v : Val α}
    (hv : r.src.eval N (scalars a b c d) = some v) : r.dst.eval N (scalars a b c d) = some v :=
  h (fun _ => leafInfo ⟨.sc, .num⟩) _ (fun _ _ => scalar_wf _) (fun _ _ => ⟨rfl, by simp [leafInfo]⟩)
    (by simp [Rule.Applies, hc]) _ ht ht' v hv

/-- Balancing of products keeps values exactly if the two ways to multiply four numbers agree with the balanced one. -/
theorem balance_mul_keeps_iff {N : Num α} : (∀ r ∈ (balanceFor .mul : List (Rule α)), r.Keeps N) ↔
    ∀ a b c d, N.mul a (N.mul b (N.mul c d)) = N.mul (N.mul a b) (N.mul c d) ∧
      N.mul (N.mul (N.mul a b) c) d = N.mul (N.mul a b) (N.mul c d) := by
  constructor
  · intro h a b c d
    have h1 := keeps_scalars (h _ (by simp [balanceFor]; exact Or.inl rfl)) rfl a b c d rfl rfl
      (v := scalar (N.mul a (N.mul b (N.mul c d)))) rfl
    have h2 := keeps_scalars (h _ (by simp [balanceFor]; exact Or.inr rfl)) rfl a b c d rfl rfl
      (v := scalar (N.mul (N.mul (N.mul a b) c) d)) rfl
    have e : (Pat.c2 .mul (.c2 .mul pa pb) (.c2 .mul pc pd) : Pat α).eval N (scalars a b c d) =
        some (scalar (N.mul (N.mul a b) (N.mul c d))) := rfl
    rw [e] at h1 h2
    simp only [scalar, Option.some.injEq, Val.mk.injEq, List.cons.injEq, Elem.n.injEq, true_and, and_true] at h1 h2
    exact ⟨h1.symm, h2.symm⟩
  · intro h
    exact pack_keeps (ss := balanceFor .mul) rfl (by decide +kernel) (balance_mul_laws' h)

/-- `math._add4` is `((a + b) + c) + d`: the rules of reduce.cc keep values exactly if the other ways to add four numbers agree
with that. -/
theorem reduce_keeps_iff {N : Num α} : (∀ r ∈ (reducePack : List (Rule α)), r.Keeps N) ↔
    ∀ a b c d, N.add (N.add a b) (N.add c d) = N.add (N.add (N.add a b) c) d ∧
      N.add a (N.add b (N.add c d)) = N.add (N.add (N.add a b) c) d := by
  constructor
  · intro h a b c d
    have h1 := keeps_scalars (h _ (by simp [reducePack]; exact Or.inl rfl)) rfl a b c d rfl rfl
      (v := scalar (N.add (N.add a b) (N.add c d))) rfl
    have h2 := keeps_scalars (h _ (by simp [reducePack]; exact Or.inr (Or.inr rfl))) rfl a b c d rfl rfl
      (v := scalar (N.add a (N.add b (N.add c d)))) rfl
    have e : (Pat.c4 .add4 pa pb pc pd : Pat α).eval N (scalars a b c d) =
        some (scalar (N.add (N.add (N.add a b) c) d)) := rfl
    rw [e] at h1 h2
    simp only [scalar, Option.some.injEq, Val.mk.injEq, List.cons.injEq, Elem.n.injEq, true_and, and_true] at h1 h2
    exact ⟨h1.symm, h2.symm⟩
  · intro h
    exact pack_keeps (ss := reducePack) rfl (by decide +kernel) (reduce_laws' h)

/-- Removal of `+ 0` and `* 1` keeps values exactly if these are neutral. -/
theorem arithmetic_keeps_iff {N : Num α} {zero one : α} : (∀ r ∈ (arithmeticPack zero one : List (Rule α)), r.Keeps N) ↔
    (∀ a, N.add a zero = a ∧ N.add zero a = a) ∧ (∀ a, N.mul a one = a ∧ N.mul one a = a) := by
  constructor
  · intro h
    have go : ∀ (r : Rule α), r ∈ (arithmeticPack zero one : List (Rule α)) → r.conds = [(0, .sameQType ⟨.sc, .num⟩)] → r.dst = pa →
        r.src.type infer (fun _ => ⟨.sc, .num⟩) = some ⟨.sc, .num⟩ → ∀ a x, r.src.eval N (fun _ => scalar a) = some (scalar x) →
        x = a := by
      intro r hr hc hd ht a x hx
      have := h r hr (fun _ => leafInfo ⟨.sc, .num⟩) (fun _ => scalar a) (fun _ _ => scalar_wf _)
        (fun _ _ => ⟨rfl, by simp [leafInfo]⟩) (by simp [Rule.Applies, hc, Cond.test, leafInfo]) _ ht (by rw [hd]; rfl) _ hx
      rw [hd] at this
      simpa [Pat.eval, scalar] using this.symm
    refine ⟨fun a => ⟨?_, ?_⟩, fun a => ⟨?_, ?_⟩⟩
    · exact go ⟨.c2 .add pa (.lit (numLit .sc zero)), pa, [(0, .sameQType ⟨.sc, .num⟩)]⟩ (by simp [arithmeticPack]) rfl rfl rfl a _ rfl
    · exact go ⟨.c2 .add (.lit (numLit .sc zero)) pa, pa, [(0, .sameQType ⟨.sc, .num⟩)]⟩ (by simp [arithmeticPack]) rfl rfl rfl a _ rfl
    · exact go ⟨.c2 .mul pa (.lit (numLit .sc one)), pa, [(0, .sameQType ⟨.sc, .num⟩)]⟩ (by simp [arithmeticPack]) rfl rfl rfl a _ rfl
    · exact go ⟨.c2 .mul (.lit (numLit .sc one)) pa, pa, [(0, .sameQType ⟨.sc, .num⟩)]⟩ (by simp [arithmeticPack]) rfl rfl rfl a _ rfl
  · rintro ⟨h0, h1⟩
    exact pack_keeps (ss := arithmeticPack () ()) rfl (by decide +kernel) (arithmetic_laws h0 h1)

/-- `core.where` with an optional condition can become `core._short_circuit_where`, which can be replaced by a branch. -/
theorem short_circuit_keeps (N : Num α) : ∀ r ∈ (shortCircuitPack : List (Rule α)), r.Keeps N :=
  pack_keeps (ss := shortCircuitPack) rfl (by decide +kernel) (short_circuit_laws N)

/-- `where(cond, a, b)` with a missing condition. -/
example :
    let N : Num Int := ⟨(· < ·), (· ≤ ·), (· == ·), (· != ·), (· + ·), (· * ·)⟩
    (Pat.c3 .scw (.lit missingLit) (.lit (numLit .sc 1)) (.lit (numLit .opt 2))).eval N (fun _ => missingLit) =
      some (numLit .opt (2 : Int)) := by decide +kernel

/-- No rule of balance.cc, arithmetic.cc, reduce.cc, short_circuit_where.cc changes a type. -/
theorem other_typed {zero one : α} :
    ∀ r ∈ (balancePack ++ arithmeticPack zero one ++ reducePack ++ shortCircuitPack : List (Rule α)), r.Typed sig :=
  pack_typed (ss := balancePack ++ arithmeticPack () () ++ reducePack ++ shortCircuitPack) rfl (by decide +kernel)

end Verif.Rules
