import Verif.Rules.RulesLemmas

/-!
# Types by enumeration, values by laws for one row
-/

namespace Verif.Rules
variable {α : Type}

/-! ## Enumeration of types -/

def allTys : List Ty :=
  [⟨.sc, .unit⟩, ⟨.sc, .bool⟩, ⟨.sc, .num⟩, ⟨.opt, .unit⟩, ⟨.opt, .bool⟩, ⟨.opt, .num⟩, ⟨.arr, .unit⟩, ⟨.arr, .bool⟩,
   ⟨.arr, .num⟩]

theorem mem_allTys (t : Ty) : t ∈ allTys := by
  obtain ⟨w, s⟩ := t
  cases w <;> cases s <;> decide

/-- An assignment of types to some placeholders. -/
abbrev Env := List (Nat × Ty)

/-- All assignments that extend `E` for which the pattern is accepted, with the type of the pattern. -/
def Pat.solve (f : Op → List Ty → Option Ty) (cand : Nat → List Ty) : Pat α → Env → List (Env × Ty)
  | .var k, E =>
    match E.lookup k with
    | some t => [(E, t)]
    | none => (cand k).map (fun t => ((k, t) :: E, t))
  | .lit v, E => [(E, v.ty)]
  | .c1 o x, E => (x.solve f cand E).filterMap (fun p => (f o [p.2]).map (fun t => (p.1, t)))
  | .c2 o (.var k) y, E =>
    (y.solve f cand E).flatMap (fun q => ((Pat.var k : Pat α).solve f cand q.1).filterMap (fun p =>
      (f o [p.2, q.2]).map (fun t => (p.1, t))))
  | .c2 o x y, E =>
    (x.solve f cand E).flatMap (fun p => (y.solve f cand p.1).filterMap (fun q =>
      (f o [p.2, q.2]).map (fun t => (q.1, t))))
  | .c3 o x y z, E =>
    (x.solve f cand E).flatMap (fun p => (y.solve f cand p.1).flatMap (fun q => (z.solve f cand q.1).filterMap (fun r =>
      (f o [p.2, q.2, r.2]).map (fun t => (r.1, t)))))
  | .c4 o x y z u, E =>
    (x.solve f cand E).flatMap (fun p => (y.solve f cand p.1).flatMap (fun q => (z.solve f cand q.1).flatMap (fun r =>
      (u.solve f cand r.1).filterMap (fun s => (f o [p.2, q.2, r.2, s.2]).map (fun t => (s.1, t))))))

/-- `E'` extends `E` and agrees with `τ`. -/
structure Ext (τ : Nat → Ty) (E E' : Env) (ks : List Nat) : Prop where
  agree : ∀ k t, E'.lookup k = some t → τ k = t
  mono : ∀ k, (E.lookup k).isSome → (E'.lookup k).isSome
  dom : ∀ k ∈ ks, (E'.lookup k).isSome

theorem Ext.append {τ : Nat → Ty} {E E' E'' : Env} {ks ks' : List Nat} (h : Ext τ E E' ks) (h' : Ext τ E' E'' ks') :
    Ext τ E E'' (ks ++ ks') :=
  ⟨h'.agree, fun k hk => h'.mono k (h.mono k hk), fun k hk => by
    rcases List.mem_append.1 hk with hk | hk
    · exact h'.mono k (h.dom k hk)
    · exact h'.dom k hk⟩

theorem Ext.sub {τ : Nat → Ty} {E E' : Env} {ks ks' : List Nat} (h : Ext τ E E' ks) (hs : ∀ k ∈ ks', k ∈ ks) :
    Ext τ E E' ks' := ⟨h.agree, h.mono, fun k hk => h.dom k (hs k hk)⟩

theorem solve_sound {f : Op → List Ty → Option Ty} {cand : Nat → List Ty} {τ : Nat → Ty} : ∀ (p : Pat α) {E : Env} {T : Ty},
    (∀ k ∈ p.vars, τ k ∈ cand k) → (∀ k t, E.lookup k = some t → τ k = t) → p.type f τ = some T →
    ∃ E', (E', T) ∈ p.solve f cand E ∧ Ext τ E E' p.vars
  | .var k, E, T, hc, hE, ht => by
    simp only [Pat.type, Option.some.injEq] at ht
    unfold Pat.solve
    split
    · rename_i t hl
      refine ⟨E, by simp [← ht, hE k t hl], hE, fun _ h => h, ?_⟩
      intro j hj
      simp only [Pat.vars, List.mem_singleton] at hj
      rw [hj, hl]; rfl
    · rename_i hl
      refine ⟨(k, τ k) :: E, ?_, ?_, ?_, ?_⟩
      · simp only [List.mem_map]
        exact ⟨τ k, hc k (by simp [Pat.vars]), by rw [ht]⟩
      · intro j t hj
        simp only [List.lookup_cons] at hj
        split at hj
        · rename_i h; simp only [beq_iff_eq] at h; subst h; simpa using hj
        · exact hE j t hj
      · intro j hj
        simp only [List.lookup_cons]
        split
        · rfl
        · exact hj
      · simp [Pat.vars, List.lookup_cons]
  | .lit v, E, T, hc, hE, ht => by
    simp only [Pat.type, Option.some.injEq] at ht
    exact ⟨E, by simp [Pat.solve, ht], hE, fun _ h => h, by simp [Pat.vars]⟩
  | .c1 o x, E, T, hc, hE, ht => by
    simp only [Pat.type, Option.bind_eq_bind, Option.bind_eq_some_iff] at ht
    obtain ⟨t1, h1, ht⟩ := ht
    obtain ⟨E1, m1, e1⟩ := solve_sound x hc hE h1
    refine ⟨E1, ?_, e1⟩
    simp only [Pat.solve, List.mem_filterMap]
    exact ⟨_, m1, by simp [ht]⟩
  | .c2 o x y, E, T, hc, hE, ht => by
    simp only [Pat.type, Option.bind_eq_bind, Option.bind_eq_some_iff] at ht
    obtain ⟨t1, h1, t2, h2, ht⟩ := ht
    simp only [Pat.vars, List.mem_append] at hc
    unfold Pat.solve
    split
    · simp_all
    · simp_all
    · simp_all
    · rename_i o' k y' heq
      simp only [Pat.c2.injEq] at heq
      obtain ⟨rfl, rfl, rfl⟩ := heq
      obtain ⟨E2, m2, e2⟩ := solve_sound y (fun k hk => hc k (Or.inr hk)) hE h2
      obtain ⟨E1, m1, e1⟩ := solve_sound (.var k) (fun k hk => hc k (Or.inl hk)) e2.agree h1
      refine ⟨E1, ?_, (e2.append e1).sub (by simp [Pat.vars, or_comm])⟩
      simp only [List.mem_flatMap, List.mem_filterMap]
      exact ⟨_, m2, _, m1, by simp [ht]⟩
    · rename_i o' x' y' _ heq
      simp only [Pat.c2.injEq] at heq
      obtain ⟨rfl, rfl, rfl⟩ := heq
      obtain ⟨E1, m1, e1⟩ := solve_sound x (fun k hk => hc k (Or.inl hk)) hE h1
      obtain ⟨E2, m2, e2⟩ := solve_sound y (fun k hk => hc k (Or.inr hk)) e1.agree h2
      refine ⟨E2, ?_, e1.append e2⟩
      simp only [List.mem_flatMap, List.mem_filterMap]
      exact ⟨_, m1, _, m2, by simp [ht]⟩
    · simp_all
    · simp_all
  | .c3 o x y z, E, T, hc, hE, ht => by
    simp only [Pat.type, Option.bind_eq_bind, Option.bind_eq_some_iff] at ht
    obtain ⟨t1, h1, t2, h2, t3, h3, ht⟩ := ht
    simp only [Pat.vars, List.mem_append] at hc
    obtain ⟨E1, m1, e1⟩ := solve_sound x (fun k hk => hc k (Or.inl (Or.inl hk))) hE h1
    obtain ⟨E2, m2, e2⟩ := solve_sound y (fun k hk => hc k (Or.inl (Or.inr hk))) e1.agree h2
    obtain ⟨E3, m3, e3⟩ := solve_sound z (fun k hk => hc k (Or.inr hk)) e2.agree h3
    refine ⟨E3, ?_, (e1.append e2).append e3⟩
    simp only [Pat.solve, List.mem_flatMap, List.mem_filterMap]
    exact ⟨_, m1, _, m2, _, m3, by simp [ht]⟩
  | .c4 o x y z u, E, T, hc, hE, ht => by
    simp only [Pat.type, Option.bind_eq_bind, Option.bind_eq_some_iff] at ht
    obtain ⟨t1, h1, t2, h2, t3, h3, t4, h4, ht⟩ := ht
    simp only [Pat.vars, List.mem_append] at hc
    obtain ⟨E1, m1, e1⟩ := solve_sound x (fun k hk => hc k (Or.inl (Or.inl (Or.inl hk)))) hE h1
    obtain ⟨E2, m2, e2⟩ := solve_sound y (fun k hk => hc k (Or.inl (Or.inl (Or.inr hk)))) e1.agree h2
    obtain ⟨E3, m3, e3⟩ := solve_sound z (fun k hk => hc k (Or.inl (Or.inr hk))) e2.agree h3
    obtain ⟨E4, m4, e4⟩ := solve_sound u (fun k hk => hc k (Or.inr hk)) e3.agree h4
    refine ⟨E4, ?_, ((e1.append e2).append e3).append e4⟩
    simp only [Pat.solve, List.mem_flatMap, List.mem_filterMap]
    exact ⟨_, m1, _, m2, _, m3, _, m4, by simp [ht]⟩

theorem type_congr {f : Op → List Ty → Option Ty} {τ τ' : Nat → Ty} : ∀ (p : Pat α), (∀ k ∈ p.vars, τ k = τ' k) →
    p.type f τ = p.type f τ'
  | .var k, h => by simp [Pat.type, h k (by simp [Pat.vars])]
  | .lit v, h => rfl
  | .c1 o x, h => by simp [Pat.type, type_congr x h]
  | .c2 o x y, h => by
    simp only [Pat.vars, List.mem_append] at h
    simp [Pat.type, type_congr x (fun k hk => h k (Or.inl hk)), type_congr y (fun k hk => h k (Or.inr hk))]
  | .c3 o x y z, h => by
    simp only [Pat.vars, List.mem_append] at h
    simp [Pat.type, type_congr x (fun k hk => h k (Or.inl (Or.inl hk))), type_congr y (fun k hk => h k (Or.inl (Or.inr hk))),
      type_congr z (fun k hk => h k (Or.inr hk))]
  | .c4 o x y z t, h => by
    simp only [Pat.vars, List.mem_append] at h
    simp [Pat.type, type_congr x (fun k hk => h k (Or.inl (Or.inl (Or.inl hk)))),
      type_congr y (fun k hk => h k (Or.inl (Or.inl (Or.inr hk)))), type_congr z (fun k hk => h k (Or.inl (Or.inr hk))),
      type_congr t (fun k hk => h k (Or.inr hk))]

/-- What a condition says about the type. -/
def Cond.tyOk : Cond → Ty → Bool
  | .alwaysPresentType, t => t.w == .sc
  | .alwaysPresentOptionalValue, t | .alwaysAbsentOptionalValue, t => t.w == .opt
  | .alwaysPresent, t => t.w == .sc || t.w == .opt
  | .literal, _ | .literalOrPresence, _ | .notBoolLit _, _ | .eqTrueWillBeOptimized, _ => true
  | .optionalLike, t => t.w == .opt || t.w == .arr
  | .baseQType, t => t.w == .sc || t.w == .opt
  | .presentMask, t => t == ⟨.sc, .unit⟩ || t == ⟨.opt, .unit⟩
  | .boolLit _, t => t == ⟨.sc, .bool⟩ || t == ⟨.opt, .bool⟩
  | .scalarBool, t => t == ⟨.sc, .bool⟩
  | .optionalUnit, t => t == ⟨.opt, .unit⟩
  | .sameQType u, t => t == u

theorem Cond.tyOk_of_test [DecidableEq α] {c : Cond} {i : Info α} (hq : ∀ q, i.qvalue = some q → q.ty = i.ty)
    (h : c.test i = true) : c.tyOk i.ty = true := by
  have hopt : isAlwaysPresentOptionalValue i = true → i.ty.w = .opt := by
    intro h
    simp only [isAlwaysPresentOptionalValue] at h
    split at h
    · rename_i q hv
      simp only [Bool.and_eq_true, beq_iff_eq] at h
      rw [← hq q hv]; exact h.1
    · simp at h
  cases c
  case alwaysPresentOptionalValue => simpa [Cond.tyOk] using hopt h
  case alwaysPresent =>
    simp only [Cond.test, isAlwaysPresent, Bool.or_eq_true, isAlwaysPresentType] at h
    simp only [Cond.tyOk, Bool.or_eq_true, beq_iff_eq]
    rcases h with h | h
    · exact Or.inl (by simpa using h)
    · exact Or.inr (hopt h)
  case alwaysAbsentOptionalValue =>
    simp only [Cond.test, isAlwaysAbsentOptionalValue] at h
    split at h
    · rename_i q hv
      simp only [Bool.and_eq_true, beq_iff_eq] at h
      simp only [Cond.tyOk, beq_iff_eq]
      rw [← hq q hv]; exact h.1
    · simp at h
  case presentMask =>
    simp only [Cond.test, isPresentMask, isAlwaysPresent, isPresenceType, isAlwaysPresentType, Bool.and_eq_true, Bool.or_eq_true,
      beq_iff_eq] at h
    simp only [Cond.tyOk, Bool.or_eq_true, beq_iff_eq]
    rw [h.2]
    rcases h.1 with h1 | h1
    · simp [h1]
    · simp [hopt h1]
  case boolLit v =>
    simp only [Cond.test, isBoolLit, Bool.and_eq_true, Bool.or_eq_true, beq_iff_eq] at h
    simp only [Cond.tyOk, Bool.or_eq_true, beq_iff_eq]
    rcases h.2 with h1 | h1
    · exact Or.inl (hq _ h1).symm
    · exact Or.inr (hq _ h1).symm
  all_goals
    simp only [Cond.test, isAlwaysPresentType, isOptionalLikeNode, isBaseQType, isScalarBool, isOptionalUnit, isLiteral] at h
    simp_all [Cond.tyOk]

/-- The rule is well formed: literals are scalars or optionals, all placeholders occur on the left-hand side. -/
def Rule.shape (r : Rule α) : Bool :=
  r.src.flatLits && r.dst.flatLits && r.dst.vars.all (r.src.vars.contains ·) && r.conds.all (fun c => r.src.vars.contains c.1)

/-- The types of a placeholder that satisfy the conditions. -/
def Rule.cand (r : Rule α) (k : Nat) : List Ty := allTys.filter (fun t => r.conds.all (fun c => c.1 != k || c.2.tyOk t))

/-- Types of all placeholders. -/
def Env.get (E : Env) (k : Nat) : Ty := (E.lookup k).getD ⟨.sc, .unit⟩

/-- For all types for which the left-hand side is accepted, `fact`. -/
def Rule.check (r : Rule α) (f : Op → List Ty → Option Ty) (fact : (Nat → Ty) → Option Ty → Bool) : Bool :=
  (r.src.solve f r.cand []).all (fun p => fact (Env.get p.1) (some p.2))

theorem Rule.check_sound [DecidableEq α] {r : Rule α} {f : Op → List Ty → Option Ty} {fact : (Nat → Ty) → Option Ty → Bool}
    (hs : r.shape = true) (h : r.check f fact = true) {σ : Nat → Info α}
    (hq : ∀ k ∈ r.src.vars, ∀ q, (σ k).qvalue = some q → q.ty = (σ k).ty) (ha : r.Applies σ) {T : Ty}
    (ht : r.src.type f (fun k => (σ k).ty) = some T) :
    ∃ τ, (∀ k ∈ r.src.vars, τ k = (σ k).ty) ∧ fact τ (some T) = true := by
  simp only [Rule.shape, Bool.and_eq_true, List.all_eq_true, List.contains_iff_mem] at hs
  obtain ⟨E, m, e⟩ := solve_sound (cand := r.cand) (E := []) r.src (fun k hk => by
    simp only [Rule.cand, List.mem_filter, mem_allTys, true_and, List.all_eq_true, Bool.or_eq_true, bne_iff_ne, ne_eq]
    intro c hc
    by_cases hck : c.1 = k
    · right
      subst hck
      exact Cond.tyOk_of_test (hq _ hk) (ha c hc)
    · exact Or.inl hck) (by simp) ht
  refine ⟨Env.get E, fun k hk => ?_, ?_⟩
  · obtain ⟨t, ht⟩ := Option.isSome_iff_exists.1 (e.dom k hk)
    rw [e.agree k t ht, Env.get, ht]
    rfl
  · simp only [Rule.check, List.all_eq_true] at h
    exact h _ m

/-- The types agree. -/
def Rule.sameTy (r : Rule α) (τ : Nat → Ty) (T : Option Ty) : Bool := r.dst.type infer τ == T

theorem Rule.typed_of_check [DecidableEq α] {r : Rule α} {f : Op → List Ty → Option Ty}
    (h : (r.shape && r.check f r.sameTy) = true) : r.Typed f := by
  rw [Bool.and_eq_true] at h
  intro σ hq ha T ht
  obtain ⟨τ, h1, h2⟩ := r.check_sound h.1 h.2 hq ha ht
  have hs := h.1
  simp only [Rule.shape, Bool.and_eq_true, List.all_eq_true, List.contains_iff_mem] at hs
  simp only [Rule.sameTy, beq_iff_eq] at h2
  rw [← h2]
  exact type_congr _ (fun k hk => (h1 k (hs.1.2 k hk)).symm)

/-! ## One row -/

/-- A row of a value of type `t`. -/
structure RowOk (t : Ty) (x : Option (Elem α)) : Prop where
  sort : ∀ y, x = some y → y.sort = t.s
  present : t.w = .sc → x ≠ none

theorem Val.Wf.rowOk {v : Val α} (h : v.Wf) (i : Nat) (hi : v.ty.w = .arr → i < v.rows.length) : RowOk v.ty (v.row i) := by
  have hmem : v.row i ∈ v.rows := by
    unfold Val.row
    split
    · rename_i hw
      simp [hi hw]
    · rename_i hw
      have := h.single hw
      simp [show 0 < v.rows.length by omega]
  exact ⟨fun y hy => h.sorts y (hy ▸ hmem), fun hw => h.present hw _ hmem⟩

/-- What a condition says about a row. -/
def Cond.rowOk : Cond → Option (Elem α) → Prop
  | .alwaysPresentType, x | .alwaysPresentOptionalValue, x | .alwaysPresent, x => x ≠ none
  | .alwaysAbsentOptionalValue, x => x = none
  | .presentMask, x => x = some .u
  | .boolLit v, x => x = some (.b v)
  | .scalarBool, x => ∃ v, x = some (.b v)
  | _, _ => True

theorem isPresent_row {v : Val α} (hw : v.ty.w = .opt) (h : isPresent v = true) (i : Nat) : v.row i ≠ none := by
  rw [row_flat (by simp [hw]) i 0]
  intro hn
  simp [isPresent, hn] at h

theorem Cond.rowOk_of_test [DecidableEq α] {c : Cond} {i : Info α} {v : Val α} (hd : i.Describes v) (hv : v.Wf)
    (h : c.test i = true) (j : Nat) (hj : v.ty.w = .arr → j < v.rows.length) : c.rowOk (v.row j) := by
  have hr := hv.rowOk j hj
  have hsc : isAlwaysPresentType i = true → v.row j ≠ none := by
    intro h
    simp only [isAlwaysPresentType, beq_iff_eq, hd.ty] at h
    exact hr.present h
  have hopt : isAlwaysPresentOptionalValue i = true → v.row j ≠ none := by
    intro h
    simp only [isAlwaysPresentOptionalValue] at h
    split at h
    · rename_i q hq
      simp only [Bool.and_eq_true, beq_iff_eq] at h
      have := hd.qvalue q hq
      subst this
      exact isPresent_row h.1 h.2 j
    · simp at h
  have hal : isAlwaysPresent i = true → v.row j ≠ none := by
    intro h
    simp only [isAlwaysPresent, Bool.or_eq_true] at h
    exact h.elim hsc hopt
  cases c
  case alwaysPresentType => exact hsc h
  case alwaysPresentOptionalValue => exact hopt h
  case alwaysPresent => exact hal h
  case alwaysAbsentOptionalValue =>
    simp only [Cond.test, isAlwaysAbsentOptionalValue] at h
    split at h
    · rename_i q hq
      simp only [Bool.and_eq_true, beq_iff_eq, isPresent, Bool.not_eq_true', Option.isSome_eq_false_iff,
        Option.isNone_iff_eq_none] at h
      have := hd.qvalue q hq
      subst this
      simp only [Cond.rowOk]
      rw [row_flat (by simp [h.1]) j 0, h.2]
    · simp at h
  case presentMask =>
    simp only [Cond.test, isPresentMask, Bool.and_eq_true, isPresenceType, beq_iff_eq, hd.ty] at h
    have h1 := hal h.1
    obtain ⟨y, hy⟩ := Option.ne_none_iff_exists'.1 h1
    have h2 := hr.sort y hy
    rw [h.2] at h2
    simp only [Cond.rowOk, hy, Option.some.injEq]
    cases y <;> simp [Elem.sort] at h2 ⊢
  case boolLit b =>
    simp only [Cond.test, isBoolLit, Bool.and_eq_true, Bool.or_eq_true, beq_iff_eq] at h
    rcases h.2 with h1 | h1
    · have := hd.qvalue _ h1
      subst this; rfl
    · have := hd.qvalue _ h1
      subst this; rfl
  case scalarBool =>
    simp only [Cond.test, isScalarBool, beq_iff_eq, hd.ty] at h
    have h1 := hr.present (by rw [h])
    obtain ⟨y, hy⟩ := Option.ne_none_iff_exists'.1 h1
    have h2 := hr.sort y hy
    rw [h] at h2
    simp only [Cond.rowOk, hy, Option.some.injEq]
    cases y <;> simp [Elem.sort] at h2 ⊢
  all_goals trivial

/-- A law for one row that makes a rule correct. -/
def Rule.Law (N : Num α) (r : Rule α) : Prop :=
  ∀ (τ : Nat → Ty) (e : Nat → Option (Elem α)) (T : Ty), r.src.type infer τ = some T →
    (∀ k ∈ r.src.vars, RowOk (τ k) (e k)) → (∀ c ∈ r.conds, c.2.rowOk (e c.1)) → r.src.elP N e = r.dst.elP N e

theorem Rule.keeps_of_law [DecidableEq α] {N : Num α} {r : Rule α} (hs : r.shape = true) (hlaw : r.Law N) : r.Keeps N := by
  intro σ ρ hwf hd ha T ht htd v hv
  simp only [Rule.shape, Bool.and_eq_true, List.all_eq_true, List.contains_iff_mem] at hs
  have hst : ∀ p : Pat α, (∀ k ∈ p.vars, k ∈ r.src.vars) →
      p.type infer (fun k => (ρ k).ty) = p.type infer (fun k => (σ k).ty) :=
    fun p hp => type_congr p (fun k hk => ((hd k (hp k hk)).ty).symm)
  have hi := eval_inv r.src hv
  rw [hst _ (fun _ hk => hk), ht] at hi
  have hT : v.ty = T := by simpa using hi.1.symm
  refine keeps_of_rows hs.1.1.1 hs.1.1.2 hs.1.2 hwf (T := T) (by rw [hst _ hs.1.2]; exact htd) hv hT (fun i hin => ?_)
  have hrange : ∀ k ∈ r.src.vars, (ρ k).ty.w = .arr → i < (ρ k).rows.length := by
    intro k hk hw
    have := hi.2 k hk hw
    rw [this.2]
    exact hin (hT ▸ this.1)
  apply hlaw _ _ _ ht
  · intro k hk
    rw [(hd k hk).ty]
    exact (hwf k hk).rowOk i (hrange k hk)
  · intro c hc
    have hk := hs.2 c hc
    exact Cond.rowOk_of_test (hd _ hk) (hwf _ hk) (ha c hc) i (hrange _ hk)

/-! ## The enumeration does not depend on the scalar type -/

def Elem.erase : Elem α → Elem Unit
  | .u => .u
  | .b v => .b v
  | .n _ => .n ()

def Pat.erase : Pat α → Pat Unit
  | .var k => .var k
  | .lit v => .lit ⟨v.ty, v.rows.map (·.map Elem.erase)⟩
  | .c1 o x => .c1 o x.erase
  | .c2 o x y => .c2 o x.erase y.erase
  | .c3 o x y z => .c3 o x.erase y.erase z.erase
  | .c4 o x y z t => .c4 o x.erase y.erase z.erase t.erase

def Rule.erase (r : Rule α) : Rule Unit := ⟨r.src.erase, r.dst.erase, r.conds⟩

theorem vars_erase (p : Pat α) : p.erase.vars = p.vars := by induction p <;> simp_all [Pat.erase, Pat.vars]

theorem flatLits_erase (p : Pat α) : p.erase.flatLits = p.flatLits := by
  induction p <;> simp_all [Pat.erase, Pat.flatLits]

theorem type_erase (f : Op → List Ty → Option Ty) (τ : Nat → Ty) (p : Pat α) : p.erase.type f τ = p.type f τ := by
  induction p <;> simp_all [Pat.erase, Pat.type]

theorem solve_erase (f : Op → List Ty → Option Ty) (cand : Nat → List Ty) : ∀ (p : Pat α) (E : Env),
    p.erase.solve f cand E = p.solve f cand E
  | .var k, E => by simp only [Pat.erase, Pat.solve]
  | .lit v, E => by simp only [Pat.erase, Pat.solve]
  | .c1 o x, E => by simp only [Pat.erase, Pat.solve, solve_erase f cand x]
  | .c2 o x y, E => by
    have hx := solve_erase f cand x
    have hy := solve_erase f cand y
    cases x <;> simp only [Pat.erase, Pat.solve] at hx hy ⊢ <;> simp only [hx, hy]
  | .c3 o x y z, E => by simp only [Pat.erase, Pat.solve, solve_erase f cand x, solve_erase f cand y, solve_erase f cand z]
  | .c4 o x y z t, E => by
    simp only [Pat.erase, Pat.solve, solve_erase f cand x, solve_erase f cand y, solve_erase f cand z, solve_erase f cand t]

theorem shape_erase (r : Rule α) : r.erase.shape = r.shape := by
  simp [Rule.erase, Rule.shape, vars_erase, flatLits_erase]

theorem sameTy_erase (r : Rule α) : r.erase.sameTy = r.sameTy := by
  funext τ T
  simp [Rule.erase, Rule.sameTy, type_erase]

theorem check_erase (r : Rule α) (f : Op → List Ty → Option Ty) (fact : (Nat → Ty) → Option Ty → Bool) :
    r.erase.check f fact = r.check f fact := by
  simp only [Rule.check, Rule.erase, solve_erase]
  rfl

theorem pack_typed [DecidableEq α] {rs : List (Rule α)} {ss : List (Rule Unit)} {f : Op → List Ty → Option Ty}
    (he : rs.map Rule.erase = ss) (hc : ss.all (fun s => s.shape && s.check f s.sameTy) = true) :
    ∀ r ∈ rs, r.Typed f := by
  intro r hr
  apply Rule.typed_of_check
  have h := List.all_eq_true.1 hc r.erase (he ▸ List.mem_map_of_mem hr)
  rwa [shape_erase, check_erase, sameTy_erase] at h

theorem pack_keeps [DecidableEq α] {N : Num α} {rs : List (Rule α)} {ss : List (Rule Unit)}
    (he : rs.map Rule.erase = ss) (hc : ss.all (fun s => s.shape) = true) (hlaw : ∀ r ∈ rs, r.Law N) :
    ∀ r ∈ rs, r.Keeps N := by
  intro r hr
  apply Rule.keeps_of_law ?_ (hlaw r hr)
  have h := List.all_eq_true.1 hc r.erase (he ▸ List.mem_map_of_mem hr)
  rwa [shape_erase] at h

end Verif.Rules
