import Verif.ConstShape.ConstShapeModel

/-! # Pushing operators under `core.const_with_shape` -/

namespace Verif.ConstShape

variable {X : Type}

/-- Scalars and optionals, arrays, or shapes. -/
def Val.kind : Val X → Nat
  | .row _ => 0
  | .arr _ => 1
  | .shape _ => 2

/-- Operators that never fail. -/
def Sem.Total (s : Sem X) : Prop := (∀ n r, s.f1 n r ≠ none) ∧ (∀ n a b, s.f2 n a b ≠ none)

/-- The rule keeps the value of the left-hand side for this environment, if the types of both sides agree (the optimizer fails
otherwise, optimizer.cc:52-59; where the branches of a conditional are scalars, casting has made them arrays before). -/
def Rule.KeepsAt (r : Rule) (s : Sem X) (env : String → Val X) : Prop :=
  (∀ n ∈ r.base, (env n).kind = 0) → ∀ v, r.src.eval s env = some v → (∀ w, r.dst.eval s env = some w → w.kind = v.kind) →
    r.dst.eval s env = some v

theorem mapRows_replicate (f : Option X → Option (Option X)) (n : Nat) (r : Option X) (l : List (Option X))
    (h : mapRows f (List.replicate n r) = some l) (hn : 0 < n ∨ f r ≠ none) : ∃ y, f r = some y ∧ l = List.replicate n y := by
  induction n generalizing l with
  | zero =>
    cases hf : f r with
    | none =>
      rcases hn with h | h
      · omega
      · exact absurd hf h
    | some y => exact ⟨y, rfl, by simp [mapRows] at h; simp [h]⟩
  | succ n ih =>
    rw [List.replicate_succ, mapRows] at h
    cases hf : f r with
    | none => rw [hf] at h; cases h
    | some y =>
      cases hr : mapRows f (List.replicate n r) with
      | none => rw [hf, hr] at h; cases h
      | some ys =>
        rw [hf, hr] at h
        obtain ⟨y', h1, h2⟩ := ih ys hr (.inr (by simp [hf]))
        rw [hf] at h1
        obtain rfl := Option.some.inj h1
        refine ⟨y, rfl, ?_⟩
        rw [List.replicate_succ, ← h2]
        exact (Option.some.inj h).symm

theorem zipRows_replicate (f : Option X → Option X → Option (Option X)) (n : Nat) (a b : Option X) (l : List (Option X))
    (h : zipRows f (List.replicate n a) (List.replicate n b) = some l) (hn : 0 < n ∨ f a b ≠ none) :
    ∃ y, f a b = some y ∧ l = List.replicate n y := by
  induction n generalizing l with
  | zero =>
    cases hf : f a b with
    | none =>
      rcases hn with h | h
      · omega
      · exact absurd hf h
    | some y => exact ⟨y, rfl, by simp [zipRows] at h; simp [h]⟩
  | succ n ih =>
    rw [List.replicate_succ, List.replicate_succ, zipRows] at h
    cases hf : f a b with
    | none => rw [hf] at h; cases h
    | some y =>
      cases hr : zipRows f (List.replicate n a) (List.replicate n b) with
      | none => rw [hf, hr] at h; cases h
      | some ys =>
        rw [hf, hr] at h
        obtain ⟨y', h1, h2⟩ := ih ys hr (.inr (by simp [hf]))
        rw [hf] at h1
        obtain rfl := Option.some.inj h1
        refine ⟨y, rfl, ?_⟩
        rw [List.replicate_succ, ← h2]
        exact (Option.some.inj h).symm

theorem whereRows_replicate (c : Option X) (l m : List (Option X)) (h : l.length = m.length) :
    whereRows (List.replicate l.length c) l m = if c.isSome then l else m := by
  induction l generalizing m with
  | nil => cases m with
    | nil => simp [whereRows]
    | cons _ _ => simp at h
  | cons a l ih =>
    cases m with
    | nil => simp at h
    | cons b m =>
      rw [List.length_cons, List.replicate_succ, whereRows, ih m (by simpa using h)]
      cases c <;> simp

theorem const_some {sh v w : Val X} (h : constWithShape sh v = some w) : ∃ n r, sh = .shape n ∧ v = .row r ∧ w = .arr (List.replicate n r) := by
  cases sh <;> cases v <;> simp [constWithShape] at h
  exact ⟨_, _, rfl, rfl, h.symm⟩

theorem kind_zero {v : Val X} (h : v.kind = 0) : ∃ r, v = .row r := by
  cases v <;> simp [Val.kind] at h
  exact ⟨_, rfl⟩

/-- Every operator is replaced by the operator behind it, and none is one of the special ones. -/
theorem unary_names : ∀ p ∈ unaryOps, baseName p.1 = p.2 ∧ baseName p.2 = p.2 ∧ p.1 ≠ "core._array_shape_of" ∧ p.2 ≠ "core._array_shape_of" := by
  decide +kernel

theorem binary_names : ∀ p ∈ binaryOps, baseName p.1 = p.2 ∧ baseName p.2 = p.2 ∧
    ¬ (p.1 = "core.const_with_shape" ∨ p.1 = "core.const_with_shape._array_shape") ∧
    ¬ (p.2 = "core.const_with_shape" ∨ p.2 = "core.const_with_shape._array_shape") := by
  decide +kernel

/-- The shape has rows, or nothing fails. -/
def Safe (s : Sem X) (env : String → Val X) : Prop := s.Total ∨ ∀ n, env "shape" = .shape n → 0 < n

theorem unary_keeps (s : Sem X) (env : String → Val X) (hs : Safe s env) (p : String × String) (hp : p ∈ unaryOps) : (unaryRule p).KeepsAt s env := by
  obtain ⟨h1, h2, h3, h4⟩ := unary_names p hp
  intro _ v hv _
  simp only [unaryRule, Pat.eval, Option.bind_some, eval1, eval2, h3, h4, h1, h2, if_false, or_true, true_or, if_true] at hv ⊢
  cases hc : constWithShape (env "shape") (env "value") with
  | none => rw [hc] at hv; cases hv
  | some c =>
    obtain ⟨n, r, hsh, hval, rfl⟩ := const_some hc
    rw [hc] at hv
    simp only [Option.bind_some, eval1, h3, h1, if_false, apply1] at hv
    cases hm : mapRows (s.f1 p.2) (List.replicate n r) with
    | none => rw [hm] at hv; cases hv
    | some l =>
      rw [hm] at hv
      simp only [Option.map_some, Option.some.injEq] at hv
      obtain ⟨y, hy, rfl⟩ := mapRows_replicate _ n r l hm (by
        rcases hs with h | h
        · exact .inr (h.1 _ _)
        · exact .inl (h n hsh))
      rw [hval, hsh]
      simp only [apply1, hy, Option.map_some, Option.bind_some, constWithShape]
      rw [hv]

theorem binary_keeps (s : Sem X) (env : String → Val X) (hs : Safe s env) (p : String × String) (hp : p ∈ binaryOps) :
    ∀ r ∈ binaryRules p, r.KeepsAt s env := by
  obtain ⟨h1, h2, h3, h4⟩ := binary_names p hp
  have key : ∀ (n : Nat) (a b : Option X) (v : Val X), env "shape" = .shape n → env "a" = .row a → env "b" = .row b →
      (zipRows (s.f2 p.2) (List.replicate n a) (List.replicate n b)).map Val.arr = some v →
      (Pat.c2 "core.const_with_shape" (.var "shape") (.c2 p.2 (.var "a") (.var "b"))).eval s env = some v := by
    intro n a b v hsh ha hb hv
    cases hm : zipRows (s.f2 p.2) (List.replicate n a) (List.replicate n b) with
    | none => rw [hm] at hv; cases hv
    | some l =>
      rw [hm] at hv
      simp only [Option.map_some, Option.some.injEq] at hv
      obtain ⟨y, hy, rfl⟩ := zipRows_replicate _ n a b l hm (by
        rcases hs with h | h
        · exact .inr (h.2 _ _ _)
        · exact .inl (h n hsh))
      simp only [Pat.eval, Option.bind_some, eval2, h4, h2, if_false, true_or, if_true, ha, hb, hsh, apply2, hy, Option.map_some, constWithShape]
      rw [hv]
  intro r hr
  simp only [binaryRules, List.mem_cons, List.not_mem_nil, or_false] at hr
  rcases hr with rfl | rfl | rfl
  · intro _ v hv _
    simp only [Pat.eval, Option.bind_some, eval2, h3, h1, if_false, or_true, if_true] at hv
    cases hc : constWithShape (env "shape") (env "a") with
    | none => rw [hc] at hv; cases hv
    | some c =>
      cases hd : constWithShape (env "shape") (env "b") with
      | none => rw [hc, hd] at hv; cases hv
      | some d =>
        obtain ⟨n, a, hsh, ha, rfl⟩ := const_some hc
        obtain ⟨n', b, hsh', hb, rfl⟩ := const_some hd
        rw [hsh] at hsh'
        obtain rfl := Val.shape.inj hsh'
        rw [hc, hd] at hv
        simp only [Option.bind_some, apply2] at hv
        exact key n a b v hsh ha hb hv
  · intro hbase v hv _
    obtain ⟨b, hb⟩ := kind_zero (hbase "b" (by simp))
    simp only [Pat.eval, Option.bind_some, eval2, h3, h1, if_false, or_true, if_true] at hv
    cases hc : constWithShape (env "shape") (env "a") with
    | none => rw [hc] at hv; cases hv
    | some c =>
      obtain ⟨n, a, hsh, ha, rfl⟩ := const_some hc
      rw [hc, hb] at hv
      simp only [Option.bind_some, apply2, List.length_replicate] at hv
      exact key n a b v hsh ha hb hv
  · intro hbase v hv _
    obtain ⟨a, ha⟩ := kind_zero (hbase "a" (by simp))
    simp only [Pat.eval, Option.bind_some, eval2, h3, h1, if_false, or_true, if_true] at hv
    cases hc : constWithShape (env "shape") (env "b") with
    | none => rw [hc] at hv; cases hv
    | some c =>
      obtain ⟨n, b, hsh, hb, rfl⟩ := const_some hc
      rw [hc, ha] at hv
      simp only [Option.bind_some, apply2, List.length_replicate] at hv
      exact key n a b v hsh ha hb hv

theorem mapRows_length (f : Option X → Option (Option X)) (l m : List (Option X)) (h : mapRows f l = some m) : m.length = l.length := by
  induction l generalizing m with
  | nil => simp [mapRows] at h; simp [h]
  | cons r l ih =>
    rw [mapRows] at h
    cases hf : f r with
    | none => rw [hf] at h; cases h
    | some y =>
      cases hr : mapRows f l with
      | none => rw [hf, hr] at h; cases h
      | some ys =>
        rw [hf, hr] at h
        obtain rfl := Option.some.inj h
        simp [ih ys hr]

theorem shape_of_keeps (s : Sem X) (env : String → Val X) : ∀ r ∈ shapeOfRules, r.KeepsAt s env := by
  intro r hr
  simp only [shapeOfRules, List.mem_cons, List.not_mem_nil, or_false] at hr
  have hne : ("core.has._array" : String) ≠ "core._array_shape_of" := by decide +kernel
  rcases hr with rfl | rfl
  · intro _ v hv _
    simp only [Pat.eval, Option.bind_some, eval1, eval2, or_true, if_true, hne, if_false] at hv ⊢
    cases hc : constWithShape (env "shape") (env "a") with
    | none => rw [hc] at hv; cases hv
    | some c =>
      obtain ⟨n, r, hsh, hval, rfl⟩ := const_some hc
      rw [hc] at hv
      simp only [Option.bind_some, eval1, hne, if_false, apply1] at hv
      cases hm : mapRows (s.f1 (baseName "core.has._array")) (List.replicate n r) with
      | none => rw [hm] at hv; cases hv
      | some l =>
        rw [hm] at hv
        simp only [Option.map_some, Option.bind_some, eval1, if_true, arrayShapeOf, mapRows_length _ _ _ hm, List.length_replicate] at hv
        rw [hsh]; exact hv
  · intro _ v hv _
    simp only [Pat.eval, Option.bind_some, eval1, eval2, or_true, if_true] at hv ⊢
    cases hc : constWithShape (env "shape") (env "a") with
    | none => rw [hc] at hv; cases hv
    | some c =>
      obtain ⟨n, r, hsh, hval, rfl⟩ := const_some hc
      rw [hc] at hv
      simp only [Option.bind_some, eval1, if_true, arrayShapeOf, List.length_replicate] at hv
      rw [hsh]; exact hv

theorem where_keeps (s : Sem X) (env : String → Val X) : whereRule.KeepsAt s env := by
  have hne : ("core._short_circuit_where" : String) ≠ "core.where" := by decide +kernel
  intro hbase v hv hkind
  obtain ⟨c, hcond⟩ := kind_zero (hbase "cond" (by simp [whereRule]))
  simp only [whereRule, Pat.eval, Option.bind_some, eval2, eval3, or_true, if_true, hne, if_false, hcond] at hv hkind ⊢
  cases hsh : env "shape" with
  | row _ => rw [hsh] at hv; cases hv
  | arr _ => rw [hsh] at hv; cases hv
  | shape n =>
    rw [hsh] at hv
    simp only [constWithShape, Option.bind_some, where3, List.length_replicate] at hv
    cases hx : env "x" with
    | shape _ => rw [hx] at hv; cases hv
    | row a =>
      cases hy : env "y" with
      | shape _ => rw [hx, hy] at hv; cases hv
      | row b =>
        rw [hx, hy] at hv hkind
        simp only [broadcast, Option.some.injEq] at hv
        have := hkind _ rfl
        rw [← hv] at this
        simp [Val.kind] at this
      | arr m =>
        rw [hx, hy] at hv
        by_cases hm : m.length = n
        · simp only [broadcast, hm, if_true, Option.some.injEq] at hv
          have := whereRows_replicate c (List.replicate n a) m (by simp [hm])
          rw [List.length_replicate] at this
          rw [← hv, this]
          simp [shortCircuitWhere, hm]
        · simp only [broadcast, hm, if_false] at hv; cases hv
    | arr l =>
      cases hy : env "y" with
      | shape _ =>
        rw [hx, hy] at hv
        simp only [broadcast] at hv
        split at hv
        · rename_i h; cases h
        · cases hv
      | row b =>
        rw [hx, hy] at hv
        by_cases hl : l.length = n
        · simp only [broadcast, hl, if_true, Option.some.injEq] at hv
          have := whereRows_replicate c l (List.replicate n b) (by simp [hl])
          rw [hl] at this
          rw [← hv, this]
          simp [shortCircuitWhere, hl]
        · simp only [broadcast, hl, if_false] at hv; cases hv
      | arr m =>
        rw [hx, hy] at hv
        by_cases hl : l.length = n
        · by_cases hm : m.length = n
          · simp only [broadcast, hl, hm, if_true, Option.some.injEq] at hv
            have := whereRows_replicate c l m (by rw [hl, hm])
            rw [hl] at this
            rw [← hv, this]
            simp [shortCircuitWhere]
          · simp only [broadcast, hl, hm, if_true, if_false] at hv; cases hv
        · simp only [broadcast, hl, if_false] at hv; cases hv

/-- **The rules for `core.const_with_shape` keep the value of every expression that has one, if the shape is not empty or no operator fails** — for
all operators of the tables, all scalars, shapes and branches.  Missing for the full property: operators that fail and empty shapes, for which it
is false (`empty_shape_counterexample`). -/
theorem rules_keep_partial (s : Sem X) (env : String → Val X) (hs : Safe s env) : ∀ r ∈ rules, r.KeepsAt s env := by
  intro r hr
  simp only [rules, List.mem_append, List.mem_map, List.mem_flatMap, List.mem_singleton] at hr
  rcases hr with ((hr | ⟨p, hp, rfl⟩) | ⟨p, hp, hr⟩) | rfl
  · exact shape_of_keeps s env r hr
  · exact unary_keeps s env hs p hp
  · exact binary_keeps s env hs p hp r hr
  · exact where_keeps s env

/-! ## An empty shape and an operator that fails -/

/-- Integers with `math.floordiv` — math/arithmetic.h:90-113; other operators do nothing. -/
def intSem : Sem Int where
  f1 := fun _ r => some r
  f2 := fun name a b =>
    if name = "math.floordiv" then
      match a, b with
      | some x, some y => if y = 0 then none else some (some (x.fdiv y))
      | _, _ => some none
    else some a

def emptyEnv : String → Val Int
  | "shape" => .shape 0
  | "a" => .row (some 1)
  | _ => .row (some 0)

/-- **Division of constants by 0 over an empty array has a value, an empty array; after the rule it fails.** -/
theorem empty_shape_counterexample : ∃ r ∈ rules, ¬ r.KeepsAt intSem emptyEnv := by
  have hmem : ("math.floordiv", "math.floordiv") ∈ binaryOps := by decide +kernel
  refine ⟨⟨.c2 "math.floordiv" (.c2 "core.const_with_shape._array_shape" (.var "shape") (.var "a"))
      (.c2 "core.const_with_shape._array_shape" (.var "shape") (.var "b")),
    .c2 "core.const_with_shape" (.var "shape") (.c2 "math.floordiv" (.var "a") (.var "b")), []⟩, ?_, ?_⟩
  · simp only [rules, List.mem_append, List.mem_flatMap]
    exact .inl (.inr ⟨_, hmem, by simp [binaryRules]⟩)
  · intro h
    have hdst : (Pat.c2 "core.const_with_shape" (.var "shape") (.c2 "math.floordiv" (.var "a") (.var "b"))).eval intSem emptyEnv = none := by
      decide +kernel
    have := h (by simp) (.arr []) (by decide +kernel) (by intro w hw; dsimp only at hw; rw [hdst] at hw; cases hw)
    dsimp only at this
    rw [hdst] at this
    cases this

/-! ## Concrete cases -/

def threeEnv : String → Val Int
  | "shape" => .shape 3
  | "a" => .row (some 7)
  | "b" => .row (some 2)
  | "cond" => .row none
  | "x" => .arr [some 1, none, some 3]
  | _ => .row (some 5)

example : Safe intSem threeEnv := .inr (by intro n h; simp [threeEnv] at h; omega)
example : (binaryRules ("math.floordiv", "math.floordiv")).map (fun r => r.src.eval intSem threeEnv) =
    List.replicate 3 (some (.arr [some 3, some 3, some 3])) := by decide +kernel
example : whereRule.src.eval intSem threeEnv = some (.arr [some 5, some 5, some 5]) := by decide +kernel
example : whereRule.dst.eval intSem threeEnv = some (.arr [some 5, some 5, some 5]) := by decide +kernel
example : rules.length = 2 + 29 + 3 * 22 + 1 := by decide +kernel

end Verif.ConstShape
