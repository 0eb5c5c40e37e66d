import Verif.Forest.EvaluatorSpec
import Verif.Forest.BitmaskProps
import Verif.Forest.ObliviousProps
import Verif.Forest.RegularProps
import Mathlib.Algebra.BigOperators.Group.List.Basic

/-!
# Lemmas: distribution of trees to the builders, regular and bitmask predictors
-/

namespace Verif.Forest

variable {M : Type} [Semiring M]

theorem treeValue_unique {env : Env} {t : Tree Cond M} {v w : M} (h : TreeValue env t v) (h' : TreeValue env t w) : v = w := by
  obtain ⟨i, a, h1, h2, rfl⟩ := h
  obtain ⟨j, b, g1, g2, rfl⟩ := h'
  rw [path_unique h1 g1, g2] at h2
  cases h2; rfl

theorem treeValue_exists {t : Tree Cond M} (hp : Proper t) (env : Env) : ∃ v, TreeValue env t v := by
  obtain ⟨b, hb⟩ := proper_denotes hp
  obtain ⟨i, h1, h2⟩ := eval_of_denotes (ev := Cond.eval env) hb
  exact ⟨_, i, _, h1, h2, rfl⟩

theorem traverse_conds {C A : Type} (condEq : C → C → Bool) (scale : A → A → M) (t : Tree C A) (depth : Nat) :
    ∀ (fuel : Nat) (stack : List (Ref × Nat)) (layers : List C) (adj : List M) (o : Oblivious C M),
      traverse condEq scale t depth fuel stack layers adj = some (some o) →
      ∀ c ∈ o.layers, c ∈ layers ∨ ∃ n ∈ t.splits, n.cond = c := by
  intro fuel
  induction fuel with
  | zero =>
    intro stack layers adj o h c hc
    cases stack with
    | nil => simp only [traverse, Option.some.injEq] at h; subst h; exact .inl hc
    | cons x xs => simp [traverse] at h
  | succ fuel ih =>
    intro stack layers adj o h c hc
    cases stack with
    | nil => simp only [traverse, Option.some.injEq] at h; subst h; exact .inl hc
    | cons x xs =>
      obtain ⟨r, d⟩ := x
      cases r with
      | leaf i =>
        simp only [traverse] at h
        split at h
        · simp at h
        · cases ha : t.adjustments[i]? with
          | none => simp [ha] at h
          | some a =>
            simp only [ha, Option.bind_eq_bind, Option.bind_some] at h
            exact ih _ _ _ _ h c hc
      | split k =>
        simp only [traverse] at h
        split at h
        · simp at h
        · cases hn : t.splits[k]? with
          | none => simp [hn] at h
          | some n =>
            simp only [hn, Option.bind_eq_bind, Option.bind_some] at h
            split at h
            · rcases ih _ _ _ _ h c hc with g | g
              · rcases List.mem_append.1 g with g | g
                · exact .inl g
                · simp only [List.mem_singleton] at g
                  exact .inr ⟨n, List.mem_of_getElem? hn, g.symm⟩
              · exact .inr g
            · cases hl : layers[d]? with
              | none => simp [hl] at h
              | some c' =>
                simp only [hl, Option.bind_some] at h
                split at h
                · simp at h
                · exact ih _ _ _ _ h c hc

theorem toOblivious_conds {C A : Type} {condEq : C → C → Bool} {scale : A → A → M} {t : Tree C A} {fuel : Nat}
    {o : Oblivious C M} (h : toOblivious condEq scale t fuel = some (some o)) :
    ∀ c ∈ o.layers, ∃ n ∈ t.splits, n.cond = c := by
  intro c hc
  have key : ∀ d, traverse condEq scale t d fuel [(t.root, 0)] [] [] = some (some o) → ∃ n ∈ t.splits, n.cond = c := by
    intro d hd
    rcases traverse_conds condEq scale t d fuel _ _ _ o hd c hc with g | g
    · simp at g
    · exact g
  simp only [toOblivious] at h
  split at h
  · simp at h
  · split at h
    · exact key _ h
    · cases hz : ctz32 t.adjustments.length with
      | none => simp [hz] at h
      | some d => simp only [hz, Option.bind_eq_bind, Option.bind_some] at h; exact key _ h

theorem equals_eval {a b : Cond} (h : Cond.equals false a b = true) (env : Env) : a.eval env = b.eval env := by
  have feq : ∀ x y : Fl, Fl.eq x y = true → x = y := by
    intro x y; cases x <;> cases y <;> simp [Fl.eq, Fl.le] <;> omega
  cases a <;> cases b <;> simp only [Cond.equals, Bool.false_or, Bool.and_eq_true, beq_iff_eq, Bool.false_eq_true] at h
  · obtain ⟨⟨rfl, h1⟩, h2⟩ := h
    rw [feq _ _ h1, feq _ _ h2]
  · obtain ⟨⟨⟨rfl, h1⟩, h2⟩, rfl⟩ := h
    simp only [Cond.eval]
    split
    · rfl
    · simp only [List.all_eq_true, List.contains_iff_mem] at h1 h2
      rw [Bool.eq_iff_iff]
      simp only [List.contains_iff_mem]
      exact ⟨fun h => h1 _ h, fun h => h2 _ h⟩
  · obtain ⟨⟨⟨rfl, h1⟩, h2⟩, rfl⟩ := h
    simp only [Cond.eval]
    split
    · rfl
    · simp only [List.all_eq_true, List.any_eq_true] at h1 h2
      rw [Bool.eq_iff_iff]
      simp only [List.any_eq_true]
      constructor
      · rintro ⟨x, hx, e⟩
        obtain ⟨y, hy, e'⟩ := h1 x hx
        exact ⟨y, hy, by rw [← feq _ _ e']; exact e⟩
      · rintro ⟨x, hx, e⟩
        obtain ⟨y, hy, e'⟩ := h2 x hx
        exact ⟨y, hy, by rw [← feq _ _ e']; exact e⟩
  · subst h; rfl

theorem condEq_eval {condEq : Cond → Cond → Bool} (h : CondEqOk condEq) (env : Env) (a b : Cond) (hab : condEq a b = true) :
    a.eval env = b.eval env := by
  rcases h a b hab with rfl | g
  · rfl
  · exact equals_eval g env

/-- Enough fuel for a tree. -/
def FuelOk (ctx : Ctx) (t : Tree Cond M) : Prop :=
  t.splits.length < ctx.fuel ∧ ∃ r, toOblivious ctx.condEq (fun a w : M => a * w) t ctx.fuel = some r ∧
    ∀ o, r = some o → o.adjustments.length = 2 ^ o.layers.length ∧ o.layers.length < 32 ∧
      ∀ env v, TreeValue env t v → o.adjustments[layerIndex (Cond.eval env) o.layers]? = some v

theorem fuel_ok {osig : Nat → List (Nat × QT)} {condEq : Cond → Cond → Bool} (o : Oracles) (hc : CondEqOk condEq) {t : Tree Cond M} (ht : TreeOk t) :
    ∃ bound, ∀ fuel, bound ≤ fuel → FuelOk ⟨osig, condEq, o, fuel⟩ t := by
  obtain ⟨r, b1, h1⟩ := to_oblivious_ends condEq (fun a w : M => a * w) ht.toWellFormed ht.size
  obtain ⟨b2, h2⟩ := to_oblivious_sound condEq (fun a w : M => a * w) ht.toWellFormed ht.size
  obtain ⟨b3, h3⟩ := toOblivious_cases condEq (fun a w : M => a * w) ht.toWellFormed ht.size
  refine ⟨max (max b1 b2) (max b3 (t.splits.length + 1)), fun fuel hf => ⟨by show _ < fuel; omega, r, h1 fuel (by omega), ?_⟩⟩
  rintro obl rfl
  obtain ⟨g1, g2⟩ := h2 fuel (by omega) obl (h1 fuel (by omega))
  refine ⟨g1, ?_, fun env v hv => ?_⟩
  · rcases h3 fuel (by omega) with ⟨e, -⟩ | ⟨d, layers, b, e1, e2, e3⟩
    · rw [h1 fuel (by omega)] at e; cases e
    · rw [h1 fuel (by omega)] at e3
      cases e3
      have hlen := (recObl_prefix condEq t d 0 t.root [] layers b e2 (by simp)).2
      simp only [List.length_nil, Nat.zero_add, Nat.zero_max] at hlen
      have hs := ht.size
      rw [e1] at hs
      have := (Nat.pow_lt_pow_iff_right (a := 2) (by omega)).1 hs
      show layers.length < 32
      omega
  · obtain ⟨i, a, p1, p2, p3⟩ := g2 (Cond.eval env) (condEq_eval hc env)
    rw [p3, treeValue_unique hv ⟨i, a, p1, p2, rfl⟩]

end Verif.Forest
