import Verif.Rules.LawLemmas
import Mathlib.Data.List.Forall2

/-!
# Operators return values of the inferred types; rules inside of an expression
-/

namespace Verif.Rules
variable {α : Type}

theorem sort_mask {v : Bool} {y : Elem α} (h : mask v = some y) : y.sort = .unit := by
  cases v <;> simp [mask] at h
  subst h; rfl

theorem lift2_some {f : Elem α → Elem α → Option (Elem α)} {x y : Option (Elem α)} {z : Elem α} (h : lift2 f x y = some z) :
    ∃ a b, x = some a ∧ y = some b ∧ f a b = some z := by
  cases x <;> cases y <;> simp [lift2] at h ⊢
  exact h

theorem rowOk_mask (w : Wr) (hw : w ≠ .sc) (v : Bool) : RowOk (α := α) ⟨w, .unit⟩ (mask v) :=
  ⟨fun _ h => sort_mask h, fun h => absurd h hw⟩

theorem max_opt_ne_sc (w : Wr) : Wr.opt.max w ≠ .sc := by cases w <;> decide

theorem max_eq_sc {a b : Wr} : a.max b = .sc ↔ a = .sc ∧ b = .sc := by cases a <;> cases b <;> decide

theorem rowOk_cmp {w : Wr} {f : Elem α → Elem α → Bool} {x y : Option (Elem α)} (hw : w ≠ .sc) :
    RowOk (α := α) ⟨w, .unit⟩ (lift2 (fun x y => mask (f x y)) x y) :=
  ⟨fun _ h => by obtain ⟨_, _, _, _, h⟩ := lift2_some h; exact sort_mask h, fun h => absurd h hw⟩

theorem rowOk_bcmp {a b : Ty} {f : Elem α → Elem α → Bool} {x y : Option (Elem α)} (hx : RowOk a x) (hy : RowOk b y) :
    RowOk (α := α) ⟨a.w.max b.w, .bool⟩ (lift2 (fun x y => some (.b (f x y))) x y) := by
  refine ⟨fun z h => ?_, fun h => ?_⟩
  · obtain ⟨_, _, _, _, h⟩ := lift2_some h
    simp only [Option.some.injEq] at h
    subst h; rfl
  · have := max_eq_sc.1 h
    obtain ⟨u, rfl⟩ := Option.ne_none_iff_exists'.1 (hx.present this.1)
    obtain ⟨v, rfl⟩ := Option.ne_none_iff_exists'.1 (hy.present this.2)
    simp [lift2]

theorem Wr.max_comm (a b : Wr) : a.max b = b.max a := by cases a <;> cases b <;> rfl

theorem rowOk_num {w w' : Wr} {f : α → α → α} {x y : Option (Elem α)} (hx : RowOk ⟨w, .num⟩ x) (hy : RowOk ⟨w', .num⟩ y) :
    RowOk (α := α) ⟨w.max w', .num⟩ (lift2 (numE f) x y) := by
  have cx := hx.sort
  have cy := hy.sort
  refine ⟨fun z h => ?_, fun h => ?_⟩
  · obtain ⟨a, b, _, _, h⟩ := lift2_some h
    cases a <;> cases b <;> simp [numE] at h
    subst h; rfl
  · have := max_eq_sc.1 h
    obtain ⟨u, rfl⟩ := Option.ne_none_iff_exists'.1 (hx.present this.1)
    obtain ⟨v, rfl⟩ := Option.ne_none_iff_exists'.1 (hy.present this.2)
    have h1 := cx u rfl
    have h2 := cy v rfl
    cases u <;> cases v <;> simp [Elem.sort] at h1 h2 <;> simp [lift2, numE]

theorem rowOk_weaken {t : Ty} {w : Wr} {x : Option (Elem α)} (h : RowOk t x) (hw : w = .sc → t.w = .sc) : RowOk ⟨w, t.s⟩ x :=
  ⟨h.sort, fun h' => h.present (hw h')⟩

theorem rowOk_ite {c : Bool} {t : Ty} {x y : Option (Elem α)} (hx : RowOk t x) (hy : RowOk t y) :
    RowOk t (if c = true then x else y) := by
  cases c
  · simpa using hy
  · simpa using hx

/-- Every operator returns a row of the inferred type. -/
theorem el_rowOk {N : Num α} {o : Op} {ts : List Ty} {xs : List (Option (Elem α))} {t : Ty} (h : infer o ts = some t)
    (hx : List.Forall₂ RowOk ts xs) : RowOk t (el N o xs) := by
  unfold infer at h
  split at h <;> try simp only [List.forall₂_cons_left_iff, List.forall₂_nil_left_iff] at hx
  · -- has
    obtain ⟨x, _, h1, rfl, rfl⟩ := hx
    cases h
    refine ⟨fun _ h => sort_mask h, fun h => ?_⟩
    obtain ⟨u, rfl⟩ := Option.ne_none_iff_exists'.1 (h1.present h)
    simp [el, mask]
  · obtain ⟨x, _, h1, rfl, rfl⟩ := hx
    cases h
    exact rowOk_mask _ (by decide) _
  · obtain ⟨x, _, h1, rfl, rfl⟩ := hx
    cases h
    exact rowOk_mask _ (by decide) _
  · obtain ⟨x, _, h1, rfl, rfl⟩ := hx
    cases h
    exact rowOk_mask _ (max_opt_ne_sc _) _
  · obtain ⟨x, _, h1, rfl, rfl⟩ := hx
    cases h
    exact rowOk_mask _ (by decide) _
  · obtain ⟨x, _, h1, rfl, rfl⟩ := hx
    cases h
    exact rowOk_mask _ (by decide) _
  · -- presence_and
    obtain ⟨x, _, h1, ⟨y, _, h2, rfl, rfl⟩, rfl⟩ := hx
    simp only [Option.ite_none_right_eq_some, Option.some.injEq] at h
    obtain ⟨hu, rfl⟩ := h
    simp only [el]
    rename_i tx ty
    by_cases hy : ty.w = .sc
    · obtain ⟨u, rfl⟩ := Option.ne_none_iff_exists'.1 (h2.present hy)
      simpa [hy] using h1
    · rw [if_neg hy]
      refine ⟨fun z hz => ?_, fun hc => ?_⟩
      · split at hz
        · exact h1.sort z hz
        · cases hz
      · exact absurd (max_eq_sc.1 hc).2 hy
  · -- presence_or
    obtain ⟨x, _, h1, ⟨y, _, h2, rfl, rfl⟩, rfl⟩ := hx
    simp only [Option.ite_none_right_eq_some, Option.some.injEq] at h
    obtain ⟨hu, rfl⟩ := h
    simp only [el]
    refine ⟨fun z hz => ?_, fun hc => ?_⟩
    · split at hz
      · exact h1.sort z hz
      · rw [h2.sort z hz, hu]
    · split
      · rename_i h; intro hn; simp [hn] at h
      · rename_i h
        dsimp only at hc
        split at hc
        · cases hc
        · split at hc
          · rename_i hy; exact h2.present hy
          · exact absurd (h1.present hc) (by simpa using h)
  · -- presence_and_or
    obtain ⟨x, _, h1, ⟨y, _, h2, ⟨z, _, h3, rfl, rfl⟩, rfl⟩, rfl⟩ := hx
    simp only [Option.ite_none_right_eq_some, Option.some.injEq] at h
    obtain ⟨hu, rfl⟩ := h
    simp only [el]
    refine ⟨fun v hv => ?_, fun hc => ?_⟩
    · split at hv
      · exact h1.sort v hv
      · rw [h3.sort v hv, hu.2.1]
    · split
      · rename_i h; intro hn; simp [hn] at h
      · exact h3.present hc
  · -- where
    obtain ⟨x, _, h1, ⟨y, _, h2, ⟨z, _, h3, rfl, rfl⟩, rfl⟩, rfl⟩ := hx
    simp only [Option.ite_none_right_eq_some, Option.map_eq_some_iff, common, Option.some.injEq] at h
    obtain ⟨hu, _, ⟨hs, rfl⟩, rfl⟩ := h
    simp only [el]
    rename_i c a b
    have key : ∀ w, (w = .sc → a.w = .sc ∧ b.w = .sc) → RowOk ⟨w, a.s⟩ (if x.isSome = true then y else z) := by
      intro w hw
      exact rowOk_ite (rowOk_weaken h2 (fun h => (hw h).1)) (hs ▸ rowOk_weaken h3 (fun h => (hw h).2))
    split
    · exact key _ (fun h => max_eq_sc.1 h)
    · exact key _ (fun h => max_eq_sc.1 (max_eq_sc.1 h).1)
  · -- _short_circuit_where
    obtain ⟨x, _, h1, ⟨y, _, h2, ⟨z, _, h3, rfl, rfl⟩, rfl⟩, rfl⟩ := hx
    simp only [Option.ite_none_right_eq_some, common, Option.some.injEq] at h
    obtain ⟨hu, hs, rfl⟩ := h
    simp only [el]
    exact rowOk_ite (rowOk_weaken h2 (fun h => (max_eq_sc.1 h).1)) (hs ▸ rowOk_weaken h3 (fun h => (max_eq_sc.1 h).2))
  · obtain ⟨x, _, h1, rfl, rfl⟩ := hx
    cases h
    exact rowOk_weaken h1 (fun h => absurd h (max_opt_ne_sc _))
  · obtain ⟨x, _, h1, rfl, rfl⟩ := hx
    cases h
    exact rowOk_weaken h1 (fun h => by cases h)
  iterate 4
    · obtain ⟨x, _, h1, ⟨y, _, h2, rfl, rfl⟩, rfl⟩ := hx
      simp only [Option.map_eq_some_iff] at h
      obtain ⟨t', -, rfl⟩ := h
      exact rowOk_cmp (max_opt_ne_sc _)
  iterate 6
    · obtain ⟨x, _, h1, ⟨y, _, h2, rfl, rfl⟩, rfl⟩ := hx
      simp only [Option.map_eq_some_iff, common, Option.ite_none_right_eq_some, Option.some.injEq] at h
      obtain ⟨_, ⟨hs, rfl⟩, rfl⟩ := h
      first
      | exact rowOk_bcmp h1 h2
      | (have hb := rowOk_bcmp (f := ltE N) h2 h1; rw [Wr.max_comm] at hb; exact hb)
      | (have hb := rowOk_bcmp (f := leE N) h2 h1; rw [Wr.max_comm] at hb; exact hb)
  · -- logical_not
    obtain ⟨x, _, h1, rfl, rfl⟩ := hx
    simp only [Option.ite_none_right_eq_some, Option.some.injEq] at h
    obtain ⟨hu, rfl⟩ := h
    rcases h1.bool_cases hu with rfl | rfl | rfl
    · exact h1
    · exact ⟨fun z hz => by simp only [el, notE, Option.some.injEq] at hz; subst hz; exact hu.symm, fun _ => by simp [el, notE]⟩
    · exact ⟨fun z hz => by simp only [el, notE, Option.some.injEq] at hz; subst hz; exact hu.symm, fun _ => by simp [el, notE]⟩
  iterate 2
    · obtain ⟨x, _, h1, ⟨y, _, h2, rfl, rfl⟩, rfl⟩ := hx
      simp only [Option.ite_none_right_eq_some, common, Option.some.injEq] at h
      obtain ⟨hu, hs, rfl⟩ := h
      have r1 := h1.bool_cases hu.1
      have r2 := h2.bool_cases hu.2
      have p1 := h1.present
      have p2 := h2.present
      rw [hu.1]
      refine ⟨fun z hz => ?_, fun hc => ?_⟩
      · rcases r1 with rfl | rfl | rfl <;> rcases r2 with rfl | rfl | rfl <;> simp [el, andE, orE] at hz <;> subst hz <;> rfl
      · have := max_eq_sc.1 hc
        have p1 := p1 this.1
        have p2 := p2 this.2
        rcases r1 with rfl | rfl | rfl <;> rcases r2 with rfl | rfl | rfl <;> simp [el, andE, orE] at p1 p2 ⊢
  · -- logical_if
    obtain ⟨x, _, h1, ⟨y, _, h2, ⟨z, _, h3, ⟨u, _, h4, rfl, rfl⟩, rfl⟩, rfl⟩, rfl⟩ := hx
    simp only [Option.ite_none_right_eq_some, Option.map_eq_some_iff, Option.bind_eq_some_iff, common, Option.some.injEq] at h
    obtain ⟨hu, _, ⟨_, ⟨hs, rfl⟩, hs2, rfl⟩, rfl⟩ := h
    rename_i c a b m
    have key : ∀ w, (w = .sc → a.w = .sc ∧ b.w = .sc ∧ m.w = .sc) → RowOk ⟨w, a.s⟩ (el N .bif [x, y, z, u]) := by
      intro w hw
      have q2 : RowOk ⟨w, a.s⟩ y := rowOk_weaken h2 (fun h => (hw h).1)
      have q3 : RowOk ⟨w, a.s⟩ z := hs ▸ rowOk_weaken h3 (fun h => (hw h).2.1)
      have q4 : RowOk ⟨w, a.s⟩ u := hs2 ▸ rowOk_weaken h4 (fun h => (hw h).2.2)
      simp only [el, ifE]
      split
      · exact rowOk_ite q2 q3
      · exact q4
    split
    · exact key _ (fun h => ⟨(max_eq_sc.1 (max_eq_sc.1 h).1).1, (max_eq_sc.1 (max_eq_sc.1 h).1).2, (max_eq_sc.1 h).2⟩)
    · exact key _ (fun h => by
        have h := (max_eq_sc.1 h).1
        exact ⟨(max_eq_sc.1 (max_eq_sc.1 h).1).1, (max_eq_sc.1 (max_eq_sc.1 h).1).2, (max_eq_sc.1 h).2⟩)
  iterate 2
    · obtain ⟨x, _, h1, ⟨y, _, h2, rfl, rfl⟩, rfl⟩ := hx
      simp only [Option.ite_none_right_eq_some, common, Option.some.injEq] at h
      obtain ⟨hu, hs, rfl⟩ := h
      rw [hu.1]
      rename_i a b
      obtain ⟨aw, as⟩ := a
      obtain ⟨bw, bs⟩ := b
      simp only at hu
      obtain ⟨rfl, rfl⟩ := hu
      exact rowOk_num h1 h2
  · obtain ⟨x, _, h1, ⟨y, _, h2, ⟨z, _, h3, ⟨u, _, h4, rfl, rfl⟩, rfl⟩, rfl⟩, rfl⟩ := hx
    simp only [Option.ite_none_right_eq_some, Option.some.injEq] at h
    obtain ⟨hu, rfl⟩ := h
    rename_i a b c d
    obtain ⟨aw, as⟩ := a
    obtain ⟨bw, bs⟩ := b
    obtain ⟨cw, cs⟩ := c
    obtain ⟨dw, ds⟩ := d
    simp only at hu
    obtain ⟨rfl, rfl, rfl, rfl⟩ := hu
    exact rowOk_num (rowOk_num (rowOk_num h1 h2) h3) h4
  · cases h

theorem wf_of_rows {v : Val α} (h1 : v.ty.w ≠ .arr → v.rows.length = 1)
    (h : ∀ x ∈ v.rows, RowOk v.ty x) : v.Wf :=
  ⟨h1, fun hw x hx => (h x hx).present hw, fun x hx => (h _ hx).sort x rfl⟩

/-- Operators return values of their types. -/
theorem run_wf {N : Num α} {o : Op} {args : List (Val α)} {v : Val α} (hw : ∀ a ∈ args, a.Wf) (h : run N o args = some v) :
    v.Wf := by
  have hi := run_inv h
  have ht := run_total (N := N) hi.1 (fun a ha hw => (hi.2 a ha hw).2)
  rw [h] at ht
  simp only [Option.some.injEq] at ht
  have hn : v.ty.w ≠ .arr → v.rows.length = 1 := by
    intro hn
    rw [ht]
    simp [hn]
  apply wf_of_rows hn
  intro x hx
  rw [ht] at hx
  simp only [List.mem_map, List.mem_range] at hx
  obtain ⟨i, hi', rfl⟩ := hx
  apply el_rowOk hi.1
  have : ∀ (l : List (Val α)), (∀ a ∈ l, RowOk a.ty (a.row i)) → List.Forall₂ RowOk (l.map (·.ty)) (l.map (·.row i)) := by
    intro l hl
    induction l with
    | nil => exact .nil
    | cons a l ih => exact .cons (hl a List.mem_cons_self) (ih (fun b hb => hl b (List.mem_cons_of_mem _ hb)))
  apply this
  intro a ha
  apply (hw a ha).rowOk
  intro haw
  have := hi.2 a ha haw
  rw [if_pos this.1] at hi'
  omega

theorem eval_wf {N : Num α} {ρ : Nat → Val α} (hρ : ∀ k, (ρ k).Wf) : ∀ (e : Ex α) {v : Val α}, e.LitsOk →
    e.eval N ρ = some v → v.Wf
  | .var k, v, _, h => by simp only [Pat.eval, Option.some.injEq] at h; exact h ▸ hρ k
  | .lit w, v, hl, h => by simp only [Pat.eval, Option.some.injEq] at h; exact h ▸ hl
  | .c1 o x, v, hl, h => by
    simp only [Pat.eval, Option.bind_eq_bind, Option.bind_eq_some_iff] at h
    obtain ⟨v1, h1, h⟩ := h
    exact run_wf (by simpa using eval_wf hρ x hl h1) h
  | .c2 o x y, v, hl, h => by
    simp only [Pat.eval, Option.bind_eq_bind, Option.bind_eq_some_iff] at h
    obtain ⟨v1, h1, v2, h2, h⟩ := h
    exact run_wf (by simpa using ⟨eval_wf hρ x hl.1 h1, eval_wf hρ y hl.2 h2⟩) h
  | .c3 o x y z, v, hl, h => by
    simp only [Pat.eval, Option.bind_eq_bind, Option.bind_eq_some_iff] at h
    obtain ⟨v1, h1, v2, h2, v3, h3, h⟩ := h
    exact run_wf (by simpa using ⟨eval_wf hρ x hl.1 h1, eval_wf hρ y hl.2.1 h2, eval_wf hρ z hl.2.2 h3⟩) h
  | .c4 o x y z u, v, hl, h => by
    simp only [Pat.eval, Option.bind_eq_bind, Option.bind_eq_some_iff] at h
    obtain ⟨v1, h1, v2, h2, v3, h3, v4, h4, h⟩ := h
    exact run_wf (by simpa using
      ⟨eval_wf hρ x hl.1 h1, eval_wf hρ y hl.2.1 h2, eval_wf hρ z hl.2.2.1 h3, eval_wf hρ u hl.2.2.2 h4⟩) h

/-! ## Substitution -/

theorem eval_subst_vars {N : Num α} {ρ : Nat → Val α} {θ : Nat → Ex α} : ∀ (p : Pat α) {v : Val α},
    (p.subst θ).eval N ρ = some v → ∀ k ∈ p.vars, ∃ w, (θ k).eval N ρ = some w
  | .var k, v, h, j, hj => by
    simp only [Pat.vars, List.mem_singleton] at hj
    exact ⟨v, hj ▸ h⟩
  | .lit w, v, h, j, hj => by simp [Pat.vars] at hj
  | .c1 o x, v, h, j, hj => by
    simp only [Pat.subst, Pat.eval, Option.bind_eq_bind, Option.bind_eq_some_iff] at h
    obtain ⟨v1, h1, h⟩ := h
    exact eval_subst_vars x h1 j hj
  | .c2 o x y, v, h, j, hj => by
    simp only [Pat.subst, Pat.eval, Option.bind_eq_bind, Option.bind_eq_some_iff] at h
    obtain ⟨v1, h1, v2, h2, h⟩ := h
    simp only [Pat.vars, List.mem_append] at hj
    rcases hj with hj | hj
    · exact eval_subst_vars x h1 j hj
    · exact eval_subst_vars y h2 j hj
  | .c3 o x y z, v, h, j, hj => by
    simp only [Pat.subst, Pat.eval, Option.bind_eq_bind, Option.bind_eq_some_iff] at h
    obtain ⟨v1, h1, v2, h2, v3, h3, h⟩ := h
    simp only [Pat.vars, List.mem_append] at hj
    rcases hj with (hj | hj) | hj
    · exact eval_subst_vars x h1 j hj
    · exact eval_subst_vars y h2 j hj
    · exact eval_subst_vars z h3 j hj
  | .c4 o x y z u, v, h, j, hj => by
    simp only [Pat.subst, Pat.eval, Option.bind_eq_bind, Option.bind_eq_some_iff] at h
    obtain ⟨v1, h1, v2, h2, v3, h3, v4, h4, h⟩ := h
    simp only [Pat.vars, List.mem_append] at hj
    rcases hj with ((hj | hj) | hj) | hj
    · exact eval_subst_vars x h1 j hj
    · exact eval_subst_vars y h2 j hj
    · exact eval_subst_vars z h3 j hj
    · exact eval_subst_vars u h4 j hj

theorem eval_subst {N : Num α} {ρ ρ' : Nat → Val α} {θ : Nat → Ex α} : ∀ (p : Pat α),
    (∀ k ∈ p.vars, (θ k).eval N ρ = some (ρ' k)) → (p.subst θ).eval N ρ = p.eval N ρ'
  | .var k, h => by simp [Pat.subst, Pat.eval, h k (by simp [Pat.vars])]
  | .lit w, h => rfl
  | .c1 o x, h => by simp [Pat.subst, Pat.eval, eval_subst x h]
  | .c2 o x y, h => by
    simp only [Pat.vars, List.mem_append] at h
    simp [Pat.subst, Pat.eval, eval_subst x (fun k hk => h k (Or.inl hk)), eval_subst y (fun k hk => h k (Or.inr hk))]
  | .c3 o x y z, h => by
    simp only [Pat.vars, List.mem_append] at h
    simp [Pat.subst, Pat.eval, eval_subst x (fun k hk => h k (Or.inl (Or.inl hk))),
      eval_subst y (fun k hk => h k (Or.inl (Or.inr hk))), eval_subst z (fun k hk => h k (Or.inr hk))]
  | .c4 o x y z u, h => by
    simp only [Pat.vars, List.mem_append] at h
    simp [Pat.subst, Pat.eval, eval_subst x (fun k hk => h k (Or.inl (Or.inl (Or.inl hk)))),
      eval_subst y (fun k hk => h k (Or.inl (Or.inl (Or.inr hk)))), eval_subst z (fun k hk => h k (Or.inl (Or.inr hk))),
      eval_subst u (fun k hk => h k (Or.inr hk))]

theorem type_subst {f : Op → List Ty → Option Ty} {τ τ' : Nat → Ty} {θ : Nat → Ex α} : ∀ (p : Pat α),
    (∀ k ∈ p.vars, (θ k).type f τ = some (τ' k)) → (p.subst θ).type f τ = p.type f τ'
  | .var k, h => by simp [Pat.subst, Pat.type, h k (by simp [Pat.vars])]
  | .lit w, h => rfl
  | .c1 o x, h => by simp [Pat.subst, Pat.type, type_subst x h]
  | .c2 o x y, h => by
    simp only [Pat.vars, List.mem_append] at h
    simp [Pat.subst, Pat.type, type_subst x (fun k hk => h k (Or.inl hk)), type_subst y (fun k hk => h k (Or.inr hk))]
  | .c3 o x y z, h => by
    simp only [Pat.vars, List.mem_append] at h
    simp [Pat.subst, Pat.type, type_subst x (fun k hk => h k (Or.inl (Or.inl hk))),
      type_subst y (fun k hk => h k (Or.inl (Or.inr hk))), type_subst z (fun k hk => h k (Or.inr hk))]
  | .c4 o x y z u, h => by
    simp only [Pat.vars, List.mem_append] at h
    simp [Pat.subst, Pat.type, type_subst x (fun k hk => h k (Or.inl (Or.inl (Or.inl hk)))),
      type_subst y (fun k hk => h k (Or.inl (Or.inl (Or.inr hk)))), type_subst z (fun k hk => h k (Or.inl (Or.inr hk))),
      type_subst u (fun k hk => h k (Or.inr hk))]

theorem litsOk_subst {θ : Nat → Ex α} : ∀ (p : Pat α), (p.subst θ).LitsOk ↔ p.LitsOk ∧ ∀ k ∈ p.vars, (θ k).LitsOk
  | .var k => by simp [Pat.subst, Pat.LitsOk, Pat.vars]
  | .lit w => by simp [Pat.subst, Pat.LitsOk, Pat.vars]
  | .c1 o x => by simp [Pat.subst, Pat.LitsOk, Pat.vars, litsOk_subst x]
  | .c2 o x y => by
    simp only [Pat.subst, Pat.LitsOk, Pat.vars, litsOk_subst x, litsOk_subst y, List.mem_append]; grind
  | .c3 o x y z => by
    simp only [Pat.subst, Pat.LitsOk, Pat.vars, litsOk_subst x, litsOk_subst y, litsOk_subst z, List.mem_append]; grind
  | .c4 o x y z u => by
    simp only [Pat.subst, Pat.LitsOk, Pat.vars, litsOk_subst x, litsOk_subst y, litsOk_subst z, litsOk_subst u,
      List.mem_append]; grind

/-! ## Rules inside of an expression -/

/-- What the theorem about expressions needs of a rule. -/
structure Rule.Fit [DecidableEq α] (N : Num α) (r : Rule α) : Prop where
  keeps : r.Keeps N
  vars : ∀ k ∈ r.dst.vars, k ∈ r.src.vars
  lits : r.dst.LitsOk

theorem step_eval [DecidableEq α] {N : Num α} {rules : List (Rule α)} (hr : ∀ r ∈ rules, r.Fit N) {τ : Nat → Ty} {e e' : Ex α}
    (h : Step N rules τ e e') {ρ : Nat → Val α} (hρ : ∀ k, (ρ k).Wf) (hτ : ∀ k, (ρ k).ty = τ k) (hl : e.LitsOk) :
    e'.LitsOk ∧ e'.type infer τ = e.type infer τ ∧ ∀ v, e.eval N ρ = some v → e'.eval N ρ = some v := by
  induction h with
  | root r hm θ σ hσ hc ht =>
    have hf := hr r hm
    have hls := (litsOk_subst r.src).1 hl
    refine ⟨(litsOk_subst r.dst).2 ⟨hf.lits, fun k hk => hls.2 k (hf.vars k hk)⟩, ht, fun v hv => ?_⟩
    let ρ' : Nat → Val α := fun k => ((θ k).eval N ρ).getD ⟨⟨.opt, .unit⟩, [none]⟩
    have hev : ∀ k ∈ r.src.vars, (θ k).eval N ρ = some (ρ' k) := by
      intro k hk
      obtain ⟨w, hw⟩ := eval_subst_vars r.src hv k hk
      simp [ρ', hw]
    have hts : (fun k => (ρ k).ty) = τ := funext hτ
    have hty : ∀ k ∈ r.src.vars, (θ k).type infer τ = some ((σ k).ty) := fun k hk => (hσ k hk).ty
    have hvt := (eval_inv _ hv).1
    rw [hts] at hvt
    rw [eval_subst r.dst (fun k hk => hev k (hf.vars k hk))]
    rw [eval_subst r.src hev] at hv
    refine hf.keeps σ ρ' (fun k hk => eval_wf hρ (θ k) (hls.2 k hk) (hev k hk)) (fun k hk => ⟨?_, ?_⟩) hc v.ty ?_ ?_ v hv
    · have := (eval_inv _ (hev k hk)).1
      rw [hts, hty k hk] at this
      exact Option.some.inj this
    · intro q hq
      exact ((hσ k hk).qvalue q hq).2 ρ hρ hτ _ (hev k hk)
    · rw [← type_subst r.src hty]; exact hvt
    · rw [← type_subst r.dst (fun k hk => hty k (hf.vars k hk)), ht]; exact hvt
  | c1 h ih =>
    obtain ⟨h1, h2, h3⟩ := ih hl
    refine ⟨h1, by simp [Pat.type, h2], fun v hv => ?_⟩
    simp only [Pat.eval, Option.bind_eq_bind, Option.bind_eq_some_iff] at hv ⊢
    obtain ⟨v1, e1, hv⟩ := hv
    exact ⟨v1, h3 v1 e1, hv⟩
  | c2a h ih =>
    obtain ⟨h1, h2, h3⟩ := ih hl.1
    refine ⟨⟨h1, hl.2⟩, by simp [Pat.type, h2], fun v hv => ?_⟩
    simp only [Pat.eval, Option.bind_eq_bind, Option.bind_eq_some_iff] at hv ⊢
    obtain ⟨v1, e1, hv⟩ := hv
    exact ⟨v1, h3 v1 e1, hv⟩
  | c2b h ih =>
    obtain ⟨h1, h2, h3⟩ := ih hl.2
    refine ⟨⟨hl.1, h1⟩, by simp [Pat.type, h2], fun v hv => ?_⟩
    simp only [Pat.eval, Option.bind_eq_bind, Option.bind_eq_some_iff] at hv ⊢
    obtain ⟨v1, e1, v2, e2, hv⟩ := hv
    exact ⟨v1, e1, v2, h3 v2 e2, hv⟩
  | c3a h ih =>
    obtain ⟨h1, h2, h3⟩ := ih hl.1
    refine ⟨⟨h1, hl.2⟩, by simp [Pat.type, h2], fun v hv => ?_⟩
    simp only [Pat.eval, Option.bind_eq_bind, Option.bind_eq_some_iff] at hv ⊢
    obtain ⟨v1, e1, hv⟩ := hv
    exact ⟨v1, h3 v1 e1, hv⟩
  | c3b h ih =>
    obtain ⟨h1, h2, h3⟩ := ih hl.2.1
    refine ⟨⟨hl.1, h1, hl.2.2⟩, by simp [Pat.type, h2], fun v hv => ?_⟩
    simp only [Pat.eval, Option.bind_eq_bind, Option.bind_eq_some_iff] at hv ⊢
    obtain ⟨v1, e1, v2, e2, hv⟩ := hv
    exact ⟨v1, e1, v2, h3 v2 e2, hv⟩
  | c3c h ih =>
    obtain ⟨h1, h2, h3⟩ := ih hl.2.2
    refine ⟨⟨hl.1, hl.2.1, h1⟩, by simp [Pat.type, h2], fun v hv => ?_⟩
    simp only [Pat.eval, Option.bind_eq_bind, Option.bind_eq_some_iff] at hv ⊢
    obtain ⟨v1, e1, v2, e2, v3, e3, hv⟩ := hv
    exact ⟨v1, e1, v2, e2, v3, h3 v3 e3, hv⟩
  | c4a h ih =>
    obtain ⟨h1, h2, h3⟩ := ih hl.1
    refine ⟨⟨h1, hl.2⟩, by simp [Pat.type, h2], fun v hv => ?_⟩
    simp only [Pat.eval, Option.bind_eq_bind, Option.bind_eq_some_iff] at hv ⊢
    obtain ⟨v1, e1, hv⟩ := hv
    exact ⟨v1, h3 v1 e1, hv⟩
  | c4b h ih =>
    obtain ⟨h1, h2, h3⟩ := ih hl.2.1
    refine ⟨⟨hl.1, h1, hl.2.2⟩, by simp [Pat.type, h2], fun v hv => ?_⟩
    simp only [Pat.eval, Option.bind_eq_bind, Option.bind_eq_some_iff] at hv ⊢
    obtain ⟨v1, e1, v2, e2, hv⟩ := hv
    exact ⟨v1, e1, v2, h3 v2 e2, hv⟩
  | c4c h ih =>
    obtain ⟨h1, h2, h3⟩ := ih hl.2.2.1
    refine ⟨⟨hl.1, hl.2.1, h1, hl.2.2.2⟩, by simp [Pat.type, h2], fun v hv => ?_⟩
    simp only [Pat.eval, Option.bind_eq_bind, Option.bind_eq_some_iff] at hv ⊢
    obtain ⟨v1, e1, v2, e2, v3, e3, hv⟩ := hv
    exact ⟨v1, e1, v2, e2, v3, h3 v3 e3, hv⟩
  | c4d h ih =>
    obtain ⟨h1, h2, h3⟩ := ih hl.2.2.2
    refine ⟨⟨hl.1, hl.2.1, hl.2.2.1, h1⟩, by simp [Pat.type, h2], fun v hv => ?_⟩
    simp only [Pat.eval, Option.bind_eq_bind, Option.bind_eq_some_iff] at hv ⊢
    obtain ⟨v1, e1, v2, e2, v3, e3, v4, e4, hv⟩ := hv
    exact ⟨v1, e1, v2, e2, v3, e3, v4, h3 v4 e4, hv⟩

theorem steps_eval [DecidableEq α] {N : Num α} {rules : List (Rule α)} (hr : ∀ r ∈ rules, r.Fit N) {τ : Nat → Ty} {e e' : Ex α}
    (h : Steps N rules τ e e') {ρ : Nat → Val α} (hρ : ∀ k, (ρ k).Wf) (hτ : ∀ k, (ρ k).ty = τ k) (hl : e.LitsOk) :
    e'.type infer τ = e.type infer τ ∧ ∀ v, e.eval N ρ = some v → e'.eval N ρ = some v := by
  induction h with
  | refl e => exact ⟨rfl, fun _ h => h⟩
  | step h hs ih =>
    obtain ⟨h1, h2, h3⟩ := step_eval hr h hρ hτ hl
    obtain ⟨h4, h5⟩ := ih h1
    exact ⟨h4.trans h2, fun v hv => h5 v (h3 v hv)⟩

end Verif.Rules
