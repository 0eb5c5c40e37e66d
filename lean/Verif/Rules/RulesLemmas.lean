import Verif.Rules.RulesSpec
import Mathlib.Logic.Basic

/-!
# Evaluation row by row
-/

namespace Verif.Rules
variable {α : Type}

/-- A pattern on one row. -/
def Pat.elP (N : Num α) (e : Nat → Option (Elem α)) : Pat α → Option (Elem α)
  | .var k => e k
  | .lit v => v.row 0
  | .c1 o x => el N o [x.elP N e]
  | .c2 o x y => el N o [x.elP N e, y.elP N e]
  | .c3 o x y z => el N o [x.elP N e, y.elP N e, z.elP N e]
  | .c4 o x y z t => el N o [x.elP N e, y.elP N e, z.elP N e, t.elP N e]

/-- The literals are scalars or optionals. -/
def Pat.flatLits : Pat α → Bool
  | .var _ => true
  | .lit v => v.ty.w != .arr && v.rows.length == 1
  | .c1 _ x => x.flatLits
  | .c2 _ x y => x.flatLits && y.flatLits
  | .c3 _ x y z => x.flatLits && y.flatLits && z.flatLits
  | .c4 _ x y z t => x.flatLits && y.flatLits && z.flatLits && t.flatLits

theorem Wr.max_arr (a b : Wr) : a.max b = .arr ↔ a = .arr ∨ b = .arr := by cases a <;> cases b <;> decide

theorem infer_arr {o : Op} {ts : List Ty} {t : Ty} (h : infer o ts = some t) : t.w = .arr ↔ ∃ x ∈ ts, x.w = .arr := by
  unfold infer at h
  split at h
  all_goals simp only [common, Option.map_eq_some_iff, Option.bind_eq_some_iff, Option.ite_none_right_eq_some,
    Option.some.injEq, reduceCtorEq] at h
  all_goals simp only [List.mem_cons, List.not_mem_nil, or_false, exists_eq_or_imp, exists_eq_left]
  all_goals
    first
    | (subst h; simp [Wr.max_arr]; done)
    | (obtain ⟨h1, h⟩ := h; subst h; simp [Wr.max_arr]; grind)
    | (obtain ⟨_, ⟨h1, rfl⟩, rfl⟩ := h; simp [Wr.max_arr]; done)
    | (obtain ⟨h1, _, ⟨h2, rfl⟩, rfl⟩ := h; simp only; split <;> simp_all [Wr.max_arr]; done)
    | (obtain ⟨h1, _, ⟨_, ⟨h2, rfl⟩, h3, rfl⟩, rfl⟩ := h; simp only; split <;> simp_all [Wr.max_arr, or_assoc]; done)
    | (obtain ⟨h1, h2, rfl⟩ := h; simp_all [Wr.max_arr]; done)
    | skip
  all_goals grind [Wr.max_arr]

theorem commonSize_inv : ∀ {args : List (Val α)} {n : Option Nat}, commonSize args = some n →
    (∀ a ∈ args, a.ty.w = .arr → n = some a.rows.length)
  | [], n, h, a, ha => by simp at ha
  | v :: vs, n, h, a, ha => by
    intro hw
    unfold commonSize at h
    split at h
    · simp at h
    · rename_i hc
      have ih := commonSize_inv hc
      rcases List.mem_cons.1 ha with rfl | ha
      · simp only [if_pos hw] at h; simpa using h.symm
      · exact absurd (ih a ha hw) (by simp)
    · rename_i m hc
      have ih := commonSize_inv hc
      split at h
      · simp at h
      · rename_i hn
        simp only [Option.some.injEq] at h
        subst h
        rcases List.mem_cons.1 ha with rfl | ha
        · simp only [not_and, ne_eq, Decidable.not_not] at hn
          simp [hn hw]
        · exact ih a ha hw

theorem commonSize_total {n : Nat} : ∀ {args : List (Val α)}, (∀ a ∈ args, a.ty.w = .arr → a.rows.length = n) →
    commonSize args = some (if ∃ a ∈ args, a.ty.w = .arr then some n else none)
  | [], _ => by simp [commonSize]
  | v :: vs, h => by
    have ih := commonSize_total (args := vs) (fun a ha => h a (List.mem_cons_of_mem _ ha))
    have hv := h v List.mem_cons_self
    unfold commonSize
    rw [ih]
    by_cases hx : ∃ a ∈ vs, a.ty.w = .arr
    · simp only [if_pos hx, List.mem_cons, exists_eq_or_imp, hx, or_true, if_true]
      rw [if_neg]
      rintro ⟨h1, h2⟩
      exact h2 (hv h1)
    · simp only [List.mem_cons, exists_eq_or_imp, hx, or_false, if_false]
      split
      · rename_i hw; simp [hv hw]
      · rfl

theorem run_total {N : Num α} {o : Op} {args : List (Val α)} {t : Ty} {n : Nat} (ht : infer o (args.map (·.ty)) = some t)
    (h : ∀ a ∈ args, a.ty.w = .arr → a.rows.length = n) :
    run N o args = some ⟨t, (List.range (if t.w = .arr then n else 1)).map (fun i => el N o (args.map (·.row i)))⟩ := by
  have h1 := infer_arr ht
  simp only [List.mem_map, exists_exists_and_eq_and] at h1
  simp only [run, ht, commonSize_total h]
  by_cases hx : ∃ a ∈ args, a.ty.w = .arr
  · simp [hx, h1.2 hx]
  · simp [hx, mt h1.1 hx]

theorem run_inv {N : Num α} {o : Op} {args : List (Val α)} {v : Val α} (h : run N o args = some v) :
    infer o (args.map (·.ty)) = some v.ty ∧ ∀ a ∈ args, a.ty.w = .arr → v.ty.w = .arr ∧ a.rows.length = v.rows.length := by
  unfold run at h
  split at h
  · rename_i t n ht hn
    simp only [Option.some.injEq] at h
    subst h
    refine ⟨ht, fun a ha hw => ?_⟩
    have h1 := infer_arr ht
    simp only [List.mem_map, exists_exists_and_eq_and] at h1
    refine ⟨h1.2 ⟨a, ha, hw⟩, ?_⟩
    simp [commonSize_inv hn a ha hw]
  · simp at h

/-- The value of a subpattern. -/
structure Good (N : Num α) (ρ : Nat → Val α) (n : Nat) (p : Pat α) (v : Val α) : Prop where
  eval : p.eval N ρ = some v
  len : v.rows.length = if v.ty.w = .arr then n else 1
  row : ∀ i, (v.ty.w = .arr → i < n) → v.row i = p.elP N (fun k => (ρ k).row i)

theorem row_range {t : Ty} {n : Nat} {f : Nat → Option (Elem α)} {i : Nat} (h : t.w = .arr → i < n) :
    Val.row ⟨t, (List.range (if t.w = .arr then n else 1)).map f⟩ i = f (if t.w = .arr then i else 0) := by
  unfold Val.row
  dsimp only
  split
  · rename_i hw
    simp [hw, h hw]
  · rename_i hw
    rw [if_neg hw, if_neg hw]
    rfl

theorem row_flat {v : Val α} (h : v.ty.w ≠ .arr) (i j : Nat) : v.row i = v.row j := by
  unfold Val.row
  split
  · contradiction
  · rfl

/-- An operator applied to good values. -/
theorem run_good {N : Num α} {o : Op} {args : List (Val α)} {t : Ty} {n : Nat} (ht : infer o (args.map (·.ty)) = some t)
    (h : ∀ a ∈ args, a.rows.length = if a.ty.w = .arr then n else 1) :
    ∃ v, run N o args = some v ∧ v.ty = t ∧ (v.rows.length = if v.ty.w = .arr then n else 1) ∧
      ∀ i, (v.ty.w = .arr → i < n) → v.row i = el N o (args.map (·.row i)) := by
  refine ⟨_, run_total ht (fun a ha hw => by rw [h a ha, if_pos hw]), rfl, by simp, fun i hi => ?_⟩
  rw [row_range hi]
  dsimp only
  by_cases hw : t.w = .arr
  · rw [if_pos hw]
  · rw [if_neg hw]
    congr 1
    apply List.map_congr_left
    intro a ha
    apply row_flat
    intro haw
    apply hw
    rw [infer_arr ht]
    exact ⟨a.ty, List.mem_map_of_mem ha, haw⟩

theorem eval_total {N : Num α} {ρ : Nat → Val α} {n : Nat} : ∀ (p : Pat α) {T : Ty}, p.flatLits = true →
    (∀ k ∈ p.vars, (ρ k).rows.length = if (ρ k).ty.w = .arr then n else 1) → p.type infer (fun k => (ρ k).ty) = some T →
    ∃ v, Good N ρ n p v ∧ v.ty = T
  | .var k, T, _, hv, ht => by
    simp only [Pat.type, Option.some.injEq] at ht
    exact ⟨ρ k, ⟨rfl, hv k (by simp [Pat.vars]), fun i _ => rfl⟩, ht⟩
  | .lit v, T, hl, _, ht => by
    simp only [Pat.type, Option.some.injEq] at ht
    simp only [Pat.flatLits, Bool.and_eq_true, bne_iff_ne, ne_eq, beq_iff_eq] at hl
    exact ⟨v, ⟨rfl, by simp [hl], fun i _ => row_flat hl.1 i 0⟩, ht⟩
  | .c1 o x, T, hl, hv, ht => by
    simp only [Pat.type, Option.bind_eq_bind, Option.bind_eq_some_iff] at ht
    obtain ⟨t1, h1, ht⟩ := ht
    obtain ⟨v1, g1, rfl⟩ := eval_total (N := N) x hl hv h1
    obtain ⟨v, e, t, l, r⟩ := run_good (N := N) (o := o) (args := [v1]) (n := n) (t := T) ht (by simp [g1.len])
    refine ⟨v, ⟨by simp [Pat.eval, g1.eval, e], l, fun i hi => ?_⟩, t⟩
    have ha := (infer_arr ht).2
    simp only [List.mem_cons, List.not_mem_nil, or_false, exists_eq_or_imp, exists_eq_left] at ha
    rw [r i hi]
    simp [Pat.elP, g1.row i (fun h => hi (t ▸ ha h))]
  | .c2 o x y, T, hl, hv, ht => by
    simp only [Pat.type, Option.bind_eq_bind, Option.bind_eq_some_iff] at ht
    simp only [Pat.flatLits, Bool.and_eq_true] at hl
    simp only [Pat.vars, List.mem_append] at hv
    obtain ⟨t1, h1, t2, h2, ht⟩ := ht
    obtain ⟨v1, g1, rfl⟩ := eval_total (N := N) x hl.1 (fun k hk => hv k (Or.inl hk)) h1
    obtain ⟨v2, g2, rfl⟩ := eval_total (N := N) y hl.2 (fun k hk => hv k (Or.inr hk)) h2
    obtain ⟨v, e, t, l, r⟩ := run_good (N := N) (o := o) (args := [v1, v2]) (n := n) (t := T) ht (by simp [g1.len, g2.len])
    refine ⟨v, ⟨by simp [Pat.eval, g1.eval, g2.eval, e], l, fun i hi => ?_⟩, t⟩
    have ha := (infer_arr ht).2
    simp only [List.mem_cons, List.not_mem_nil, or_false, exists_eq_or_imp, exists_eq_left] at ha
    rw [r i hi]
    simp [Pat.elP, g1.row i (fun h => hi (t ▸ ha (Or.inl h))), g2.row i (fun h => hi (t ▸ ha (Or.inr h)))]
  | .c3 o x y z, T, hl, hv, ht => by
    simp only [Pat.type, Option.bind_eq_bind, Option.bind_eq_some_iff] at ht
    simp only [Pat.flatLits, Bool.and_eq_true] at hl
    simp only [Pat.vars, List.mem_append] at hv
    obtain ⟨t1, h1, t2, h2, t3, h3, ht⟩ := ht
    obtain ⟨v1, g1, rfl⟩ := eval_total (N := N) x hl.1.1 (fun k hk => hv k (Or.inl (Or.inl hk))) h1
    obtain ⟨v2, g2, rfl⟩ := eval_total (N := N) y hl.1.2 (fun k hk => hv k (Or.inl (Or.inr hk))) h2
    obtain ⟨v3, g3, rfl⟩ := eval_total (N := N) z hl.2 (fun k hk => hv k (Or.inr hk)) h3
    obtain ⟨v, e, t, l, r⟩ := run_good (N := N) (o := o) (args := [v1, v2, v3]) (n := n) (t := T) ht
      (by simp [g1.len, g2.len, g3.len])
    refine ⟨v, ⟨by simp [Pat.eval, g1.eval, g2.eval, g3.eval, e], l, fun i hi => ?_⟩, t⟩
    have ha := (infer_arr ht).2
    simp only [List.mem_cons, List.not_mem_nil, or_false, exists_eq_or_imp, exists_eq_left] at ha
    rw [r i hi]
    simp [Pat.elP, g1.row i (fun h => hi (t ▸ ha (Or.inl h))), g2.row i (fun h => hi (t ▸ ha (Or.inr (Or.inl h)))),
      g3.row i (fun h => hi (t ▸ ha (Or.inr (Or.inr h))))]
  | .c4 o x y z u, T, hl, hv, ht => by
    simp only [Pat.type, Option.bind_eq_bind, Option.bind_eq_some_iff] at ht
    simp only [Pat.flatLits, Bool.and_eq_true] at hl
    simp only [Pat.vars, List.mem_append] at hv
    obtain ⟨t1, h1, t2, h2, t3, h3, t4, h4, ht⟩ := ht
    obtain ⟨v1, g1, rfl⟩ := eval_total (N := N) x hl.1.1.1 (fun k hk => hv k (Or.inl (Or.inl (Or.inl hk)))) h1
    obtain ⟨v2, g2, rfl⟩ := eval_total (N := N) y hl.1.1.2 (fun k hk => hv k (Or.inl (Or.inl (Or.inr hk)))) h2
    obtain ⟨v3, g3, rfl⟩ := eval_total (N := N) z hl.1.2 (fun k hk => hv k (Or.inl (Or.inr hk))) h3
    obtain ⟨v4, g4, rfl⟩ := eval_total (N := N) u hl.2 (fun k hk => hv k (Or.inr hk)) h4
    obtain ⟨v, e, t, l, r⟩ := run_good (N := N) (o := o) (args := [v1, v2, v3, v4]) (n := n) (t := T) ht
      (by simp [g1.len, g2.len, g3.len, g4.len])
    refine ⟨v, ⟨by simp [Pat.eval, g1.eval, g2.eval, g3.eval, g4.eval, e], l, fun i hi => ?_⟩, t⟩
    have ha := (infer_arr ht).2
    simp only [List.mem_cons, List.not_mem_nil, or_false, exists_eq_or_imp, exists_eq_left] at ha
    rw [r i hi]
    simp [Pat.elP, g1.row i (fun h => hi (t ▸ ha (Or.inl h))), g2.row i (fun h => hi (t ▸ ha (Or.inr (Or.inl h)))),
      g3.row i (fun h => hi (t ▸ ha (Or.inr (Or.inr (Or.inl h))))), g4.row i (fun h => hi (t ▸ ha (Or.inr (Or.inr (Or.inr h)))))]

/-- The type of a value and the sizes of the arrays in it. -/
theorem eval_inv {N : Num α} {ρ : Nat → Val α} : ∀ (p : Pat α) {v : Val α}, p.eval N ρ = some v →
    p.type infer (fun k => (ρ k).ty) = some v.ty ∧
      ∀ k ∈ p.vars, (ρ k).ty.w = .arr → v.ty.w = .arr ∧ (ρ k).rows.length = v.rows.length
  | .var k, v, h => by
    simp only [Pat.eval, Option.some.injEq] at h
    subst h
    exact ⟨rfl, by simp [Pat.vars]⟩
  | .lit w, v, h => by
    simp only [Pat.eval, Option.some.injEq] at h
    subst h
    exact ⟨rfl, by simp [Pat.vars]⟩
  | .c1 o x, v, h => by
    simp only [Pat.eval, Option.bind_eq_bind, Option.bind_eq_some_iff] at h
    obtain ⟨v1, h1, h⟩ := h
    have i1 := eval_inv x h1
    have hr := run_inv h
    refine ⟨by simpa [Pat.type, i1.1] using hr.1, fun k hk hw => ?_⟩
    have := i1.2 k hk hw
    have h3 := hr.2 v1 (by simp) this.1
    exact ⟨h3.1, this.2.trans h3.2⟩
  | .c2 o x y, v, h => by
    simp only [Pat.eval, Option.bind_eq_bind, Option.bind_eq_some_iff] at h
    obtain ⟨v1, h1, v2, h2, h⟩ := h
    have i1 := eval_inv x h1
    have i2 := eval_inv y h2
    have hr := run_inv h
    refine ⟨by simpa [Pat.type, i1.1, i2.1] using hr.1, fun k hk hw => ?_⟩
    simp only [Pat.vars, List.mem_append] at hk
    rcases hk with hk | hk
    · have := i1.2 k hk hw
      have h3 := hr.2 v1 (by simp) this.1
      exact ⟨h3.1, this.2.trans h3.2⟩
    · have := i2.2 k hk hw
      have h3 := hr.2 v2 (by simp) this.1
      exact ⟨h3.1, this.2.trans h3.2⟩
  | .c3 o x y z, v, h => by
    simp only [Pat.eval, Option.bind_eq_bind, Option.bind_eq_some_iff] at h
    obtain ⟨v1, h1, v2, h2, v3, h3, h⟩ := h
    have i1 := eval_inv x h1
    have i2 := eval_inv y h2
    have i3 := eval_inv z h3
    have hr := run_inv h
    refine ⟨by simpa [Pat.type, i1.1, i2.1, i3.1] using hr.1, fun k hk hw => ?_⟩
    simp only [Pat.vars, List.mem_append] at hk
    rcases hk with (hk | hk) | hk
    · have := i1.2 k hk hw
      have h3 := hr.2 v1 (by simp) this.1
      exact ⟨h3.1, this.2.trans h3.2⟩
    · have := i2.2 k hk hw
      have h3 := hr.2 v2 (by simp) this.1
      exact ⟨h3.1, this.2.trans h3.2⟩
    · have := i3.2 k hk hw
      have h3 := hr.2 v3 (by simp) this.1
      exact ⟨h3.1, this.2.trans h3.2⟩
  | .c4 o x y z u, v, h => by
    simp only [Pat.eval, Option.bind_eq_bind, Option.bind_eq_some_iff] at h
    obtain ⟨v1, h1, v2, h2, v3, h3, v4, h4, h⟩ := h
    have i1 := eval_inv x h1
    have i2 := eval_inv y h2
    have i3 := eval_inv z h3
    have i4 := eval_inv u h4
    have hr := run_inv h
    refine ⟨by simpa [Pat.type, i1.1, i2.1, i3.1, i4.1] using hr.1, fun k hk hw => ?_⟩
    simp only [Pat.vars, List.mem_append] at hk
    rcases hk with ((hk | hk) | hk) | hk
    · have := i1.2 k hk hw
      have h3 := hr.2 v1 (by simp) this.1
      exact ⟨h3.1, this.2.trans h3.2⟩
    · have := i2.2 k hk hw
      have h3 := hr.2 v2 (by simp) this.1
      exact ⟨h3.1, this.2.trans h3.2⟩
    · have := i3.2 k hk hw
      have h3 := hr.2 v3 (by simp) this.1
      exact ⟨h3.1, this.2.trans h3.2⟩
    · have := i4.2 k hk hw
      have h3 := hr.2 v4 (by simp) this.1
      exact ⟨h3.1, this.2.trans h3.2⟩

theorem val_ext {v w : Val α} (ht : v.ty = w.ty) (hl : v.rows.length = w.rows.length)
    (hn : v.ty.w ≠ .arr → v.rows.length = 1)
    (hr : ∀ i, (v.ty.w = .arr → i < v.rows.length) → v.row i = w.row i) : v = w := by
  obtain ⟨tv, rv⟩ := v
  obtain ⟨tw, rw'⟩ := w
  dsimp only at ht hl hn hr
  subst ht
  congr 1
  apply List.ext_getElem hl
  intro i h1 h2
  have h := hr i (fun _ => h1)
  simp only [Val.row] at h
  split at h
  · simpa [h1, h2] using h
  · rename_i hw
    have := hn hw
    have hi : i = 0 := by omega
    subst hi
    simpa [h1, h2] using h

/-- A rule keeps values if it does so on every row. -/
theorem keeps_of_rows {N : Num α} {src dst : Pat α} {ρ : Nat → Val α} {T : Ty} (hs : src.flatLits = true)
    (hd : dst.flatLits = true) (hsub : ∀ k ∈ dst.vars, k ∈ src.vars) (hwf : ∀ k ∈ src.vars, (ρ k).Wf)
    (htd : dst.type infer (fun k => (ρ k).ty) = some T) {v : Val α} (hv : src.eval N ρ = some v) (hT : v.ty = T)
    (hrow : ∀ i, (T.w = .arr → i < v.rows.length) →
      src.elP N (fun k => (ρ k).row i) = dst.elP N (fun k => (ρ k).row i)) :
    dst.eval N ρ = some v := by
  have hi := eval_inv src hv
  have hlen : ∀ k ∈ src.vars, (ρ k).rows.length = if (ρ k).ty.w = .arr then v.rows.length else 1 := by
    intro k hk
    split
    · rename_i hw; exact (hi.2 k hk hw).2
    · rename_i hw; exact (hwf k hk).single hw
  obtain ⟨v1, g1, t1⟩ := eval_total (N := N) src hs hlen hi.1
  have e1 := g1.eval
  rw [hv] at e1
  simp only [Option.some.injEq] at e1
  subst e1
  obtain ⟨v2, g2, t2⟩ := eval_total (N := N) dst hd (fun k hk => hlen k (hsub k hk)) htd
  have : v = v2 := by
    apply val_ext (hT.trans t2.symm)
    · rw [g2.len, t2, ← hT]
      have := g1.len
      split
      · rfl
      · rename_i hw; rw [if_neg hw] at this; exact this
    · intro hw; rw [g1.len, if_neg hw]
    · intro i hin
      rw [g1.row i hin, g2.row i (by rw [t2, ← hT]; exact hin), hrow i (by rw [← hT]; exact hin)]
  rw [this]
  exact g2.eval

end Verif.Rules
