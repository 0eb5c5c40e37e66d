import Verif.FModel.FModelSpec
import Mathlib.Algebra.BigOperators.Group.Finset.Basic
import Mathlib.Algebra.BigOperators.Ring.List
import Mathlib.Tactic.Ring
import Mathlib.Tactic.FieldSimp

/-!
# Lemmas about expressions, filters and sums
-/

namespace Verif.FModel

open Verif.Forest (Tag Filter)

theorem V.add_def (a b : V) : a + b = a.add b := rfl
theorem V.zero_def : (0 : V) = .val 0 := rfl
theorem V.val_add (a b : Rat) : V.val a + V.val b = .val (a + b) := rfl
theorem V.missing_add (a : V) : V.missing + a = .missing := rfl
theorem V.add_missing (a : V) : a + V.missing = .missing := by cases a <;> rfl

theorem V.nsmul_val (n : Nat) (q : Rat) : n • V.val q = .val (n * q) := by
  induction n with
  | zero => rw [zero_nsmul, V.zero_def]; simp
  | succ n ih => rw [succ_nsmul, ih, V.val_add]; congr 1; push_cast; ring

theorem V.nsmul_missing (n : Nat) (h : 0 < n) : n • V.missing = .missing := by
  cases n with
  | zero => omega
  | succ n => rw [succ_nsmul, V.add_missing]

theorem V.sum_val (l : List Rat) : (l.map V.val).sum = .val l.sum := by
  induction l with
  | nil => rfl
  | cons a l ih => rw [List.map_cons, List.sum_cons, ih, V.val_add, List.sum_cons]

mutual
theorem eval_bind {α β : Type} (I : Nat → List V → Option V) (ρ : β → Option V) (σ : α → Ex β) :
    ∀ e : Ex α, eval I ρ (bind σ e) = eval I (fun a => eval I ρ (σ a)) e
  | .lit v => by simp only [bind, eval]
  | .atom a => by simp only [bind, eval]
  | .op o args => by simp only [bind, eval, evalAll_bind I ρ σ args]
theorem evalAll_bind {α β : Type} (I : Nat → List V → Option V) (ρ : β → Option V) (σ : α → Ex β) :
    ∀ es : List (Ex α), evalAll I ρ (bindAll σ es) = evalAll I (fun a => eval I ρ (σ a)) es
  | [] => by simp only [bindAll, evalAll]
  | e :: es => by simp only [bindAll, evalAll, eval_bind I ρ σ e, evalAll_bind I ρ σ es]
end

/-- The value of a tip. -/
def tipVal (ρ : Src → Option V) : Tip → Option V
  | .lit v => some v
  | .src a => ρ a

mutual
theorem eval_plainSum (I : Nat → List V → Option V) (ρ : Src → Option V) :
    ∀ (e : E) (v : V), plainSum e = true → eval I ρ e = some v →
      (∀ t ∈ tips e, tipVal ρ t = some ((tipVal ρ t).getD .missing)) ∧
      v = ((tips e).map fun t => (tipVal ρ t).getD .missing).sum
  | .lit w, v, _, h => by
    simp only [eval, Option.some.injEq] at h
    simp [tips, tipVal, h]
  | .atom a, v, _, h => by
    simp only [eval] at h
    simp [tips, tipVal, h]
  | .op o args, v, hp, h => by
    simp only [plainSum, Bool.and_eq_true, beq_iff_eq] at hp
    simp only [eval] at h
    cases hv : evalAll I ρ args with
    | none => rw [hv] at h; simp at h
    | some vs =>
      rw [hv] at h
      obtain ⟨h1, h2⟩ := evalAll_plainSum I ρ args vs hp.2 hv
      rw [hp.1] at h
      simp only [tips]
      refine ⟨h1, ?_⟩
      rw [← h2]
      match vs, h with
      | [a, b], h =>
        simp only [applyOp, Option.some.injEq] at h
        rw [← h]
        simp [V.add_def]
theorem evalAll_plainSum (I : Nat → List V → Option V) (ρ : Src → Option V) :
    ∀ (es : List E) (vs : List V), plainSumAll es = true → evalAll I ρ es = some vs →
      (∀ t ∈ tipsAll es, tipVal ρ t = some ((tipVal ρ t).getD .missing)) ∧
      vs.sum = ((tipsAll es).map fun t => (tipVal ρ t).getD .missing).sum
  | [], vs, _, h => by
    simp only [evalAll, Option.some.injEq] at h
    simp [tipsAll, ← h]
  | e :: es, vs, hp, h => by
    simp only [plainSumAll, Bool.and_eq_true] at hp
    simp only [evalAll] at h
    cases hv : eval I ρ e with
    | none => rw [hv] at h; simp at h
    | some v =>
      cases hw : evalAll I ρ es with
      | none => rw [hv, hw] at h; simp at h
      | some ws =>
        rw [hv, hw] at h
        simp only [Option.some.injEq] at h
        obtain ⟨a1, a2⟩ := eval_plainSum I ρ e v hp.1 hv
        obtain ⟨b1, b2⟩ := evalAll_plainSum I ρ es ws hp.2 hw
        subst h
        refine ⟨?_, ?_⟩
        · intro t ht
          simp only [tipsAll, List.mem_append] at ht
          exact ht.elim (a1 t) (b1 t)
        · simp only [tipsAll, List.map_append, List.sum_append, List.sum_cons]
          rw [← a2, ← b2]
end

/-- A sum grouped by equal elements. -/
theorem sum_dedup {α : Type} [DecidableEq α] (l : List α) (f : α → V) :
    (l.map f).sum = (l.dedup.map fun t => l.count t • f t).sum := by
  rw [Finset.sum_list_map_count]
  simp [Finset.sum, List.toFinset_val]

/-! ### The analysis of the expression -/

theorem analyzeTips_spec (ids : List (Key × List Int)) :
    ∀ (l : List Tip) (bags b : Nat) (sn : List Key) (pn : List Tip),
      analyzeTips ids l bags = .ok (b, sn, pn) →
      (∀ f : Tip → V, (l.map f).sum = (sn.map fun k => f (.src (.ph k))).sum + (pn.map f).sum) ∧
      (∀ k, k ∈ sn ↔ Tip.src (.ph k) ∈ l ∧ ∃ s, ids.lookup k = some s) ∧
      (∀ k ∈ sn, ∀ s, ids.lookup k = some s → s.length = b ∧ s ≠ []) ∧
      (bags ≠ 0 ∨ sn = [] → b = bags) ∧
      (∀ t, t ∈ pn ↔ t ∈ l ∧ ∀ k, t = .src (.ph k) → ids.lookup k = none) ∧
      (l.Nodup → sn.Nodup) := by
  intro l
  induction l with
  | nil =>
    intro bags b sn pn h
    simp only [analyzeTips, Except.ok.injEq, Prod.mk.injEq] at h
    obtain ⟨rfl, rfl, rfl⟩ := h
    simp
  | cons t rest ih =>
    intro bags b sn pn h
    -- a tip which is not a submodel
    have other : (∀ k, t = .src (.ph k) → ids.lookup k = none) →
        (∃ pn', analyzeTips ids rest bags = .ok (b, sn, pn') ∧ pn = t :: pn') →
        (∀ f : Tip → V, ((t :: rest).map f).sum = (sn.map fun k => f (.src (.ph k))).sum + (pn.map f).sum) ∧
        (∀ k, k ∈ sn ↔ Tip.src (.ph k) ∈ t :: rest ∧ ∃ s, ids.lookup k = some s) ∧
        (∀ k ∈ sn, ∀ s, ids.lookup k = some s → s.length = b ∧ s ≠ []) ∧
        (bags ≠ 0 ∨ sn = [] → b = bags) ∧
        (∀ t', t' ∈ pn ↔ t' ∈ t :: rest ∧ ∀ k, t' = .src (.ph k) → ids.lookup k = none) ∧
        ((t :: rest).Nodup → sn.Nodup) := by
      rintro ht ⟨pn', hr, rfl⟩
      · obtain ⟨i1, i2, i3, i4, i5, i6⟩ := ih bags b sn pn' hr
        refine ⟨?_, ?_, i3, i4, ?_, fun hn => i6 (List.nodup_cons.1 hn).2⟩
        · intro f
          simp only [List.map_cons, List.sum_cons, i1 f]
          exact add_left_comm _ _ _
        · intro k
          rw [i2 k]
          constructor
          · rintro ⟨a, s⟩; exact ⟨List.mem_cons_of_mem _ a, s⟩
          · rintro ⟨a, s, hs⟩
            rcases List.mem_cons.1 a with a | a
            · rw [ht k a.symm] at hs; simp at hs
            · exact ⟨a, s, hs⟩
        · intro t'
          simp only [List.mem_cons, i5]
          constructor
          · rintro (rfl | ⟨a, c⟩)
            · exact ⟨.inl rfl, ht⟩
            · exact ⟨.inr a, c⟩
          · rintro ⟨rfl | a, c⟩
            · exact .inl rfl
            · exact .inr ⟨a, c⟩
    match t, other, h with
    | .lit v, other, h =>
      refine other (by simp) ?_
      cases hr : analyzeTips ids rest bags with
      | error e => simp [analyzeTips, hr] at h
      | ok r =>
        simp only [analyzeTips, hr, Except.ok.injEq, Prod.mk.injEq] at h
        obtain ⟨h1, h2, h3⟩ := h
        exact ⟨r.2.2, by rw [← h1, ← h2], h3.symm⟩
    | .src (.leaf k), other, h =>
      refine other (by simp) ?_
      cases hr : analyzeTips ids rest bags with
      | error e => simp [analyzeTips, hr] at h
      | ok r =>
        simp only [analyzeTips, hr, Except.ok.injEq, Prod.mk.injEq] at h
        obtain ⟨h1, h2, h3⟩ := h
        exact ⟨r.2.2, by rw [← h1, ← h2], h3.symm⟩
    | .src (.ph k), other, h =>
      cases hk : ids.lookup k with
      | none =>
        refine other ?_ ?_
        · intro k' hk'
          simp only [Tip.src.injEq, Src.ph.injEq] at hk'
          exact hk' ▸ hk
        · cases hr : analyzeTips ids rest bags with
          | error e => simp [analyzeTips, hk, hr] at h
          | ok r =>
            simp only [analyzeTips, hk, hr, Except.ok.injEq, Prod.mk.injEq] at h
            obtain ⟨h1, h2, h3⟩ := h
            exact ⟨r.2.2, by rw [← h1, ← h2], h3.symm⟩
      | some s =>
        simp only [analyzeTips, hk] at h
        split at h
        · simp at h
        · rename_i hne
          split at h
          · simp at h
          · rename_i hb
            have hs : s ≠ [] := by simpa using hne
            have hpos : s.length ≠ 0 := by simpa using hs
            cases hr : analyzeTips ids rest s.length with
            | error e => rw [hr] at h; simp at h
            | ok r =>
              obtain ⟨b', sn', pn'⟩ := r
              rw [hr] at h
              simp only [Except.ok.injEq, Prod.mk.injEq] at h
              obtain ⟨rfl, rfl, rfl⟩ := h
              obtain ⟨i1, i2, i3, i4, i5, i6⟩ := ih s.length b' sn' pn' hr
              have hb' : b' = s.length := i4 (.inl hpos)
              refine ⟨?_, ?_, ?_, ?_, ?_, ?_⟩
              · intro f
                simp only [List.map_cons, List.sum_cons, i1 f, add_assoc]
              · intro k'
                simp only [List.mem_cons, i2 k', Tip.src.injEq, Src.ph.injEq]
                constructor
                · rintro (rfl | ⟨a, c⟩)
                  · exact ⟨.inl rfl, s, hk⟩
                  · exact ⟨.inr a, c⟩
                · rintro ⟨rfl | a, c⟩
                  · exact .inl rfl
                  · exact .inr ⟨a, c⟩
              · intro k' hk' s' hs'
                rcases List.mem_cons.1 hk' with rfl | hk'
                · rw [hk] at hs'
                  simp only [Option.some.injEq] at hs'
                  subst hs'
                  exact ⟨hb'.symm, hs⟩
                · exact i3 k' hk' s' hs'
              · rintro (h0 | h0)
                · rw [hb']
                  exact Classical.byContradiction fun hc => hb ⟨h0, fun hh => hc hh.symm⟩
                · simp at h0
              · intro t'
                simp only [List.mem_cons, i5]
                constructor
                · rintro ⟨a, c⟩; exact ⟨.inr a, c⟩
                · rintro ⟨rfl | a, c⟩
                  · have := c k rfl
                    rw [hk] at this; simp at this
                  · exact ⟨a, c⟩
              · intro hn
                rw [List.nodup_cons] at hn ⊢
                refine ⟨fun hc => hn.1 ((i2 k).1 hc).1, i6 hn.2⟩

/-! ### Filters and forests -/

theorem combined_accepts (fs : List Filter) : ∀ (c : Filter) (tag : Tag), c.submodels = [] →
    (∃ f, (f = c ∨ f ∈ fs) ∧ f.stepFrom ≤ tag.step ∧ (f.stepTo = -1 ∨ tag.step < f.stepTo)) →
    (fs.foldl (fun (c : Filter) (g : Filter) =>
      ({ stepFrom := min c.stepFrom g.stepFrom
         stepTo := if g.stepTo == -1 || c.stepTo == -1 then -1 else max c.stepTo g.stepTo } : Filter)) c).accepts tag
      = true := by
  induction fs with
  | nil =>
    rintro c tag hs ⟨f, hf, h1, h2⟩
    simp only [List.not_mem_nil, or_false] at hf
    subst hf
    simp only [List.foldl_nil, Filter.accepts, hs]
    simp only [ge_iff_le, h1, decide_true, Bool.true_and, List.isEmpty_nil, Bool.true_or, Bool.and_true,
      Bool.or_eq_true, beq_iff_eq, decide_eq_true_eq]
    exact h2.imp id decide_eq_true
  | cons g fs ih =>
    rintro c tag hs ⟨f, hf, h1, h2⟩
    rw [List.foldl_cons]
    apply ih _ _ rfl
    by_cases hfs : f ∈ fs
    · exact ⟨f, .inr hfs, h1, h2⟩
    · refine ⟨_, .inl rfl, ?_, ?_⟩
      · rcases hf with rfl | hf
        · dsimp only; omega
        · rcases List.mem_cons.1 hf with rfl | hf
          · dsimp only; omega
          · exact absurd hf hfs
      · dsimp only
        split
        · exact .inl rfl
        · rename_i hne
          simp only [Bool.or_eq_true, beq_iff_eq, not_or] at hne
          right
          rcases hf with rfl | hf
          · rcases h2 with h2 | h2
            · exact absurd h2 hne.2
            · omega
          · rcases List.mem_cons.1 hf with rfl | hf
            · rcases h2 with h2 | h2
              · exact absurd h2 hne.1
              · omega
            · exact absurd hf hfs

/-- The multiplier of a submodel. -/
def multOf (mult : List (Int × Nat)) (id : Int) : Nat := (mult.lookup id).getD 1

theorem scale_tag (mult : List (Int × Nat)) (t : T) : (scale mult t).tag = t.tag := by
  unfold scale; split <;> rfl

theorem scale_value (mult : List (Int × Nat)) (t : T) :
    (scale mult t).adj * (scale mult t).weight = t.adj * t.weight * multOf mult t.tag.submodel := by
  unfold scale multOf
  split
  · rename_i m h; rw [h]; simp only [Option.getD_some]; ring
  · rename_i h; rw [h]; simp

/-- The sum over the accepted trees, with multipliers. -/
def scaledSum (trees : List T) (mult : List (Int × Nat)) (f : Filter) : Rat :=
  ((trees.filter fun t => f.accepts t.tag).map fun t => t.adj * t.weight * (multOf mult t.tag.submodel : Rat)).sum

theorem forestTuple_eq (trees : List T) (mult : List (Int × Nat)) (filters : List Filter) :
    forestTuple trees mult filters = filters.map (scaledSum trees mult) := by
  unfold forestTuple
  apply List.map_congr_left
  intro f hf
  unfold operatorTrees scaledSum filterSum
  split
  · rename_i h
    have : mult = [] := by simpa using h
    subst this
    congr 1
    apply List.map_congr_left
    intro t _
    simp [multOf]
  · match filters, hf with
    | g :: gs, hf =>
      simp only [maybeUsed]
      rw [List.filter_map, List.map_map, List.filter_filter]
      have hfil : (trees.filter fun t =>
            (((fun t : T => f.accepts t.tag) ∘ scale mult) t && (combined g gs).accepts t.tag)) =
          trees.filter fun t => f.accepts t.tag := by
        apply List.filter_congr
        intro t _
        simp only [Function.comp, scale_tag]
        cases hacc : f.accepts t.tag with
        | false => simp
        | true =>
          simp only [Bool.true_and]
          apply combined_accepts gs _ _ rfl
          simp only [Filter.accepts, Bool.and_eq_true, decide_eq_true_eq, Bool.or_eq_true, beq_iff_eq] at hacc
          rcases List.mem_cons.1 hf with rfl | hf
          · exact ⟨_, .inl rfl, hacc.1.1, hacc.1.2⟩
          · exact ⟨f, .inr hf, hacc.1.1, hacc.1.2⟩
      rw [hfil]
      congr 1
      apply List.map_congr_left
      intro t _
      exact scale_value mult t

end Verif.FModel
