import Verif.Sig.SigLemmas
import Mathlib.Data.List.Perm.Basic

/-!
# Lemmas about `BindArguments`
-/

namespace Verif.Sig

variable {V E : Type}

theorem find_some {kw : List (List Nat × E)} {n : List Nat} {e : E} (hk : (kw.map (·.1)).Nodup) :
    find kw n = some e ↔ (n, e) ∈ kw := by
  unfold find
  induction kw with
  | nil => simp
  | cons a kw ih =>
    obtain ⟨k, x⟩ := a
    simp only [List.map_cons, List.nodup_cons] at hk
    rw [List.find?_cons]
    by_cases h : k = n
    · subst h
      simp only [decide_true, Option.map_some, Option.some.injEq, List.mem_cons, Prod.mk.injEq, true_and]
      constructor
      · intro h; exact Or.inl h.symm
      · rintro (h | h)
        · exact h.symm
        · exact absurd (List.mem_map.2 ⟨_, h, rfl⟩) hk.1
    · simp only [h, decide_false]
      rw [ih hk.2]
      simp [Ne.symm h]

theorem find_isSome {kw : List (List Nat × E)} {n : List Nat} (hk : (kw.map (·.1)).Nodup) :
    (find kw n).isSome = true ↔ Given kw n := by
  rw [Option.isSome_iff_exists]
  unfold Given
  simp only [find_some hk]

theorem find_none {kw : List (List Nat × E)} {n : List Nat} (hk : (kw.map (·.1)).Nodup) :
    find kw n = none ↔ ¬ Given kw n := by
  rw [← find_isSome hk, Option.not_isSome_iff_eq_none]

/-- The first loop. -/
theorem bindPositional_eq {kw : List (List Nat × E)} : ∀ {pos : List (Param V)} {va : List (Param V)} {args res : List E},
    (∀ p ∈ pos, p.kind = .positional) → (va = [] ∨ ∃ v, va = [v] ∧ v.kind = .variadic) →
    bindPositional kw (pos ++ va) args res =
      match (pos.take args.length).find? (fun p => (find kw p.name).isSome) with
      | some p => .error (.multiple p.name)
      | none =>
        if args.length ≤ pos.length then .ok (res ++ args, pos.drop args.length ++ va, [])
        else if va = [] then .ok (res ++ args.take pos.length, [], args.drop pos.length)
        else .ok (res ++ args, [], []) := by
  intro pos
  induction pos with
  | nil =>
    intro va args res _ hva
    rcases hva with rfl | ⟨v, rfl, hv⟩
    · cases args with
      | nil => simp [bindPositional]
      | cons a as => simp [bindPositional]
    · cases args with
      | nil => simp [bindPositional]
      | cons a as => simp [bindPositional, hv]
  | cons p pos ih =>
    intro va args res hp hva
    cases args with
    | nil => simp [bindPositional]
    | cons a as =>
      rw [List.cons_append, bindPositional, hp p (by simp)]
      simp only [List.length_cons, List.take_succ_cons, List.find?_cons]
      by_cases h : (find kw p.name).isSome = true
      · simp [h]
      · rw [if_neg h, ih (fun q hq => hp q (by simp [hq])) hva]
        simp only [h]
        cases (pos.take as.length).find? (fun p => (find kw p.name).isSome) with
        | some q => rfl
        | none => simp

/-- The value a parameter gets without positional argument. -/
def fallback (lit : V → E) (kw : List (List Nat × E)) (p : Param V) : Option E :=
  match find kw p.name with
  | some e => some e
  | none => p.dflt.map lit

/-- The second loop. -/
theorem bindKeyword_eq {lit : V → E} {kw : List (List Nat × E)} {va : List (Param V)}
    (hva : va = [] ∨ ∃ v, va = [v] ∧ v.kind = .variadic) : ∀ {pos : List (Param V)} {res : List E}
    {miss used : List (List Nat)}, (∀ p ∈ pos, p.kind = .positional) →
    ∃ used', bindKeyword lit kw (pos ++ va) res miss used =
      .ok (res ++ pos.filterMap (fallback lit kw),
        miss ++ (pos.filter (fun p => (fallback lit kw p).isNone)).map Param.name, used') ∧
      ∀ k, k ∈ used' ↔ k ∈ used ∨ ∃ p ∈ pos, p.name = k ∧ (find kw k).isSome := by
  intro pos
  induction pos with
  | nil =>
    intro res miss used _
    refine ⟨used, ?_, by simp⟩
    rcases hva with rfl | ⟨v, rfl, hv⟩
    · simp [bindKeyword]
    · simp [bindKeyword, hv]
  | cons p pos ih =>
    intro res miss used hp
    rw [List.cons_append, bindKeyword, hp p (by simp)]
    have hp' : ∀ q ∈ pos, q.kind = .positional := fun q hq => hp q (by simp [hq])
    dsimp only
    cases hf : find kw p.name with
    | some e =>
      obtain ⟨u, h1, h2⟩ := ih (res := res ++ [e]) (miss := miss) (used := p.name :: used) hp'
      refine ⟨u, ?_, fun k => ?_⟩
      · dsimp only
        rw [h1]
        simp [fallback, hf]
      · rw [h2]
        simp only [List.mem_cons, exists_eq_or_imp]
        constructor
        · rintro ((rfl | h) | h)
          · exact Or.inr (Or.inl ⟨rfl, by rw [hf]; rfl⟩)
          · exact Or.inl h
          · exact Or.inr (Or.inr h)
        · rintro (h | ⟨h, _⟩ | h)
          · exact Or.inl (Or.inr h)
          · exact Or.inl (Or.inl h.symm)
          · exact Or.inr h
    | none =>
      have key : ∀ {u : List (List Nat)}, (∀ k, k ∈ u ↔ k ∈ used ∨ ∃ q ∈ pos, q.name = k ∧ (find kw k).isSome) →
          ∀ k, k ∈ u ↔ k ∈ used ∨ ∃ q ∈ p :: pos, q.name = k ∧ (find kw k).isSome := by
        intro u h k
        rw [h]
        simp only [List.mem_cons, exists_eq_or_imp]
        constructor
        · rintro (h | h)
          · exact Or.inl h
          · exact Or.inr (Or.inr h)
        · rintro (h | ⟨rfl, h⟩ | h)
          · exact Or.inl h
          · rw [hf] at h; simp at h
          · exact Or.inr h
      dsimp only
      cases hd : p.dflt with
      | some v =>
        obtain ⟨u, h1, h2⟩ := ih (res := res ++ [lit v]) (miss := miss) (used := used) hp'
        refine ⟨u, ?_, key h2⟩
        dsimp only
        rw [h1]
        simp [fallback, hf, hd]
      | none =>
        obtain ⟨u, h1, h2⟩ := ih (res := res) (miss := miss ++ [p.name]) (used := used) hp'
        refine ⟨u, ?_, key h2⟩
        dsimp only
        rw [h1]
        simp [fallback, hf, hd]

theorem split_params {s : Signature V} (h : Valid s) : ∃ va, s.params = s.positionals ++ va ∧
    (∀ p ∈ s.positionals, p.kind = .positional) ∧ (va = [] ∨ ∃ v, va = [v] ∧ v.kind = .variadic) ∧
    (s.takesMore ↔ va ≠ []) := by
  have hpp : ∀ p ∈ s.positionals, p.kind = .positional := by
    intro p hp
    simpa using (List.mem_filter.1 hp).2
  have hs := shape_iff.2 h.kinds
  unfold Signature.takesMore
  rcases hs' : s.params with _ | _
  all_goals rw [hs'] at hs
  · exact ⟨[], by simp [Signature.positionals, hs'], hpp, Or.inl rfl, by simp⟩
  · rename_i p ps
    generalize hl : p :: ps = l at *
    cases hs with
    | pos h1 =>
      refine ⟨[], ?_, hpp, Or.inl rfl, ?_⟩
      · rw [List.append_nil, Signature.positionals, hs', List.filter_eq_self.2]
        intro q hq; simpa using h1 q hq
      · simp only [ne_eq, not_true, iff_false]
        rintro ⟨q, hq, hk⟩
        rw [h1 q hq] at hk; cases hk
    | var h1 h2 h3 =>
      rename_i pos v
      refine ⟨[v], ?_, hpp, Or.inr ⟨v, rfl, h2⟩, ?_⟩
      · rw [Signature.positionals, hs', List.filter_append, List.filter_eq_self.2]
        · simp [h2]
        · intro q hq; simpa using h1 q hq
      · simp only [ne_eq, List.cons_ne_self, not_false_eq_true, iff_true]
        exact ⟨v, by simp, h2⟩

end Verif.Sig
