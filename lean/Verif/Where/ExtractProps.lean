import Verif.Where.ExtractLemmas

/-! # C103: subexpressions are extracted into a lambda exactly -/

namespace Verif.Where
open Verif.Expr

variable {O V A E : Type} [DecidableEq O] [DecidableEq V] [DecidableEq A]

theorem sub_dep {m n d : Expr O V A} (h : Sub m n) (hd : d ∈ m.deps) : Sub d n :=
  Sub.trans (.dep (.refl d) hd) h

theorem reached_sub {keep : Expr O V A → Option (Except E Bool)} {root n : Expr O V A} (h : Reached keep root n) :
    Sub n root := by
  induction h with
  | root => exact .refl _
  | dep _ _ hd ih => exact sub_dep ih hd

/-- Extraction terminates without exceptions, whatever the predicate is.  The arguments are, without repetition, exactly the
reached nodes that the predicate does not take; the parameters are different names; the body is the root with every node not
taken replaced by the placeholder of its argument. -/
theorem extract_spec (G : Lang O V A E) (keep : Expr O V A → Option (Except E Bool)) (root : Expr O V A)
    (hk : ∀ n, Reached keep root n → keep n ≠ none) :
    (∃ e, extractLambda G root keep = some (.error e) ∧ ErrorOf G keep root e) ∨
    (∃ r, extractLambda G root keep = some (.ok r) ∧ r.args.Nodup ∧
      (∀ n, n ∈ r.args ↔ Reached keep root n ∧ keep n = some (.ok false)) ∧
      r.params = (List.range r.args.length).map phKey ∧ r.params.Nodup ∧
      Rep G keep r.args root r.body ∧ ∀ n, Reached keep root n → ∃ b, keep n = some (.ok b)) := by
  have h0 : OkSt G keep root ⟨[], [], [], [], 0⟩ := by
    have hn : ∀ x : Expr O V A, lookup ([] : List (Expr O V A × Expr O V A)) x = none := fun x => rfl
    refine ⟨?_, ?_, ?_, ?_, List.nodup_nil, rfl, rfl⟩
    · intro x y h; rw [hn] at h; cases h
    · intro x h; rw [hn] at h; cases h
    · intro x h; rw [hn] at h; cases h
    · intro x; rw [hn]; simp
  obtain ⟨c, hc, hr⟩ := run_node hk root .root _ h0 (by intro x hx; cases hx)
  unfold extractLambda
  have hf : 2 * root.size = (2 * root.size - c) + c := by omega
  rcases hr with ⟨e, he, hl⟩ | ⟨s, hs, _, hq, hl⟩
  · refine Or.inl ⟨e, ?_, he⟩
    have := hl (2 * root.size - c) []
    rw [← hf] at this
    simp only [List.append_nil] at this
    rw [this]
  · have := hl (2 * root.size - c) []
    rw [← hf] at this
    simp only [List.append_nil] at this
    rw [this]
    have hend : extractLoop G keep (2 * root.size - c) [] s = some (.ok s) := by
      cases 2 * root.size - c <;> rfl
    rw [hend]
    obtain ⟨body, hb⟩ := Option.isSome_iff_exists.1 hq
    have hall : ∀ n, Reached keep root n → (lookup s.new n).isSome := by
      intro n hn
      induction hn with
      | root => exact hq
      | dep _ h2 h3 ih => exact hs.closed _ ih h2 _ h3
    refine Or.inr ⟨⟨s.params, s.args, body⟩, by dsimp only; rw [hb], hs.nodup, ?_, hs.params, ?_, hs.rep _ _ hb, ?_⟩
    · intro n
      rw [hs.argsIn n]
      exact ⟨fun ⟨a, b⟩ => ⟨hs.reach n a, b⟩, fun ⟨a, b⟩ => ⟨hall n a, b⟩⟩
    · rw [hs.params]
      refine List.Nodup.map (fun i j h => phKey_inj h) List.nodup_range
    · intro n hn
      obtain ⟨m, hm⟩ := Option.isSome_iff_exists.1 (hall n hn)
      cases hs.rep n m hm with
      | arg h _ => exact ⟨_, h⟩
      | node h _ _ _ => exact ⟨_, h⟩

/-- Calling the lambda on the arguments gives the value of the original expression, whatever the operators compute (also if
they do not look at all of their arguments, and if they fail). -/
theorem extract_value {D : Type} (G : Lang O V A E) (keep : Expr O V A → Option (Except E Bool)) (root : Expr O V A)
    (r : Extracted O V A) (hk : ∀ n, Reached keep root n → keep n ≠ none)
    (hp : ∀ n k, Reached keep root n → n.label = .placeholder k → keep n ≠ some (.ok true))
    (h : extractLambda G root keep = some (.ok r))
    (ops : O → List D → D) (lit : V → D) (leaf ph ph' : List Nat → D)
    (hph : ∀ (i : Nat) p a, r.params[i]? = some p → r.args[i]? = some a → ph' p = value ops lit leaf ph a) :
    value ops lit leaf ph' r.body = value ops lit leaf ph root := by
  rcases extract_spec G keep root hk with ⟨e, h1, _⟩ | ⟨r', h1, _, _, h4, _, h6, _⟩
  · rw [h] at h1; cases h1
  · rw [h] at h1; cases h1
    have key : ∀ n m, Rep G keep r.args n m → Reached keep root n → value ops lit leaf ph' m = value ops lit leaf ph n := by
      intro n m hr
      induction hr with
      | @arg n i h1 h2 =>
        intro _
        rw [value]
        refine hph i _ n ?_ h2
        rw [h4]
        have := (List.getElem?_eq_some_iff.1 h2).1
        simp [this]
      | @node n m ds h1 h2 h3 h5 ih =>
        intro hn
        have hlab := (withNewDeps_label G h5).1
        have hdeps := withNewDeps_deps h2 h5
        cases hl : n.label with
        | placeholder k => exact absurd h1 (hp n k hn hl)
        | leaf k =>
          obtain ⟨l, a, ds'⟩ := n; obtain ⟨l2, a2, ds2⟩ := m
          simp only [Expr.label] at hl hlab; subst hlab; subst hl; simp only [value]
        | literal v =>
          obtain ⟨l, a, ds'⟩ := n; obtain ⟨l2, a2, ds2⟩ := m
          simp only [Expr.label] at hl hlab; subst hlab; subst hl; simp only [value]
        | op o =>
          rw [value_op ops lit leaf ph hl, value_op ops lit leaf ph' (hlab.trans hl), hdeps]
          congr 1
          apply List.ext_getElem?
          intro i
          rw [List.getElem?_map, List.getElem?_map]
          rcases Nat.lt_or_ge i ds.length with hi | hi
          · have hi' : i < n.deps.length := by omega
            have e1 : ds[i]? = some ds[i] := List.getElem?_eq_getElem hi
            have e2 : n.deps[i]? = some n.deps[i] := List.getElem?_eq_getElem hi'
            rw [e1, e2]
            simp only [Option.map_some]
            rw [ih i _ _ e2 e1 (.dep hn h1 (List.getElem_mem hi'))]
          · rw [List.getElem?_eq_none hi, List.getElem?_eq_none (by omega)]; rfl
    exact key _ _ h6 .root

/-- The body is accepted as the body of a lambda with these parameters: it has no leaves, and its placeholders are the
parameters, each of them used.  A predicate that takes neither leaves nor placeholders is enough. -/
theorem extract_body (G : Lang O V A E) (keep : Expr O V A → Option (Except E Bool)) (root : Expr O V A)
    (r : Extracted O V A) (hk : ∀ n, Reached keep root n → keep n ≠ none)
    (hp : ∀ n k, Reached keep root n → (n.label = .placeholder k ∨ n.label = .leaf k) → keep n ≠ some (.ok true))
    (h : extractLambda G root keep = some (.ok r)) :
    (∀ m k, Sub m r.body → m.label ≠ .leaf k) ∧
    (∀ k, (∃ m, Sub m r.body ∧ m.label = .placeholder k) ↔ k ∈ r.params) ∧
    (∀ m k, Sub m r.body → m.label = .placeholder k → m = .mk (.placeholder k) G.noAttr []) := by
  rcases extract_spec G keep root hk with ⟨e, h1, _⟩ | ⟨r', h1, _, h3, h4, _, h6, h7⟩
  · rw [h] at h1; cases h1
  · rw [h] at h1; cases h1
    have down : ∀ n m, Rep G keep r.args n m → Reached keep root n → ∀ s, Sub s m →
        (∀ k, s.label ≠ .leaf k) ∧ ∀ k, s.label = .placeholder k → k ∈ r.params ∧ s = .mk (.placeholder k) G.noAttr [] := by
      intro n m hr
      induction hr with
      | @arg n i h1 h2 =>
        intro _ s hs
        rcases sub_cases hs with rfl | ⟨d, hd, _⟩
        · refine ⟨fun k hh => by simp [Expr.label] at hh, fun k hh => ?_⟩
          simp only [Expr.label, Label.placeholder.injEq] at hh
          subst hh
          refine ⟨?_, rfl⟩
          rw [h4, List.mem_map]
          exact ⟨i, List.mem_range.2 (List.getElem?_eq_some_iff.1 h2).1, rfl⟩
        · cases hd
      | @node n m ds h1 h2 h3 h5 ih =>
        intro hn s hs
        have hlab := (withNewDeps_label G h5).1
        have hdeps := withNewDeps_deps h2 h5
        rcases sub_cases hs with rfl | ⟨d, hd, hsd⟩
        · exact ⟨fun k hh => hp n k hn (Or.inr (hlab ▸ hh)) h1, fun k hh => absurd h1 (hp n k hn (Or.inl (hlab ▸ hh)))⟩
        · rw [hdeps] at hd
          obtain ⟨i, hi⟩ := List.getElem?_of_mem hd
          have hil := (List.getElem?_eq_some_iff.1 hi).1
          have hi' : i < n.deps.length := by omega
          exact ih i _ d (List.getElem?_eq_getElem hi') hi (.dep hn h1 (List.getElem_mem hi')) s hsd
    have rep_det : ∀ n m, Rep G keep r.args n m → Reached keep root n → Sub m r.body → ∀ d, keep n = some (.ok true) →
        d ∈ n.deps → ∃ x, Rep G keep r.args d x ∧ Sub x r.body := by
      intro n m hr hn hs d hkn hd
      cases hr with
      | arg h1 _ => rw [hkn] at h1; cases h1
      | @node _ _ ds _ h2 h3 h5 =>
        have hdeps := withNewDeps_deps h2 h5
        obtain ⟨i, hi⟩ := List.getElem?_of_mem hd
        have hil := (List.getElem?_eq_some_iff.1 hi).1
        have hi' : i < ds.length := by omega
        refine ⟨ds[i], h3 i d _ hi (List.getElem?_eq_getElem hi'), sub_dep hs ?_⟩
        rw [hdeps]; exact List.getElem_mem hi'
    have up : ∀ n, Reached keep root n → ∃ m, Rep G keep r.args n m ∧ Sub m r.body := by
      intro n hn
      induction hn with
      | root => exact ⟨r.body, h6, .refl _⟩
      | dep h1 h2 h5 ih =>
        obtain ⟨m, hm, hs⟩ := ih
        exact rep_det _ m hm h1 hs _ h2 h5
    have d0 := down root r.body h6 .root
    refine ⟨fun m k hs => (d0 m hs).1 k, fun k => ⟨?_, ?_⟩, fun m k hs hl => ((d0 m hs).2 k hl).2⟩
    · rintro ⟨m, hs, hl⟩; exact ((d0 m hs).2 k hl).1
    · intro hkp
      rw [h4, List.mem_map] at hkp
      obtain ⟨i, hi, rfl⟩ := hkp
      have hi := List.mem_range.1 hi
      have hg : r.args[i]? = some r.args[i] := List.getElem?_eq_getElem hi
      obtain ⟨hre, hkf⟩ := (h3 _).1 (List.getElem_mem hi)
      obtain ⟨m, hm, hs⟩ := up _ hre
      cases hm with
      | @arg _ j _ hj =>
        have : j = i := by
          have hj' := List.getElem?_eq_some_iff.1 hj
          exact (List.Nodup.getElem_inj_iff (by assumption)).1 hj'.2
        subst this
        exact ⟨_, hs, rfl⟩
      | node h1 _ _ _ => rw [hkf] at h1; cases h1

/-! Example: `f(x, g(x, h(y)))` with `f`, `g` taken and `h` not: the lambda `f(_0, g(_0, _1))` is called on `x`, `h(y)`. -/

section
open Expr
private def exG : Lang Nat Nat Unit String := ⟨(), fun _ => (), fun _ _ => .ok (), "deps"⟩
private def exX : Expr Nat Nat Unit := .mk (.leaf [120]) () []
private def exY : Expr Nat Nat Unit := .mk (.leaf [121]) () []
private def exH : Expr Nat Nat Unit := .mk (.op 3) () [exY]
private def exGn : Expr Nat Nat Unit := .mk (.op 2) () [exX, exH]
private def exF : Expr Nat Nat Unit := .mk (.op 1) () [exX, exGn]
private def exKeep (n : Expr Nat Nat Unit) : Option (Except String Bool) := some (.ok (n = exF ∨ n = exGn))
private def exP (k : List Nat) : Expr Nat Nat Unit := .mk (.placeholder k) () []

example : extractLambda exG exF exKeep = some (.ok ⟨[[95, 48], [95, 49]], [exX, exH],
    .mk (.op 1) () [exP [95, 48], .mk (.op 2) () [exP [95, 48], exP [95, 49]]]⟩) := by rfl

example : (∀ n, Reached exKeep exF n → exKeep n ≠ none) ∧
    (∀ n k, Reached exKeep exF n → (n.label = .placeholder k ∨ n.label = .leaf k) → exKeep n ≠ some (.ok true)) := by
  refine ⟨fun n _ => by simp [exKeep], ?_⟩
  rintro n k _ h hh
  simp only [exKeep, Option.some.injEq, Except.ok.injEq, decide_eq_true_eq] at hh
  rcases hh with rfl | rfl <;> simp [exF, exGn, Expr.label] at h

end

end Verif.Where
