import Verif.Where.ExtractSpec
import Verif.Expr.ScanLemmas
import Verif.Expr.DeepSpec
import Verif.Text.DecodeProps

/-! # Lemmas about `ExtractLambda` -/

namespace Verif.Where
open Verif.Expr

variable {O V A E : Type} [DecidableEq O] [DecidableEq V] [DecidableEq A]

theorem phKey_inj {i j : Nat} (h : phKey i = phKey j) : i = j := by
  have h1 : Text.intToText (i : Int) = Text.intToText (j : Int) := (List.cons.inj h).2
  have a := (Text.parse_as_text 0 (max i j) i (by omega) (by omega)).2
  have b := (Text.parse_as_text 0 (max i j) j (by omega) (by omega)).2
  rw [h1, b] at a
  have := Option.some.inj a
  omega

theorem lookup_emplace {T : Type} {m : List (Expr O V A × T)} {n : Expr O V A} {t : T} (h : lookup m n = none)
    (x : Expr O V A) : lookup (emplace m n t) x = if x = n then some t else lookup m x := by
  unfold emplace
  rw [h]
  simp only [Option.isSome_none, Bool.false_eq_true, if_false]
  unfold lookup at *
  rw [List.find?_append]
  by_cases hx : x = n
  · subst hx
    have hn : m.find? (fun e => e.1 = x) = none := by simpa using h
    rw [hn]; simp
  · rw [if_neg hx]
    have : ¬ n = x := fun e => hx e.symm
    simp [this]

theorem emplace_some {T : Type} {m : List (Expr O V A × T)} {n : Expr O V A} {t : T} (h : (lookup m n).isSome) :
    emplace m n t = m := by unfold emplace; rw [if_pos h]

theorem newDeps_spec (m : List (Expr O V A × Expr O V A)) : ∀ ds : List (Expr O V A), (∀ d ∈ ds, (lookup m d).isSome) →
    ∃ xs, newDeps m ds = some xs ∧ xs.length = ds.length ∧
      ∀ (i : Nat) (d x : Expr O V A), ds[i]? = some d → xs[i]? = some x → lookup m d = some x := by
  intro ds
  induction ds with
  | nil => intro _; exact ⟨[], rfl, rfl, by intro i d x h; simp at h⟩
  | cons d ds ih =>
    intro h
    obtain ⟨y, hy⟩ := Option.isSome_iff_exists.1 (h d (by simp))
    obtain ⟨xs, h1, h2, h3⟩ := ih (fun e he => h e (by simp [he]))
    refine ⟨y :: xs, ?_, by simp [h2], ?_⟩
    · rw [newDeps, hy, h1]; rfl
    · intro i e x he hx
      cases i with
      | zero =>
        simp only [List.getElem?_cons_zero, Option.some.injEq] at he hx
        subst he; subst hx; exact hy
      | succ i =>
        simp only [List.getElem?_cons_succ] at he hx
        exact h3 i e x he hx

theorem Rep.mono {G : Lang O V A E} {keep : Expr O V A → Option (Except E Bool)} {args : List (Expr O V A)}
    (more : List (Expr O V A)) {n m : Expr O V A} (h : Rep G keep args n m) : Rep G keep (args ++ more) n m := by
  induction h with
  | arg h1 h2 =>
    refine .arg h1 ?_
    rw [List.getElem?_append_left (List.getElem?_eq_some_iff.1 h2).1]; exact h2
  | node h1 h2 _ h4 ih => exact .node h1 h2 ih h4

/-- The invariant of the loop. -/
structure OkSt (G : Lang O V A E) (keep : Expr O V A → Option (Except E Bool)) (root : Expr O V A) (s : St O V A) : Prop where
  rep : ∀ x y, lookup s.new x = some y → Rep G keep s.args x y
  reach : ∀ x, (lookup s.new x).isSome → Reached keep root x
  closed : ∀ x, (lookup s.new x).isSome → keep x = some (.ok true) → ∀ d ∈ x.deps, (lookup s.new d).isSome
  argsIn : ∀ x, x ∈ s.args ↔ (lookup s.new x).isSome ∧ keep x = some (.ok false)
  nodup : s.args.Nodup
  params : s.params = (List.range s.args.length).map phKey
  next : s.next = s.args.length

/-- What a part of the run leaves unchanged. -/
structure Step (s s' : St O V A) : Prop where
  new : ∀ x y, lookup s.new x = some y → lookup s'.new x = some y
  args : ∃ more, s'.args = s.args ++ more
  prev : ∀ x ∈ s'.prev, x ∈ s.prev ∨ (lookup s'.new x).isSome

theorem Step.some {s s' : St O V A} (h : Step s s') {x : Expr O V A} (hx : (lookup s.new x).isSome) :
    (lookup s'.new x).isSome := by
  obtain ⟨y, hy⟩ := Option.isSome_iff_exists.1 hx
  rw [h.new x y hy]; rfl

theorem Step.refl (s : St O V A) : Step s s := ⟨fun _ _ h => h, ⟨[], by simp⟩, fun _ h => Or.inl h⟩

theorem Step.trans {a b c : St O V A} (h1 : Step a b) (h2 : Step b c) : Step a c := by
  obtain ⟨m1, e1⟩ := h1.args
  obtain ⟨m2, e2⟩ := h2.args
  refine ⟨fun x y h => h2.new x y (h1.new x y h), ⟨m1 ++ m2, by rw [e2, e1, List.append_assoc]⟩, fun x hx => ?_⟩
  rcases h2.prev x hx with h | h
  · rcases h1.prev x h with h | h
    · exact Or.inl h
    · exact Or.inr (h2.some h)
  · exact Or.inr h

/-- Adding a node to the map. -/
theorem OkSt.add {G : Lang O V A E} {keep : Expr O V A → Option (Except E Bool)} {root : Expr O V A} {s : St O V A}
    (h : OkSt G keep root s) {n m : Expr O V A} (hn : Reached keep root n) (hk : keep n = some (.ok true))
    (hd : ∀ d ∈ n.deps, (lookup s.new d).isSome) (hr : Rep G keep s.args n m) :
    OkSt G keep root { s with new := emplace s.new n m } ∧ Step s { s with new := emplace s.new n m } ∧
      (lookup (emplace s.new n m) n).isSome := by
  cases hl : lookup s.new n with
  | some y =>
    rw [emplace_some (by rw [hl]; rfl), hl]
    exact ⟨h, Step.refl s, rfl⟩
  | none =>
    have e := fun x => lookup_emplace (t := m) hl x
    have mono : ∀ x, (lookup s.new x).isSome → (lookup (emplace s.new n m) x).isSome := by
      intro x hx
      rw [e]; split
      · rfl
      · exact hx
    refine ⟨⟨?_, ?_, ?_, ?_, h.nodup, h.params, h.next⟩, ⟨?_, ⟨[], by simp⟩, fun x hx => Or.inl hx⟩, ?_⟩
    · intro x y hx
      dsimp only at hx
      rw [e] at hx
      split at hx
      · rename_i hh; subst hh; cases hx; exact hr
      · exact h.rep x y hx
    · intro x hx
      dsimp only at hx
      rw [e] at hx
      split at hx
      · rename_i hh; subst hh; exact hn
      · exact h.reach x hx
    · intro x hx hkx d hdx
      dsimp only at hx ⊢
      rw [e] at hx
      split at hx
      · rename_i hh; subst hh; exact mono d (hd d hdx)
      · exact mono d (h.closed x hx hkx d hdx)
    · intro x
      dsimp only
      rw [h.argsIn x]
      constructor
      · rintro ⟨a, b⟩; exact ⟨mono x a, b⟩
      · rintro ⟨a, b⟩
        rw [e] at a
        split at a
        · rename_i hh; subst hh; rw [hk] at b; cases b
        · exact ⟨a, b⟩
    · intro x y hx
      dsimp only
      rw [e]
      by_cases hxn : x = n
      · subst hxn; rw [hl] at hx; cases hx
      · rw [if_neg hxn]; exact hx
    · rw [e, if_pos rfl]; rfl

/-- Adding an argument. -/
theorem OkSt.out {G : Lang O V A E} {keep : Expr O V A → Option (Except E Bool)} {root : Expr O V A} {s : St O V A}
    (h : OkSt G keep root s) {n : Expr O V A} (hn : Reached keep root n) (hk : keep n = some (.ok false)) :
    OkSt G keep root (outside G n { s with prev := n :: s.prev }) ∧ Step s (outside G n { s with prev := n :: s.prev }) ∧
      (lookup (outside G n { s with prev := n :: s.prev }).new n).isSome := by
  unfold outside
  dsimp only
  cases hl : lookup s.new n with
  | some y =>
    rw [if_pos (show (some y).isSome = true from rfl)]
    refine ⟨⟨h.rep, h.reach, h.closed, h.argsIn, h.nodup, h.params, h.next⟩, ⟨fun _ _ h => h, ⟨[], by simp⟩, ?_⟩, by
      dsimp only; rw [hl]; rfl⟩
    intro x hx
    dsimp only at hx ⊢
    rcases List.mem_cons.1 hx with rfl | hx
    · exact Or.inr (by rw [hl]; rfl)
    · exact Or.inl hx
  | none =>
    rw [if_neg (by simp)]
    have e := fun x => lookup_emplace (t := Expr.mk (.placeholder (phKey s.next)) G.noAttr []) hl x
    have mono : ∀ x, (lookup s.new x).isSome →
        (lookup (emplace s.new n (Expr.mk (.placeholder (phKey s.next)) G.noAttr [])) x).isSome := by
      intro x hx
      rw [e]; split
      · rfl
      · exact hx
    have hna : n ∉ s.args := by
      intro hh
      have := ((h.argsIn n).1 hh).1
      rw [hl] at this; cases this
    refine ⟨⟨?_, ?_, ?_, ?_, ?_, ?_, ?_⟩, ⟨?_, ⟨[n], rfl⟩, ?_⟩, ?_⟩
    · intro x y hx
      dsimp only at hx ⊢
      rw [e] at hx
      split at hx
      · rename_i hh; subst hh; cases hx
        refine .arg hk ?_
        rw [h.next]; simp
      · exact (h.rep x y hx).mono [n]
    · intro x hx
      dsimp only at hx
      rw [e] at hx
      split at hx
      · rename_i hh; subst hh; exact hn
      · exact h.reach x hx
    · intro x hx hkx d hdx
      dsimp only at hx ⊢
      rw [e] at hx
      split at hx
      · rename_i hh; subst hh; rw [hk] at hkx; cases hkx
      · exact mono d (h.closed x hx hkx d hdx)
    · intro x
      dsimp only
      rw [List.mem_append, h.argsIn x, List.mem_singleton, e]
      constructor
      · rintro (⟨a, b⟩ | rfl)
        · refine ⟨?_, b⟩
          split
          · rfl
          · exact a
        · rw [if_pos rfl]; exact ⟨rfl, hk⟩
      · rintro ⟨a, b⟩
        split at a
        · rename_i hh; exact Or.inr hh
        · exact Or.inl ⟨a, b⟩
    · dsimp only
      rw [List.nodup_append]
      exact ⟨h.nodup, by simp, by rintro a ha b hb rfl; rw [List.mem_singleton] at hb; subst hb; exact hna ha⟩
    · dsimp only
      rw [h.params, h.next, List.length_append, List.length_singleton, List.range_succ, List.map_append]; rfl
    · dsimp only
      rw [h.next]; simp
    · intro x y hx
      dsimp only
      rw [e]
      by_cases hxn : x = n
      · subst hxn; rw [hl] at hx; cases hx
      · rw [if_neg hxn]; exact hx
    · intro x hx
      dsimp only at hx ⊢
      rcases List.mem_cons.1 hx with rfl | hx
      · exact Or.inr (by rw [e, if_pos rfl]; rfl)
      · exact Or.inl hx
    · dsimp only
      rw [e, if_pos rfl]; rfl

/-- One part of the run: it fails as the specification says or goes from `s` to `s'`. -/
def Runs (G : Lang O V A E) (keep : Expr O V A → Option (Except E Bool)) (root : Expr O V A) (c : Nat) (ts0 : List (Task O V A))
    (s : St O V A) (q : St O V A → Prop) : Prop :=
  (∃ e, ErrorOf G keep root e ∧ ∀ fuel ts, extractLoop G keep (fuel + c) (ts0 ++ ts) s = some (.error e)) ∨
  (∃ s', OkSt G keep root s' ∧ Step s s' ∧ q s' ∧
    ∀ fuel ts, extractLoop G keep (fuel + c) (ts0 ++ ts) s = extractLoop G keep fuel ts s')

theorem run_list {G : Lang O V A E} {keep : Expr O V A → Option (Except E Bool)} {root : Expr O V A} (B : Nat) :
    ∀ (ds : List (Expr O V A)),
    (∀ d ∈ ds, ∀ s, OkSt G keep root s → (∀ x ∈ s.prev, (lookup s.new x).isSome ∨ d.size < x.size) →
      ∃ c, c ≤ 2 * d.size ∧ Runs G keep root c [.pre d] s (fun s' => (lookup s'.new d).isSome)) →
    (∀ d ∈ ds, d.size ≤ B) → ∀ s, OkSt G keep root s → (∀ x ∈ s.prev, (lookup s.new x).isSome ∨ B < x.size) →
      ∃ c, c ≤ 2 * Expr.sizes ds ∧ Runs G keep root c (ds.map Task.pre) s (fun s' => ∀ d ∈ ds, (lookup s'.new d).isSome) := by
  intro ds
  induction ds with
  | nil =>
    intro _ _ s hs _
    exact ⟨0, by simp, Or.inr ⟨s, hs, Step.refl s, by simp, fun fuel ts => rfl⟩⟩
  | cons d ds ih =>
    intro hd hB s hs hp
    have hdB := hB d (by simp)
    have hsz : Expr.sizes (d :: ds) = d.size + Expr.sizes ds := by rw [Expr.sizes]
    obtain ⟨c1, hc1, h1⟩ := hd d (by simp) s hs (fun x hx => (hp x hx).imp id (fun h => by omega))
    rcases h1 with ⟨e, he, hl⟩ | ⟨s1, hs1, st1, hq1, hl⟩
    · refine ⟨c1, by omega, Or.inl ⟨e, he, fun fuel ts => ?_⟩⟩
      have := hl fuel (ds.map Task.pre ++ ts)
      simpa using this
    · obtain ⟨c2, hc2, h2⟩ := ih (fun x hx => hd x (by simp [hx])) (fun x hx => hB x (by simp [hx])) s1 hs1 (fun x hx => by
        rcases st1.prev x hx with h | h
        · exact (hp x h).imp (st1.some ·) id
        · exact Or.inl h)
      have step : ∀ fuel ts, extractLoop G keep (fuel + (c2 + c1)) ((d :: ds).map Task.pre ++ ts) s =
          extractLoop G keep (fuel + c2) (ds.map Task.pre ++ ts) s1 := by
        intro fuel ts
        have := hl (fuel + c2) (ds.map Task.pre ++ ts)
        rw [← Nat.add_assoc]
        simpa using this
      refine ⟨c2 + c1, by omega, ?_⟩
      rcases h2 with ⟨e, he, hl2⟩ | ⟨s2, hs2, st2, hq2, hl2⟩
      · exact Or.inl ⟨e, he, fun fuel ts => by rw [step, hl2]⟩
      · refine Or.inr ⟨s2, hs2, st1.trans st2, ?_, fun fuel ts => by rw [step, hl2]⟩
        intro x hx
        rcases List.mem_cons.1 hx with rfl | hx
        · exact st2.some hq1
        · exact hq2 x hx

theorem run_node {G : Lang O V A E} {keep : Expr O V A → Option (Except E Bool)} {root : Expr O V A}
    (hk : ∀ m, Reached keep root m → keep m ≠ none) (n : Expr O V A) : Reached keep root n → ∀ s, OkSt G keep root s →
    (∀ x ∈ s.prev, (lookup s.new x).isSome ∨ n.size < x.size) →
      ∃ c, c ≤ 2 * n.size ∧ Runs G keep root c [.pre n] s (fun s' => (lookup s'.new n).isSome) := by
  induction n using Expr.ind with
  | _ n ih =>
    intro hn s hs hp
    have hsz := size_eq n
    by_cases hmem : n ∈ s.prev
    · refine ⟨1, by omega, Or.inr ⟨s, hs, Step.refl s, ?_, ?_⟩⟩
      · rcases hp n hmem with h | h
        · exact h
        · omega
      · intro fuel ts
        simp only [List.singleton_append]
        rw [extractLoop, if_pos hmem]
    · have hl0 : ∀ fuel ts, extractLoop G keep (fuel + 1) ([Task.pre n] ++ ts) s = match keep n with
          | none => none
          | some (.error e) => some (.error e)
          | some (.ok true) =>
            extractLoop G keep fuel (n.deps.map Task.pre ++ Task.post n :: ts) { s with prev := n :: s.prev }
          | some (.ok false) => extractLoop G keep fuel ts (outside G n { s with prev := n :: s.prev }) := by
        intro fuel ts
        simp only [List.singleton_append]
        rw [extractLoop, if_neg hmem]
        rfl
      cases hkn : keep n with
      | none => exact absurd hkn (hk n hn)
      | some r =>
        cases r with
        | error e =>
          refine ⟨1, by omega, Or.inl ⟨e, Or.inl ⟨n, hn, hkn⟩, fun fuel ts => ?_⟩⟩
          rw [hl0, hkn]
        | ok b =>
          cases b with
          | false =>
            obtain ⟨a1, a2, a3⟩ := hs.out hn hkn
            refine ⟨1, by omega, Or.inr ⟨_, a1, a2, a3, fun fuel ts => ?_⟩⟩
            rw [hl0, hkn]
          | true =>
            simp only [hkn] at hl0
            have hdsz : ∀ d ∈ n.deps, d.size ≤ Expr.sizes n.deps := fun d hd => size_mem hd
            have hs0 : OkSt G keep root { s with prev := n :: s.prev } :=
              ⟨hs.rep, hs.reach, hs.closed, hs.argsIn, hs.nodup, hs.params, hs.next⟩
            obtain ⟨c, hc, h1⟩ := run_list (G := G) (keep := keep) (root := root) (Expr.sizes n.deps) n.deps
              (fun d hd s hs hp => ih d hd (.dep hn hkn hd) s hs hp) hdsz _ hs0 (by
                intro x hx
                rcases List.mem_cons.1 hx with rfl | hx
                · exact Or.inr (by omega)
                · exact (hp x hx).imp id (fun h => by omega))
            rcases h1 with ⟨e, he, hl⟩ | ⟨s1, hs1, st1, hq1, hl⟩
            · refine ⟨c + 1, by omega, Or.inl ⟨e, he, fun fuel ts => ?_⟩⟩
              rw [← Nat.add_assoc, hl0, hl]
            · obtain ⟨xs, x1, x2, x3⟩ := newDeps_spec s1.new n.deps hq1
              have hl1 : ∀ fuel ts, extractLoop G keep (fuel + (c + 2)) ([Task.pre n] ++ ts) s =
                  match G.withNewDeps n xs with
                  | .error e => some (.error e)
                  | .ok m => extractLoop G keep fuel ts { s1 with new := emplace s1.new n m } := by
                intro fuel ts
                have : fuel + (c + 2) = (fuel + 1 + c) + 1 := by omega
                rw [this, hl0, hl, extractLoop, x1]
                rfl
              have hrep : ∀ (i : Nat) (d x : Expr O V A), n.deps[i]? = some d → xs[i]? = some x →
                  Rep G keep s1.args d x := fun i d x h1 h2 => hs1.rep d x (x3 i d x h1 h2)
              refine ⟨c + 2, by omega, ?_⟩
              cases hw : G.withNewDeps n xs with
              | error e =>
                simp only [hw] at hl1
                exact Or.inl ⟨e, Or.inr ⟨n, xs, s1.args, hn, hkn, x2, hrep, hw⟩, hl1⟩
              | ok m =>
                simp only [hw] at hl1
                obtain ⟨a1, a2, a3⟩ := hs1.add hn hkn hq1 (.node hkn x2 hrep hw)
                have st : Step { s with prev := n :: s.prev } { s1 with new := emplace s1.new n m } := st1.trans a2
                refine Or.inr ⟨_, a1, ⟨st.new, st.args, fun x hx => ?_⟩, a3, hl1⟩
                rcases st.prev x hx with h | h
                · rcases List.mem_cons.1 h with rfl | h
                  · exact Or.inr a3
                  · exact Or.inl h
                · exact Or.inr h

end Verif.Where
