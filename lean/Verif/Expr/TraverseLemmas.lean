import Verif.Expr.PostOrderProps

/-!
# Lemmas about `PostOrderTraverse` and `Transform`
-/

namespace Verif.Expr
variable {O V A E T : Type} [DecidableEq O] [DecidableEq V] [DecidableEq A]

theorem fold_eq (v : Expr O V A → List T → Except E T) (n : Expr O V A) :
    fold v n = (folds v n.deps).bind (fun args => v n args) := by
  cases n; rw [fold]; rfl

theorem folds_cons (v : Expr O V A → List T → Except E T) (d : Expr O V A) (ds : List (Expr O V A)) :
    folds v (d :: ds) = (fold v d).bind (fun x => (folds v ds).bind (fun xs => .ok (x :: xs))) := by
  rw [folds]; rfl

theorem folds_ok {v : Expr O V A → List T → Except E T} : ∀ {ds : List (Expr O V A)} {xs : List T},
    folds v ds = .ok xs ↔ ds.map (fold v) = xs.map .ok := by
  intro ds
  induction ds with
  | nil => intro xs; rw [folds]; cases xs <;> simp
  | cons d ds ih =>
    intro xs
    rw [folds_cons]
    cases h : fold v d with
    | error e =>
      cases xs <;> simp [Except.bind, h]
    | ok x =>
      cases h2 : folds v ds with
      | error e =>
        simp only [Except.bind]
        cases xs with
        | nil => simp
        | cons y ys =>
          simp only [List.map_cons, List.cons.injEq]
          constructor
          · intro h; cases h
          · rintro ⟨_, h'⟩
            have := ih.2 h'
            rw [h2] at this; cases this
      | ok ys =>
        simp only [Except.bind]
        cases xs with
        | nil => simp
        | cons z zs =>
          simp only [List.map_cons, List.cons.injEq, Except.ok.injEq, h]
          have := ih (xs := zs)
          rw [h2] at this
          rw [Except.ok.injEq] at this
          rw [this]

/-- All the nodes have a result. -/
def AllOk (v : Expr O V A → List T → Except E T) (l : List (Expr O V A)) : Prop := ∀ x ∈ l, ∃ t, fold v x = .ok t

theorem folds_of_allOk {v : Expr O V A → List T → Except E T} {ds : List (Expr O V A)} (h : AllOk v ds) :
    ∃ xs, folds v ds = .ok xs := by
  induction ds with
  | nil => exact ⟨[], by rw [folds]⟩
  | cons d ds ih =>
    obtain ⟨x, hx⟩ := h d (by simp)
    obtain ⟨xs, hxs⟩ := ih (fun y hy => h y (by simp [hy]))
    exact ⟨x :: xs, by rw [folds_cons, hx, hxs]; rfl⟩

/-- The first node without result has the error `e`. -/
def FirstErr (v : Expr O V A → List T → Except E T) (l : List (Expr O V A)) (e : E) : Prop :=
  ∃ p x q, l = p ++ x :: q ∧ AllOk v p ∧ fold v x = .error e

theorem FirstErr.append {v : Expr O V A → List T → Except E T} {l l' : List (Expr O V A)} {e : E} (h : FirstErr v l e) :
    FirstErr v (l ++ l') e := by
  obtain ⟨p, x, q, rfl, h1, h2⟩ := h
  exact ⟨p, x, q ++ l', by simp, h1, h2⟩

theorem visits_prefix : ∀ (ds acc : List (Expr O V A)), ∃ new, visits ds acc = acc ++ new := by
  have key : ∀ (n : Expr O V A) (acc : List (Expr O V A)), ∃ new, visit n acc = acc ++ new := by
    intro n
    induction n using Expr.ind with
    | h n ih =>
      have : ∀ (ds acc : List (Expr O V A)), (∀ d ∈ ds, d ∈ n.deps) → ∃ new, visits ds acc = acc ++ new := by
        intro ds
        induction ds with
        | nil => intro acc _; exact ⟨[], by rw [visits]; simp⟩
        | cons d ds ihd =>
          intro acc hd
          rw [visits]
          obtain ⟨n1, e1⟩ : ∃ n1, (if d ∈ acc then acc else visit d acc) = acc ++ n1 := by
            split
            · exact ⟨[], by simp⟩
            · exact ih d (hd d (by simp)) acc
          obtain ⟨n2, e2⟩ := ihd (if d ∈ acc then acc else visit d acc) (fun e he => hd e (by simp [he]))
          exact ⟨n1 ++ n2, by rw [e2, e1, List.append_assoc]⟩
      intro acc
      obtain ⟨new, e⟩ := this n.deps acc (fun d hd => hd)
      exact ⟨new ++ [n], by rw [visit_eq, e, List.append_assoc]⟩
  intro ds
  induction ds with
  | nil => intro acc; exact ⟨[], by rw [visits]; simp⟩
  | cons d ds ihd =>
    intro acc
    rw [visits]
    obtain ⟨n1, e1⟩ : ∃ n1, (if d ∈ acc then acc else visit d acc) = acc ++ n1 := by
      split
      · exact ⟨[], by simp⟩
      · exact key d acc
    obtain ⟨n2, e2⟩ := ihd (if d ∈ acc then acc else visit d acc)
    exact ⟨n1 ++ n2, by rw [e2, e1, List.append_assoc]⟩

theorem visits_err {v : Expr O V A → List T → Except E T} : ∀ (ds : List (Expr O V A)),
    (∀ d ∈ ds, ∀ acc, AllOk v acc → AllOk v (visit d acc) ∨ ∃ e, FirstErr v (visit d acc) e ∧ fold v d = .error e) →
    ∀ acc, AllOk v acc → AllOk v (visits ds acc) ∨ ∃ e, FirstErr v (visits ds acc) e ∧ folds v ds = .error e := by
  intro ds
  induction ds with
  | nil => intro _ acc h; rw [visits]; exact Or.inl h
  | cons d ds ih =>
    intro h acc ha
    rw [visits, folds_cons]
    by_cases hd : d ∈ acc
    · rw [if_pos hd]
      obtain ⟨t, ht⟩ := ha d hd
      rcases ih (fun x hx => h x (by simp [hx])) acc ha with h1 | ⟨e, h1, h2⟩
      · exact Or.inl h1
      · exact Or.inr ⟨e, h1, by rw [ht, h2]; rfl⟩
    · rw [if_neg hd]
      rcases h d (by simp) acc ha with h1 | ⟨e, h1, h2⟩
      · rcases ih (fun x hx => h x (by simp [hx])) _ h1 with h3 | ⟨e, h3, h4⟩
        · exact Or.inl h3
        · obtain ⟨t, ht⟩ := h1 d (by rw [visit_eq]; simp)
          exact Or.inr ⟨e, h3, by rw [ht, h4]; rfl⟩
      · obtain ⟨new, en⟩ := visits_prefix ds (visit d acc)
        exact Or.inr ⟨e, by rw [en]; exact h1.append, by rw [h2]; rfl⟩

/-- The first error in the visiting order is the error of the recursive definition. -/
theorem visit_err {v : Expr O V A → List T → Except E T} (n : Expr O V A) : ∀ acc, AllOk v acc →
    AllOk v (visit n acc) ∨ ∃ e, FirstErr v (visit n acc) e ∧ fold v n = .error e := by
  induction n using Expr.ind with
  | h n ih =>
    intro acc ha
    rw [visit_eq]
    rcases visits_err n.deps ih acc ha with h | ⟨e, h1, h2⟩
    · cases hf : fold v n with
      | ok t =>
        left
        intro x hx
        rcases List.mem_append.1 hx with hx | hx
        · exact h x hx
        · simp at hx; subst hx; exact ⟨t, hf⟩
      | error e => exact Or.inr ⟨e, ⟨_, n, [], rfl, h, hf⟩, rfl⟩
    · exact Or.inr ⟨e, h1.append, by rw [fold_eq, h2]; rfl⟩

/-- If the nodes before `i` have results and node `i` has the error `e`, so has the root. -/
theorem root_err {v : Expr O V A → List T → Except E T} {root : Expr O V A} {i : Nat} {n : Expr O V A} {e : E}
    (hok : AllOk v ((visit root []).take i)) (hi : (visit root [])[i]? = some n) (he : fold v n = .error e) :
    fold v root = .error e := by
  rcases visit_err (v := v) root [] (by intro x hx; cases hx) with h | ⟨e', ⟨p, x, q, hp, h1, h2⟩, h3⟩
  · obtain ⟨t, ht⟩ := h n (List.mem_of_getElem? hi)
    rw [he] at ht; cases ht
  · have hpi : p.length = i := by
      rcases Nat.lt_trichotomy p.length i with h | h | h
      · exfalso
        have : x ∈ (visit root []).take i := by
          rw [List.mem_iff_getElem?]
          exact ⟨p.length, by rw [List.getElem?_take_of_lt h, hp]; simp⟩
        obtain ⟨t, ht⟩ := hok x this
        rw [h2] at ht; cases ht
      · exact h
      · exfalso
        have : n ∈ p := by
          rw [hp, List.getElem?_append_left h] at hi
          exact List.mem_of_getElem? hi
        obtain ⟨t, ht⟩ := h1 n this
        rw [he] at ht; cases ht
    rw [hp, ← hpi] at hi
    simp at hi
    subst hi
    rw [he] at h2; cases h2
    exact h3

theorem gather_map {α : Type} {results : List α} : ∀ {ks : List Nat} {xs : List α},
    gather results ks = some xs ↔ ks.map (fun k => results[k]?) = xs.map some := by
  intro ks
  induction ks with
  | nil => intro xs; cases xs <;> simp [gather]
  | cons k ks ih =>
    intro xs
    rw [gather]
    cases h : results[k]? with
    | none => cases xs <;> simp [h]
    | some r =>
      cases h2 : gather results ks with
      | none =>
        cases xs with
        | nil => simp
        | cons y ys =>
          simp only [List.map_cons, List.cons.injEq, reduceCtorEq, false_iff, not_and]
          intro _ hh
          have := ih.2 hh
          rw [h2] at this; cases this
      | some rs =>
        cases xs with
        | nil => simp
        | cons y ys =>
          simp only [List.map_cons, List.cons.injEq, h, Option.some.injEq]
          have := ih (xs := ys)
          rw [h2, Option.some.injEq] at this
          rw [this]

/-- The results of the first `i` nodes. -/
def Res (v : Expr O V A → List T → Except E T) (nodes : List (Expr O V A)) (i : Nat) (results : List T) : Prop :=
  results.map Except.ok = (nodes.take i).map (fold v)

theorem Res.length {v : Expr O V A → List T → Except E T} {nodes : List (Expr O V A)} {i : Nat} {results : List T}
    (h : Res v nodes i results) (hi : i ≤ nodes.length) : results.length = i := by
  have := congrArg List.length h
  simp at this; omega

theorem Res.get {v : Expr O V A → List T → Except E T} {nodes : List (Expr O V A)} {i j : Nat} {results : List T}
    (h : Res v nodes i results) (hj : j < i) {n : Expr O V A} (hn : nodes[j]? = some n) :
    ∃ r, results[j]? = some r ∧ fold v n = .ok r := by
  have := congrArg (fun l => l[j]?) h
  simp only [List.getElem?_map, List.getElem?_take_of_lt hj, hn, Option.map_some] at this
  cases hr : results[j]? with
  | none => rw [hr] at this; simp at this
  | some r => rw [hr] at this; simp at this; exact ⟨r, rfl, this.symm⟩

theorem Res.allOk {v : Expr O V A → List T → Except E T} {nodes : List (Expr O V A)} {i : Nat} {results : List T}
    (h : Res v nodes i results) : AllOk v (nodes.take i) := by
  intro x hx
  have : fold v x ∈ (nodes.take i).map (fold v) := List.mem_map_of_mem hx
  rw [← h] at this
  obtain ⟨t, _, ht⟩ := List.mem_map.1 this
  exact ⟨t, ht.symm⟩

/-- The dependencies of node `i` have results, and the indices give them. -/
theorem deps_res {v : Expr O V A → List T → Except E T} {root : Expr O V A} {po : PostOrder O V A}
    (hpo : postOrder root = some po) {i : Nat} {n : Expr O V A} (hi : po.nodes[i]? = some n) {results : List T}
    (h : Res v po.nodes i results) : ∃ ix xs, po.depIndices i = some ix ∧ gather results ix = some xs ∧ folds v n.deps = .ok xs := by
  obtain ⟨po', hpo', hnd, hsub, _, hdep, _⟩ := post_order root
  rw [hpo] at hpo'; cases hpo'
  obtain ⟨ix, h1, h2, h3⟩ := hdep i n hi
  have hok : AllOk v n.deps := by
    intro d hd
    have : some d ∈ n.deps.map some := List.mem_map_of_mem hd
    rw [← h2] at this
    obtain ⟨k, hk, hkd⟩ := List.mem_map.1 this
    obtain ⟨r, _, hr⟩ := h.get (h3 k hk) hkd
    exact ⟨r, hr⟩
  obtain ⟨xs, hxs⟩ := folds_of_allOk hok
  refine ⟨ix, xs, h1, ?_, hxs⟩
  rw [gather_map]
  have hm := folds_ok.1 hxs
  apply List.ext_getElem?
  intro j
  have g1 := congrArg (fun l => l[j]?) h2
  have g2 := congrArg (fun l => l[j]?) hm
  simp only [List.getElem?_map] at g1 g2 ⊢
  cases hj : ix[j]? with
  | none =>
    rw [hj] at g1
    cases hd : n.deps[j]? with
    | some d => rw [hd] at g1; simp at g1
    | none =>
      rw [hd] at g2
      cases hx : xs[j]? with
      | none => rfl
      | some x => rw [hx] at g2; simp at g2
  | some k =>
    rw [hj] at g1
    cases hd : n.deps[j]? with
    | none => rw [hd] at g1; simp at g1
    | some d =>
      rw [hd] at g1 g2
      simp at g1
      cases hx : xs[j]? with
      | none => rw [hx] at g2; simp at g2
      | some x =>
        rw [hx] at g2
        simp at g2
        obtain ⟨r, hr, hf⟩ := h.get (h3 k (List.mem_of_getElem? hj)) g1
        rw [g2] at hf; cases hf
        simp [hr]

theorem invoke_eq {v : Expr O V A → List T → Except E T} {root : Expr O V A} {po : PostOrder O V A}
    (hpo : postOrder root = some po) {i : Nat} {n : Expr O V A} (hi : po.nodes[i]? = some n) {results : List T}
    (h : Res v po.nodes i results) : invoke po v results i = some (fold v n) := by
  obtain ⟨ix, xs, h1, h2, h3⟩ := deps_res hpo hi h
  unfold invoke
  rw [hi, h1]
  dsimp only
  rw [h2, fold_eq, h3]
  rfl

theorem Res.snoc {v : Expr O V A → List T → Except E T} {nodes : List (Expr O V A)} {i : Nat} {results : List T}
    (h : Res v nodes i results) {n : Expr O V A} (hi : nodes[i]? = some n) {r : T} (hr : fold v n = .ok r) :
    Res v nodes (i + 1) (results ++ [r]) := by
  unfold Res at *
  rw [List.take_succ, hi, List.map_append, List.map_append, h]
  simp [hr]

theorem nodes_eq {root : Expr O V A} {po : PostOrder O V A} (h : postOrder root = some po) : po.nodes = visit root [] := by
  rw [postOrder_eq] at h; cases h; rfl

theorem traverseLoop_eq {v : Expr O V A → List T → Except E T} {root : Expr O V A} {po : PostOrder O V A}
    (hpo : postOrder root = some po) : ∀ (m i : Nat) (results : List T), i + m + 1 = po.nodes.length →
    Res v po.nodes i results → traverseLoop po v m i results = some (fold v root) := by
  have hnodes := nodes_eq hpo
  intro m
  induction m with
  | zero =>
    intro i results him h
    have hlast : po.nodes[i]? = some root := by
      have : po.nodes.getLast? = some root := by rw [hnodes, visit_eq]; simp
      rw [List.getLast?_eq_getElem?] at this
      rw [show i = po.nodes.length - 1 from by omega]
      exact this
    rw [traverseLoop, invoke_eq hpo hlast h]
  | succ m ih =>
    intro i results him h
    have hlt : i < po.nodes.length := by omega
    have hi : po.nodes[i]? = some po.nodes[i] := List.getElem?_eq_getElem hlt
    rw [traverseLoop, invoke_eq hpo hi h]
    cases hf : fold v po.nodes[i] with
    | error e =>
      dsimp only
      have hok := h.allOk
      rw [hnodes] at hok
      have hi' := hi
      rw [root_err (v := v) hok (by rw [← hnodes]; exact hi) hf]
    | ok r =>
      dsimp only
      exact ih (i + 1) _ (by omega) (h.snoc hi hf)

end Verif.Expr
