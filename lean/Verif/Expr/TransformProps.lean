import Verif.Expr.TraverseLemmas
import Verif.Expr.VisitorProps

/-!
# Bottom-up transformation and substitution (C41)
-/

namespace Verif.Expr
variable {O V A E T : Type} [DecidableEq O] [DecidableEq V] [DecidableEq A]

/-- `PostOrderTraverse` computes the recursive definition for every visitor, including which error is returned. -/
theorem traverse_eq (v : Expr O V A → List T → Except E T) (root : Expr O V A) :
    traverseExpr root v = some (fold v root) := by
  obtain ⟨po, hpo, _, _, hlast, _⟩ := post_order root
  unfold traverseExpr traverse
  rw [hpo]
  dsimp only [Option.bind_some]
  have : 0 < po.nodes.length := by
    cases h : po.nodes with
    | nil => rw [h] at hlast; cases hlast
    | cons => simp
  exact traverseLoop_eq hpo _ 0 [] (by omega) (by simp [Res])

/-- How a result is stored: the null pointer if the node did not change. -/
def mark (n r : Expr O V A) : Option (Expr O V A) := if r ≠ n then some r else none

theorem mark_any : ∀ (ds xs : List (Expr O V A)), ds.length = xs.length →
    ((List.zipWith mark ds xs).any Option.isSome = true ↔ xs ≠ ds) := by
  intro ds
  induction ds with
  | nil => intro xs h; cases xs <;> simp_all
  | cons d ds ih =>
    intro xs h
    cases xs with
    | nil => simp at h
    | cons x xs =>
      simp only [List.length_cons, Nat.add_right_cancel_iff] at h
      simp only [List.zipWith_cons_cons, List.any_cons, Bool.or_eq_true, ih xs h, ne_eq, List.cons.injEq, mark]
      by_cases hx : x = d <;> simp [hx]

theorem pickDeps_eq : ∀ (results : List (Option (Expr O V A))) (ix : List Nat) (ds xs : List (Expr O V A)),
    ds.length = xs.length → gather results ix = some (List.zipWith mark ds xs) → pickDeps results ix ds = some xs := by
  intro results ix
  induction ix with
  | nil =>
    intro ds xs hl h
    rw [gather] at h
    cases ds <;> cases xs <;> simp_all [pickDeps]
  | cons k ks ih =>
    intro ds xs hl h
    rw [gather] at h
    cases hk : results[k]? with
    | none => rw [hk] at h; cases h
    | some r =>
      rw [hk] at h; dsimp only at h
      cases hg : gather results ks with
      | none => rw [hg] at h; cases h
      | some rs =>
        rw [hg] at h; dsimp only at h
        cases ds with
        | nil => simp at h
        | cons d ds =>
          cases xs with
          | nil => simp at hl
          | cons x xs =>
            simp only [List.zipWith_cons_cons, Option.some.injEq, List.cons.injEq] at h
            obtain ⟨rfl, h2⟩ := h
            have := ih ds xs (by simpa using hl) (by rw [hg, h2])
            rw [pickDeps, hk]
            dsimp only
            unfold mark
            by_cases hx : x = d
            · rw [if_neg (by simpa using hx)]; dsimp only; rw [this, hx]; rfl
            · rw [if_pos (by simpa using hx)]; dsimp only; rw [this]; rfl

theorem folds_length {v : Expr O V A → List T → Except E T} {ds : List (Expr O V A)} {xs : List T}
    (h : folds v ds = .ok xs) : ds.length = xs.length := by
  have := congrArg List.length (folds_ok.1 h)
  simpa using this

/-- What `fn` is applied to at `n`, the transformed dependencies being `ds`. -/
def fnInput (G : Lang O V A E) (n : Expr O V A) (ds : List (Expr O V A)) : Except E (Expr O V A) :=
  match n.label with
  | .op o => if ds = n.deps then .ok n else G.mkOp o ds
  | _ => .ok n

theorem transformNode_eq (G : Lang O V A E) (fn : Expr O V A → Except E (Expr O V A)) (n : Expr O V A)
    (ds : List (Expr O V A)) : transformNode G fn n ds = (fnInput G n ds).bind fn := by
  unfold transformNode fnInput
  cases n.label with
  | op o => dsimp only; split <;> rfl
  | _ => rfl

theorem transformStep_eq (G : Lang O V A E) (fn : Expr O V A → Except E (Expr O V A)) {root : Expr O V A}
    {po : PostOrder O V A} (hpo : postOrder root = some po) {i : Nat} {n : Expr O V A} (hi : po.nodes[i]? = some n)
    {vals : List (Expr O V A)} (h : Res (transformNode G fn) po.nodes i vals) :
    ∃ xs, folds (transformNode G fn) n.deps = .ok xs ∧
      transformStep G po fn (List.zipWith mark (po.nodes.take i) vals) i =
        some ((fnInput G n xs).bind (fun m => (fn m).bind (fun r => .ok (m, mark n r)))) := by
  obtain ⟨ix, xs, h1, h2, h3⟩ := deps_res hpo hi h
  obtain ⟨po', hpo', _, _, _, hdep, _⟩ := post_order root
  rw [hpo] at hpo'; cases hpo'
  obtain ⟨ix', h1', h4, h5⟩ := hdep i n hi
  rw [h1] at h1'; cases h1'
  refine ⟨xs, h3, ?_⟩
  have hg : gather (List.zipWith mark (po.nodes.take i) vals) ix = some (List.zipWith mark n.deps xs) := by
    rw [gather_map]
    rw [gather_map] at h2
    apply List.ext_getElem?
    intro j
    have g1 := congrArg (fun l => l[j]?) h4
    have g2 := congrArg (fun l => l[j]?) h2
    simp only [List.getElem?_map] at g1 g2
    simp only [List.getElem?_map, List.getElem?_zipWith]
    cases hj : ix[j]? with
    | none =>
      rw [hj] at g1
      cases hd : n.deps[j]? with
      | some d => rw [hd] at g1; simp at g1
      | none => rfl
    | some k =>
      have hk : k < i := h5 k (List.mem_of_getElem? hj)
      rw [hj] at g1 g2
      cases hd : n.deps[j]? with
      | none => rw [hd] at g1; simp at g1
      | some d =>
        cases hx : xs[j]? with
        | none => rw [hx] at g2; simp at g2
        | some x =>
          rw [hd] at g1
          rw [hx] at g2
          simp at g1 g2
          simp [List.getElem?_take_of_lt hk, g1, g2]
  have hl := folds_length h3
  unfold transformStep
  rw [hi, h1]
  dsimp only
  rw [hg]
  dsimp only
  have fin : ∀ inp : Except E (Expr O V A), (match some inp with
      | none => none
      | some (.error e) => some (.error e)
      | some (.ok m) =>
        match fn m with
        | .error e => some (.error e)
        | .ok r => some (.ok (m, if r ≠ n then some r else none))) =
      some (inp.bind (fun m => (fn m).bind (fun r => .ok (m, mark n r)))) := by
    intro inp
    cases inp with
    | error e => rfl
    | ok m =>
      dsimp only [Except.bind]
      cases fn m <;> rfl
  rw [← fin]
  unfold fnInput
  cases n.label with
  | op o =>
    dsimp only
    by_cases hx : xs = n.deps
    · rw [if_neg (by rw [mark_any _ _ hl]; simpa using hx), if_pos hx]; rfl
    · rw [if_pos ((mark_any _ _ hl).2 hx), if_neg hx, pickDeps_eq _ _ _ _ hl hg]; rfl
  | _ => rfl

/-- The arguments of the calls of `fn` for the nodes `l`. -/
def Calls (G : Lang O V A E) (fn : Expr O V A → Except E (Expr O V A)) (l calls : List (Expr O V A)) : Prop :=
  calls.length = l.length ∧ ∀ (i : Nat) (n c : Expr O V A), l[i]? = some n → calls[i]? = some c →
    ∃ ds, folds (transformNode G fn) n.deps = .ok ds ∧ fnInput G n ds = .ok c

theorem transformLoop_eq (G : Lang O V A E) (fn : Expr O V A → Except E (Expr O V A)) {root : Expr O V A}
    {po : PostOrder O V A} (hpo : postOrder root = some po) : ∀ (m i : Nat) (vals calls : List (Expr O V A)),
    i + m = po.nodes.length → Res (transformNode G fn) po.nodes i vals → Calls G fn (po.nodes.take i) calls →
    (∃ e, fold (transformNode G fn) root = .error e ∧
      transformLoop G po fn m i (List.zipWith mark (po.nodes.take i) vals) calls = some (.error e)) ∨
    (∃ vals' calls', Res (transformNode G fn) po.nodes po.nodes.length vals' ∧ Calls G fn po.nodes calls' ∧
      transformLoop G po fn m i (List.zipWith mark (po.nodes.take i) vals) calls =
        some (.ok (List.zipWith mark po.nodes vals', calls'))) := by
  have hnodes := nodes_eq hpo
  intro m
  induction m with
  | zero =>
    intro i vals calls him h hc
    have : i = po.nodes.length := by omega
    subst this
    rw [List.take_length] at hc ⊢
    exact Or.inr ⟨vals, calls, h, hc, rfl⟩
  | succ m ih =>
    intro i vals calls him h hc
    have hlt : i < po.nodes.length := by omega
    obtain ⟨n, hi⟩ : ∃ n, po.nodes[i]? = some n := ⟨_, List.getElem?_eq_getElem hlt⟩
    obtain ⟨xs, h1, h2⟩ := transformStep_eq G fn hpo hi h
    have hf : fold (transformNode G fn) n = (fnInput G n xs).bind fn := by
      rw [fold_eq, h1]; exact transformNode_eq G fn n xs
    have herr : ∀ e, fold (transformNode G fn) n = .error e → fold (transformNode G fn) root = .error e := by
      intro e he
      have hok := h.allOk
      rw [hnodes] at hok
      exact root_err (v := transformNode G fn) hok (by rw [← hnodes]; exact hi) he
    rw [transformLoop, h2]
    cases hin : fnInput G n xs with
    | error e => exact Or.inl ⟨e, herr e (by rw [hf, hin]; rfl), rfl⟩
    | ok c =>
      dsimp only [Except.bind]
      cases hfn : fn c with
      | error e => exact Or.inl ⟨e, herr e (by rw [hf, hin]; exact hfn), rfl⟩
      | ok r =>
        dsimp only
        have hr : fold (transformNode G fn) n = .ok r := by rw [hf, hin]; exact hfn
        have hlen := h.length (by omega)
        have hz : List.zipWith mark (po.nodes.take i) vals ++ [mark n r] =
            List.zipWith mark (po.nodes.take (i + 1)) (vals ++ [r]) := by
          rw [List.take_succ, hi, List.zipWith_append (by simp; omega)]
          rfl
        rw [hz]
        apply ih (i + 1) _ _ (by omega) (h.snoc hi hr)
        have htl : (po.nodes.take i).length = i := by simp; omega
        constructor
        · rw [List.take_succ, hi, List.length_append, List.length_append, hc.1]; rfl
        · intro j n' c' hj hj'
          rw [List.take_succ, hi] at hj
          rcases Nat.lt_trichotomy j i with hji | hji | hji
          · rw [List.getElem?_append_left (by omega)] at hj
            rw [List.getElem?_append_left (by rw [hc.1]; omega)] at hj'
            exact hc.2 j n' c' hj hj'
          · subst hji
            rw [List.getElem?_append_right (by omega), htl] at hj
            rw [List.getElem?_append_right (by rw [hc.1]; omega), hc.1, htl] at hj'
            simp at hj hj'
            subst hj hj'
            exact ⟨xs, h1, hin⟩
          · rw [List.getElem?_append_right (by omega), htl] at hj
            rw [List.getElem?_eq_none (by simp; omega)] at hj
            cases hj

/-- `Transform(root, fn)` returns the result of the recursive definition: transform the dependencies, rebuild the operator
node if one changed, apply `fn`; it returns an error exactly when this does, the same one.  On success `fn` has been called
exactly once for each distinct subexpression `n`, with `n` rebuilt over its transformed dependencies. -/
theorem transform_eq (G : Lang O V A E) (fn : Expr O V A → Except E (Expr O V A)) (root : Expr O V A) :
    (∃ e, fold (transformNode G fn) root = .error e ∧ transform G root fn = some (.error e)) ∨
    (∃ (r : Expr O V A) (calls nodes : List (Expr O V A)), fold (transformNode G fn) root = .ok r ∧ transform G root fn = some (.ok (r, calls)) ∧
      nodes.Nodup ∧ (∀ n, n ∈ nodes ↔ Sub n root) ∧ calls.length = nodes.length ∧
      ∀ (i : Nat) (n c : Expr O V A), nodes[i]? = some n → calls[i]? = some c →
        ∃ ds, folds (transformNode G fn) n.deps = .ok ds ∧
          match n.label with
          | .op o => if ds = n.deps then c = n else G.mkOp o ds = .ok c
          | _ => c = n) := by
  obtain ⟨po, hpo, hnd, hsub, hlast, _⟩ := post_order root
  unfold transform transformOn
  rw [hpo]
  dsimp only [Option.bind_some]
  rcases transformLoop_eq G fn hpo po.nodes.length 0 [] [] (by omega) (by simp [Res])
      ⟨by simp, by intro i n c h; simp at h⟩ with ⟨e, h1, h2⟩ | ⟨vals, calls, h1, h2, h3⟩
  · left
    simp only [List.take_zero, List.zipWith_nil_left] at h2
    exact ⟨e, h1, by rw [h2]⟩
  · right
    simp only [List.take_zero, List.zipWith_nil_left] at h3
    rw [h3]
    have hlen := h1.length (Nat.le_refl _)
    have hpos : 0 < po.nodes.length := by
      cases h : po.nodes with
      | nil => rw [h] at hlast; cases hlast
      | cons => simp
    have hlast' : po.nodes[po.nodes.length - 1]? = some root := by rw [← List.getLast?_eq_getElem?]; exact hlast
    obtain ⟨r, hr, hf⟩ := h1.get (show po.nodes.length - 1 < po.nodes.length by omega) hlast'
    have hzl : (List.zipWith mark po.nodes vals).getLast? = some (mark root r) := by
      rw [List.getLast?_eq_getElem?, List.length_zipWith, hlen, Nat.min_self, List.getElem?_zipWith, hlast', hr]
    refine ⟨r, calls, po.nodes, hf, ?_, hnd, hsub, h2.1, ?_⟩
    · dsimp only
      rw [hzl]
      by_cases hx : r = root
      · rw [show mark root r = none from by simp [mark, hx]]
        dsimp only
        rw [hlast, hx]
      · rw [show mark root r = some r from by simp [mark, hx]]
    · intro i n c hi hc
      obtain ⟨ds, hds, hin⟩ := h2.2 i n c hi hc
      refine ⟨ds, hds, ?_⟩
      unfold fnInput at hin
      generalize n.label = lab at hin ⊢
      cases lab with
      | op o =>
        dsimp only at hin ⊢
        split
        · rename_i hd; rw [if_pos hd] at hin; cases hin; rfl
        · rename_i hd; rw [if_neg hd] at hin; exact hin
      | _ => dsimp only at hin ⊢; cases hin; rfl

/-! ## WithNewDependencies -/

/-- `WithNewDependencies` on a constructed operator node is the construction of the node with the new dependencies: the two
shortcuts do not change the result. -/
theorem with_new_deps (G : Lang O V A E) (o : O) (a : A) (ds deps : List (Expr O V A)) (h : WF G (.mk (.op o) a ds)) :
    G.withNewDeps (.mk (.op o) a ds) deps = G.mkOp o deps := by
  obtain ⟨_, hinf⟩ : (∀ d ∈ ds, WF G d) ∧ G.infer o (ds.map Expr.attr) = .ok a := by
    cases h with
    | op _ _ _ h1 h2 => exact ⟨h1, h2⟩
  unfold Lang.withNewDeps Lang.mkOp
  by_cases h1 : (Expr.mk (.op o) a ds).deps = deps
  · rw [if_pos h1]
    have h1 : ds = deps := h1
    rw [← h1, hinf]
  · rw [if_neg h1]
    show (if sameAttrs ds deps = true then Except.ok (Expr.mk (.op o) a deps) else G.mkOp o deps) = G.mkOp o deps
    unfold Lang.mkOp
    by_cases h2 : ds.map Expr.attr = deps.map Expr.attr
    · rw [if_pos (by simpa [sameAttrs] using h2), ← h2, hinf]
    · rw [if_neg (by simpa [sameAttrs] using h2)]

/-- A constructed node with constructed dependencies gives a constructed node. -/
theorem with_new_deps_wf (G : Lang O V A E) (n r : Expr O V A) (deps : List (Expr O V A)) (h : WF G n)
    (hd : ∀ d ∈ deps, WF G d) (hr : G.withNewDeps n deps = .ok r) : WF G r ∧ r.deps = deps ∧ r.label = n.label := by
  have nonop : ∀ (l : Label O V) (a : A), (∀ o, l ≠ .op o) → G.withNewDeps (.mk l a []) deps = .ok r →
      WF G (.mk l a []) → WF G r ∧ r.deps = deps ∧ r.label = l := by
    intro l a hl hr hw
    unfold Lang.withNewDeps at hr
    by_cases h1 : (Expr.mk l a []).deps = deps
    · rw [if_pos h1] at hr
      cases hr; exact ⟨hw, h1, rfl⟩
    · rw [if_neg h1] at hr
      cases l with
      | op o => exact absurd rfl (hl o)
      | _ =>
        simp only [Expr.label] at hr
        rw [if_pos (by intro h; exact h1 h.symm)] at hr
        cases hr
  cases h with
  | leaf k => exact nonop _ _ (by intro o ho; cases ho) hr (.leaf k)
  | placeholder k => exact nonop _ _ (by intro o ho; cases ho) hr (.placeholder k)
  | literal v => exact nonop _ _ (by intro o ho; cases ho) hr (.literal v)
  | op o a ds h1 h2 =>
    rw [with_new_deps G o a ds deps (.op o a ds h1 h2)] at hr
    unfold Lang.mkOp at hr
    cases hi : G.infer o (deps.map Expr.attr) with
    | error e => rw [hi] at hr; cases hr
    | ok b =>
      rw [hi] at hr; cases hr
      exact ⟨.op o b deps hd hi, rfl, rfl⟩

/-! ## Substitution -/

mutual
/-- Simultaneous substitution, top down: a replaced node is not looked into. -/
def subst (G : Lang O V A E) (subs : Expr O V A → Option (Expr O V A)) : Expr O V A → Except E (Expr O V A)
  | .mk l a ds =>
    match subs (.mk l a ds) with
    | some r => .ok r
    | none => (substs G subs ds).bind (G.withNewDeps (.mk l a ds))
/-- The same for lists. -/
def substs (G : Lang O V A E) (subs : Expr O V A → Option (Expr O V A)) : List (Expr O V A) → Except E (List (Expr O V A))
  | [] => .ok []
  | d :: ds => (subst G subs d).bind (fun x => (substs G subs ds).bind (fun xs => .ok (x :: xs)))
end

theorem subst_eq (G : Lang O V A E) (subs : Expr O V A → Option (Expr O V A)) (n : Expr O V A) :
    subst G subs n = match subs n with
      | some r => .ok r
      | none => (substs G subs n.deps).bind (G.withNewDeps n) := by
  cases n; rw [subst]; rfl

theorem substs_congr (G : Lang O V A E) (subs : Expr O V A → Option (Expr O V A)) {v : Expr O V A → List (Expr O V A) → Except E (Expr O V A)}
    : ∀ {ds : List (Expr O V A)}, (∀ d ∈ ds, fold v d = subst G subs d) → folds v ds = substs G subs ds := by
  intro ds
  induction ds with
  | nil => intro _; rw [folds, substs]
  | cons d ds ih =>
    intro h
    rw [folds_cons, substs, h d (by simp), ih (fun x hx => h x (by simp [hx]))]

theorem substs_ok (G : Lang O V A E) (subs : Expr O V A → Option (Expr O V A)) {v : Expr O V A → List (Expr O V A) → Except E (Expr O V A)} :
    ∀ {ds xs : List (Expr O V A)}, (∀ d ∈ ds, ∀ r, fold v d = .ok r → subst G subs d = .ok r) → folds v ds = .ok xs →
      substs G subs ds = .ok xs := by
  intro ds
  induction ds with
  | nil => intro xs _ h; rw [folds] at h; rw [substs]; exact h
  | cons d ds ih =>
    intro xs h hf
    rw [folds_cons] at hf
    cases h1 : fold v d with
    | error e => rw [h1] at hf; cases hf
    | ok x =>
      rw [h1] at hf
      cases h2 : folds v ds with
      | error e => rw [h2] at hf; cases hf
      | ok ys =>
        rw [h2] at hf; cases hf
        rw [substs, h d (by simp) x h1, ih (fun y hy => h y (by simp [hy])) h2]
        rfl

/-- If `SubstituteByFingerprint`, `SubstituteByName` or `SubstituteLeaves` succeeds, the result is the simultaneous
substitution. -/
theorem substitute_ok (G : Lang O V A E) (subs : Expr O V A → Option (Expr O V A)) (root r : Expr O V A)
    (h : substitute G root subs = some (.ok r)) : subst G subs root = .ok r := by
  unfold substitute at h
  rw [traverse_eq] at h
  simp only [Option.some.injEq] at h
  induction root using Expr.ind generalizing r with
  | h n ih =>
    rw [fold_eq] at h
    rw [subst_eq]
    cases hf : folds (substVisitor G subs) n.deps with
    | error e => rw [hf] at h; cases h
    | ok xs =>
      rw [hf] at h
      dsimp only [Except.bind, substVisitor] at h
      cases hs : subs n with
      | some t => rw [hs] at h; exact h
      | none =>
        rw [hs] at h
        dsimp only at h ⊢
        rw [substs_ok G subs (fun d hd r hr => ih d hd r hr) hf]
        exact h

/-- When only nodes without dependencies are replaced (`SubstituteLeaves`, `SubstitutePlaceholders`), the outcome is the
simultaneous substitution, errors included. -/
theorem substitute_terminals (G : Lang O V A E) (subs : Expr O V A → Option (Expr O V A)) (root : Expr O V A)
    (hs : ∀ n, Sub n root → (subs n).isSome → n.deps = []) :
    substitute G root subs = some (subst G subs root) := by
  unfold substitute
  rw [traverse_eq, Option.some.injEq]
  induction root using Expr.ind with
  | h n ih =>
    rw [fold_eq, subst_eq]
    have hd : folds (substVisitor G subs) n.deps = substs G subs n.deps :=
      substs_congr G subs (fun d hd => ih d hd (fun m hm hsm => hs m (.dep hm hd) hsm))
    rw [hd]
    cases hn : subs n with
    | some t =>
      have := hs n (.refl n) (by simp [hn])
      rw [this, substs]
      simp [Except.bind, substVisitor, hn]
    | none => simp [substVisitor, hn]

/-- In general `SubstituteByFingerprint` additionally requires that the substitution succeeds in all subexpressions, also in
those below a replaced node. -/
theorem substitute_succeeds (G : Lang O V A E) (subs : Expr O V A → Option (Expr O V A)) (root : Expr O V A)
    (hs : ∀ n, Sub n root → ∃ r, subst G subs n = .ok r) : substitute G root subs = some (subst G subs root) := by
  unfold substitute
  rw [traverse_eq, Option.some.injEq]
  induction root using Expr.ind with
  | h n ih =>
    rw [fold_eq, subst_eq]
    have hd : folds (substVisitor G subs) n.deps = substs G subs n.deps :=
      substs_congr G subs (fun d hd => ih d hd (fun m hm => hs m (.dep hm hd)))
    have : ∃ xs, folds (substVisitor G subs) n.deps = .ok xs := by
      apply folds_of_allOk
      intro d hdm
      obtain ⟨r, hr⟩ := hs d (.dep (.refl d) hdm)
      exact ⟨r, by rw [ih d hdm (fun m hm => hs m (.dep hm hdm)), hr]⟩
    obtain ⟨xs, hxs⟩ := this
    rw [hxs] at hd
    rw [hxs, ← hd]
    cases hn : subs n <;> simp [Except.bind, substVisitor, hn]

/-! ### Substitution and evaluation -/

mutual
/-- The value of an expression for given meanings of operators, literals, leaves and placeholders. -/
def value {D : Type} (ops : O → List D → D) (lit : V → D) (leaf placeholder : List Nat → D) : Expr O V A → D
  | .mk (.leaf k) _ _ => leaf k
  | .mk (.placeholder k) _ _ => placeholder k
  | .mk (.literal v) _ _ => lit v
  | .mk (.op o) _ ds => ops o (values ops lit leaf placeholder ds)
/-- The same for lists. -/
def values {D : Type} (ops : O → List D → D) (lit : V → D) (leaf placeholder : List Nat → D) : List (Expr O V A) → List D
  | [] => []
  | d :: ds => value ops lit leaf placeholder d :: values ops lit leaf placeholder ds
end

theorem values_map {D : Type} (ops : O → List D → D) (lit : V → D) (leaf placeholder : List Nat → D) :
    ∀ ds : List (Expr O V A), values ops lit leaf placeholder ds = ds.map (value ops lit leaf placeholder) := by
  intro ds
  induction ds with
  | nil => rw [values]; rfl
  | cons d ds ih => rw [values, ih]; rfl

theorem value_op {D : Type} (ops : O → List D → D) (lit : V → D) (leaf placeholder : List Nat → D) {n : Expr O V A} {o : O}
    (h : n.label = .op o) :
    value ops lit leaf placeholder n = ops o (n.deps.map (value ops lit leaf placeholder)) := by
  obtain ⟨l, a, ds⟩ := n
  simp only [Expr.label] at h
  subst h
  rw [value, values_map]; rfl

/-- The map used by `SubstituteLeaves`. -/
def leafSubs (subs : List Nat → Option (Expr O V A)) (n : Expr O V A) : Option (Expr O V A) :=
  match n.label with
  | .leaf k => subs k
  | _ => none

theorem values_substs {D : Type} (G : Lang O V A E) (s : Expr O V A → Option (Expr O V A)) (f g : Expr O V A → D) :
    ∀ {ds xs : List (Expr O V A)}, (∀ d ∈ ds, ∀ r, subst G s d = .ok r → f r = g d) → substs G s ds = .ok xs →
      xs.map f = ds.map g := by
  intro ds
  induction ds with
  | nil => intro xs _ h; rw [substs] at h; cases h; rfl
  | cons d ds ih =>
    intro xs h hs
    rw [substs] at hs
    cases h1 : subst G s d with
    | error e => rw [h1] at hs; cases hs
    | ok x =>
      rw [h1] at hs
      dsimp only [Except.bind] at hs
      cases h2 : substs G s ds with
      | error e => rw [h2] at hs; cases hs
      | ok ys =>
        rw [h2] at hs; cases hs
        rw [List.map_cons, List.map_cons, h d (by simp) x h1, ih (fun y hy => h y (by simp [hy])) h2]

theorem withNewDeps_label (G : Lang O V A E) {n r : Expr O V A} {deps : List (Expr O V A)}
    (h : G.withNewDeps n deps = .ok r) : r.label = n.label ∧ (∀ o, n.label = .op o → r.deps = deps) := by
  unfold Lang.withNewDeps Lang.mkOp at h
  split at h
  · rename_i hd; cases h; exact ⟨rfl, fun _ _ => hd⟩
  · clear * - h
    obtain ⟨l, a, ds⟩ := n
    simp only [Expr.label] at *
    cases l with
    | op o =>
      dsimp only at h
      split at h
      · cases h; exact ⟨rfl, fun _ _ => rfl⟩
      · split at h
        · cases h
        · cases h; exact ⟨rfl, fun _ _ => rfl⟩
    | _ =>
      dsimp only at h
      split at h
      · cases h
      · cases h; exact ⟨rfl, by intro o ho; cases ho⟩

/-- If `SubstituteLeaves` succeeds, the value of the result is the value of the original expression, each substituted leaf
having the value of its substitute (all at once: leaves of substitutes are not substituted again). -/
theorem substitute_leaves_value {D : Type} (G : Lang O V A E) (ops : O → List D → D) (lit : V → D)
    (leaf placeholder : List Nat → D) (subs : List Nat → Option (Expr O V A)) (root r : Expr O V A)
    (h : substitute G root (leafSubs subs) = some (.ok r)) :
    value ops lit leaf placeholder r =
      value ops lit (fun k => match subs k with
        | some s => value ops lit leaf placeholder s
        | none => leaf k) placeholder root := by
  replace h := substitute_ok G _ root r h
  induction root using Expr.ind generalizing r with
  | h n ih =>
    rw [subst_eq] at h
    cases hs : leafSubs subs n with
    | some t =>
      rw [hs] at h; cases h
      obtain ⟨l, a, ds⟩ := n
      unfold leafSubs at hs
      simp only [Expr.label] at hs
      cases l with
      | leaf k => dsimp only at hs; rw [value]; simp only [hs]
      | _ => cases hs
    | none =>
      rw [hs] at h
      dsimp only at h
      cases hds : substs G (leafSubs subs) n.deps with
      | error e => rw [hds] at h; cases h
      | ok xs =>
        rw [hds] at h
        obtain ⟨hl, hd⟩ := withNewDeps_label G h
        cases hn : n.label with
        | op o =>
          rw [value_op _ _ _ _ hn, value_op _ _ _ _ (hl.trans hn), hd o hn,
            values_substs G _ _ _ (fun d hd r hr => ih d hd r hr) hds]
        | leaf k =>
          obtain ⟨l, a, ds⟩ := n
          obtain ⟨l', a', ds'⟩ := r
          simp only [Expr.label] at hn hl
          subst hn; subst hl
          have : subs k = none := hs
          rw [value, value, this]
        | placeholder k =>
          obtain ⟨l, a, ds⟩ := n
          obtain ⟨l', a', ds'⟩ := r
          simp only [Expr.label] at hn hl
          subst hn; subst hl
          rw [value, value]
        | literal k =>
          obtain ⟨l, a, ds⟩ := n
          obtain ⟨l', a', ds'⟩ := r
          simp only [Expr.label] at hn hl
          subst hn; subst hl
          rw [value, value]

/-- `SubstitutePlaceholders` with `must_substitute_all = false` is the simultaneous substitution; with `true` it succeeds
only if every placeholder of the expression has a substitute, and then gives the same result. -/
theorem substitute_placeholders (G : Lang O V A E) (noValue : List Nat → E) (root : Expr O V A)
    (subs : List Nat → Option (Expr O V A)) (hwf : ∀ n, Sub n root → WF G n) :
    substitutePlaceholders G noValue root subs false =
      some (subst G (fun n => match n.label with | .placeholder k => subs k | _ => none) root) ∧
    ((∀ n k, Sub n root → n.label = .placeholder k → (subs k).isSome) →
      substitutePlaceholders G noValue root subs true = substitutePlaceholders G noValue root subs false) ∧
    (∀ n k, Sub n root → n.label = .placeholder k → subs k = none →
      ∃ e, substitutePlaceholders G noValue root subs true = some (.error e)) := by
  have hcongr : ∀ (v w : Expr O V A → List (Expr O V A) → Except E (Expr O V A)) (n : Expr O V A),
      (∀ m, Sub m n → ∀ as, v m as = w m as) → fold v n = fold w n := by
    intro v w n
    induction n using Expr.ind with
    | h n ih =>
      intro h
      rw [fold_eq, fold_eq]
      have : ∀ ds : List (Expr O V A), (∀ d ∈ ds, d ∈ n.deps) → folds v ds = folds w ds := by
        intro ds
        induction ds with
        | nil => intro _; rw [folds, folds]
        | cons d ds ihd =>
          intro hd
          rw [folds_cons, folds_cons, ih d (hd d (by simp)) (fun m hm => h m (.dep hm (hd d (by simp)))),
            ihd (fun e he => hd e (by simp [he]))]
      rw [this n.deps (fun d hd => hd)]
      congr 1
      funext as
      exact h n (.refl n) as
  refine ⟨?_, ?_, ?_⟩
  · have ht := substitute_terminals G (fun n => match n.label with | .placeholder k => subs k | _ => none) root (by
      intro n hn hsm
      have hw := hwf n hn
      cases hw with
      | op o a ds _ _ => simp [Expr.label] at hsm
      | _ => rfl)
    rw [← ht]
    unfold substitute substitutePlaceholders
    rw [traverse_eq, traverse_eq, Option.some.injEq]
    apply hcongr
    intro m _ as
    unfold substVisitor
    dsimp only
    generalize m.label = lab
    cases lab with
    | placeholder k =>
      dsimp only
      cases subs k <;> simp
    | _ => rfl
  · intro hall
    unfold substitutePlaceholders
    rw [traverse_eq, traverse_eq, Option.some.injEq]
    apply hcongr
    intro m hm as
    cases hl : m.label with
    | placeholder k =>
      have := hall m k hm hl
      dsimp only
      cases hk : subs k with
      | none => rw [hk] at this; cases this
      | some t => rfl
    | _ => rfl
  · intro n k hn hl hk
    unfold substitutePlaceholders
    rw [traverse_eq]
    generalize hv : (fun (n : Expr O V A) (args : List (Expr O V A)) => _) = v
    have herr : ∀ m, Sub n m → ∃ e, fold v m = .error e := by
      intro m
      induction m using Expr.ind with
      | h m ih =>
        intro hs
        rw [fold_eq]
        cases hf : folds v m.deps with
        | error e => exact ⟨e, rfl⟩
        | ok xs =>
          cases hs with
          | refl =>
            refine ⟨noValue k, ?_⟩
            rw [← hv]
            simp [Except.bind, hl, hk]
          | dep h1 h2 =>
            exfalso
            obtain ⟨e, he⟩ := ih _ h2 h1
            have hm := folds_ok.1 hf
            have : fold v _ ∈ m.deps.map (fold v) := List.mem_map_of_mem h2
            rw [hm, he] at this
            simp at this
    obtain ⟨e, he⟩ := herr root hn
    exact ⟨e, by rw [he]⟩

/-! ## Examples -/

/-- A transformation: the leaf `x` becomes a literal, operator 1 becomes operator 2. -/
def exFn (n : Expr Nat Nat Nat) : Except Nat (Expr Nat Nat Nat) :=
  match n.label with
  | .leaf [120] => .ok (.mk (.literal 5) 0 [])
  | .op 1 => exLang.mkOp 2 n.deps
  | _ => .ok n

example : transform exLang exF exFn =
    some (.ok (.mk (.op 0) 1 [.mk (.literal 5) 0 [], .mk (.op 2) 1 [.mk (.literal 5) 0 [], exP], .mk (.literal 5) 0 []],
      [exX, exP, .mk (.op 1) 1 [.mk (.literal 5) 0 [], exP],
       .mk (.op 0) 1 [.mk (.literal 5) 0 [], .mk (.op 2) 1 [.mk (.literal 5) 0 [], exP], .mk (.literal 5) 0 []]])) := by rfl

/-- Swapping a leaf and a placeholder at once. -/
example : substitute exLang exG (fun n => if n = exX then some exP else if n = exP then some exX else none) =
    some (.ok (.mk (.op 1) 2 [exP, exX])) := by rfl

example : substitutePlaceholders exLang (fun _ => 9) exF (fun k => if k = [112] then some exX else none) true =
    some (.ok (.mk (.op 0) 4 [exX, .mk (.op 1) 2 [exX, exX], exX])) := by rfl
example : substitutePlaceholders exLang (fun _ => 9) exF (fun _ => none) true = some (.error 9) := by rfl

/-- A language whose operator 1 rejects arguments with the attribute 2. -/
def strictLang : Lang Nat Nat Nat Nat :=
  ⟨1, id, fun o as => if o = 1 ∧ 2 ∈ as then .error 13 else .ok 3, 7⟩

/-- `h(f(x))`. -/
def strictInner : Expr Nat Nat Nat := .mk (.op 2) 3 [.mk (.op 1) 3 [exX]]
/-- `g(h(f(x)))`. -/
def strictExpr : Expr Nat Nat Nat := .mk (.op 0) 3 [strictInner]

/-- The substitution `{h(f(x)) ↦ 5, x ↦ 2}`. -/
def strictSubs (n : Expr Nat Nat Nat) : Option (Expr Nat Nat Nat) :=
  if n = strictInner then some (.mk (.literal 5) 5 [])
  else if n = exX then some (.mk (.literal 2) 2 []) else none

/-- `SubstituteByFingerprint` may fail although the simultaneous substitution is fine: it also substitutes below a replaced
node, and `f(2)` is rejected although it does not occur in the result. -/
theorem substitute_counterexample : WF strictLang strictExpr ∧
    subst strictLang strictSubs strictExpr = .ok (.mk (.op 0) 3 [.mk (.literal 5) 5 []]) ∧
    substitute strictLang strictExpr strictSubs = some (.error 13) := by
  refine ⟨?_, rfl, rfl⟩
  have hx : WF strictLang exX := .leaf _
  have hf : WF strictLang (.mk (.op 1) 3 [exX]) :=
    .op 1 3 _ (by intro d hd; simp at hd; subst hd; exact hx) (by rfl)
  have hh : WF strictLang strictInner := .op 2 3 _ (by intro d hd; simp at hd; subst hd; exact hf) (by rfl)
  exact .op 0 3 _ (by intro d hd; simp at hd; subst hd; exact hh) (by rfl)

end Verif.Expr
