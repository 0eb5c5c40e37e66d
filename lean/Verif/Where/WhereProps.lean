import Verif.Where.WhereLemmas

/-! # C103, C104: short-circuit branches are extracted without changing values, and contain exactly what only they use -/

namespace Verif.Where
open Verif.Expr

variable {O V A E L : Type} [DecidableEq O] [DecidableEq V] [DecidableEq A]

/-! ## Values -/

/-- A call of an extracted lambda. -/
def call {D : Type} (ops : O → List D → D) (lit : V → D) (leaf ph : List Nat → D) (x : Extracted O V A) (vs : List D) : D :=
  value ops lit leaf (fun p => (vs[x.params.idxOf p]?).getD (ph p)) x.body

/-- What the operators mean: `core._short_circuit_where` and `core.where` choose a value, a packed operator chooses between
the values of its branches. -/
structure Meaning {D : Type} (env : Env O V A E L) (ops : O → List D → D) (lit : V → D) (leaf ph : List Nat → D)
    (choose : D → D → D → D) : Prop where
  short : ∀ o c t f, env.shortWhere o = .ok true → ops o [c, t, f] = choose c t f
  core : ∀ o c t f, env.coreWhere = .ok o → ops o [c, t, f] = choose c t f
  packed : ∀ xt xf lt lf o c vt vf, env.compile xt = .ok lt → env.compile xf = .ok lf → env.pack lt lf = .ok o →
    vt.length = xt.params.length → vf.length = xf.params.length →
    ops o (c :: vt ++ vf) = choose c (call ops lit leaf ph xt vt) (call ops lit leaf ph xf vf)

theorem branch_value {D : Type} {root : Expr O V A} {po : PostOrder O V A} {results : List (Expr O V A)} {T : Tree O V A}
    (hw : Weak root po results T) (env : Env O V A E L) (hnp : ∀ r ∈ results, ∀ k, r.label ≠ .placeholder k)
    (ops : O → List D → D) (lit : V → D) (leaf ph : List Nat → D) {b : Expr O V A} (hb : b ∈ results)
    {x : Extracted O V A} {l : L} (h : branchOp env T b = some (.ok (x, l))) :
    env.compile x = .ok l ∧ x.args.length = x.params.length ∧
      call ops lit leaf ph x (x.args.map (value ops lit leaf ph)) = value ops lit leaf ph b := by
  have hk : ∀ n, Reached (inLambda env T b) b n → inLambda env T b n ≠ none :=
    fun n hn => weak_ne hw env hb (weak_reached hw hb hn)
  rcases branchOp_spec hw env hb with ⟨e, he⟩ | ⟨x', l', h1, h2, h3, _⟩
  · rw [h] at he; cases he
  · rw [h] at h1; cases h1
    rcases extract_spec env.lang (inLambda env T b) b hk with ⟨e, g1, _⟩ | ⟨x', g1, _, _, g4, g5, _⟩
    · rw [h2] at g1; cases g1
    · rw [h2] at g1; cases g1
      have hlen : x.args.length = x.params.length := by rw [g4]; simp
      refine ⟨h3, hlen, ?_⟩
      unfold call
      refine extract_value env.lang _ b x hk (fun n k hn hl => absurd hl (hnp n (weak_reached hw hb hn) k)) h2 ops lit leaf ph _ ?_
      intro i p a hp ha
      have hpi := List.getElem?_eq_some_iff.1 hp
      have : x.params.idxOf p = i := by
        rw [← hpi.2]; exact g5.idxOf_getElem i hpi.1
      rw [this, List.getElem?_map, ha]; rfl

theorem value_congr {D : Type} (ops : O → List D → D) (lit : V → D) (leaf ph : List Nat → D) {n m : Expr O V A}
    (hl : m.label = n.label) (hd : m.deps.map (value ops lit leaf ph) = n.deps.map (value ops lit leaf ph)) :
    value ops lit leaf ph m = value ops lit leaf ph n := by
  cases h : n.label with
  | op o => rw [value_op ops lit leaf ph h, value_op ops lit leaf ph (hl.trans h), hd]
  | _ =>
    obtain ⟨l, a, ds⟩ := n; obtain ⟨l2, a2, ds2⟩ := m
    simp only [Expr.label] at h hl; subst hl; subst h; simp only [value]

theorem args_values {D : Type} {po : PostOrder O V A} {results args : List (Expr O V A)} {n : Expr O V A} {ix : List Nat}
    (f : Expr O V A → D) (h1 : args.map some = ix.map (fun k => results[k]?))
    (h2 : ix.map (fun k => po.nodes[k]?) = n.deps.map some)
    (hv : ∀ (k : Nat) r m, results[k]? = some r → po.nodes[k]? = some m → f r = f m) :
    args.map f = n.deps.map f := by
  have la : args.length = ix.length := by simpa using congrArg List.length h1
  have lb : ix.length = n.deps.length := by simpa using congrArg List.length h2
  apply List.ext_getElem?
  intro i
  rw [List.getElem?_map, List.getElem?_map]
  rcases Nat.lt_or_ge i ix.length with hi | hi
  · have e1 := congrArg (·[i]?) h1
    have e2 := congrArg (·[i]?) h2
    have hia : args[i]? = some (args[i]'(by omega)) := List.getElem?_eq_getElem (by omega)
    have hid : n.deps[i]? = some (n.deps[i]'(by omega)) := List.getElem?_eq_getElem (by omega)
    have hii : ix[i]? = some ix[i] := List.getElem?_eq_getElem hi
    simp only [List.getElem?_map, hia, hid, hii, Option.map_some, Option.some.injEq] at e1 e2
    rw [hia, hid]
    simp only [Option.map_some, Option.some.injEq]
    exact hv _ _ _ e1.symm e2
  · rw [List.getElem?_eq_none (by omega), List.getElem?_eq_none (by omega)]

/-- The transformation has no undefined behaviour, and the transformed expression has the value of the original one, whatever
the operators, the annotations and the sharing of subexpressions are. -/
theorem global_value {D : Type} (env : Env O V A E L) (cfgError : String → E) (root : Expr O V A)
    (hnp : ∀ m k, Sub m root → m.label ≠ .placeholder k)
    (ops : O → List D → D) (lit : V → D) (leaf ph : List Nat → D) (choose : D → D → D → D)
    (hm : Meaning env ops lit leaf ph choose) :
    (∃ e, globalTransform env cfgError root = some (.error e)) ∨
    (∃ r, globalTransform env cfgError root = some (.ok r) ∧ value ops lit leaf ph r = value ops lit leaf ph root) := by
  obtain ⟨po, h, hnd, hsub, hlast, hdeps, hidx⟩ := post_order root
  unfold globalTransform
  rw [h]
  dsimp only
  cases ha : anyShortWhere env po.nodes with
  | error e => exact Or.inl ⟨e, rfl⟩
  | ok b =>
    cases b with
    | false => exact Or.inr ⟨root, rfl, rfl⟩
    | true =>
      dsimp only
      obtain ⟨T, hb1, hb2, hb3⟩ := build_spec h
      rw [hb1]
      dsimp only
      have hsw := steps_weak h hb2 hb3 env
        (fun results _ => (∀ (k : Nat) r n, results[k]? = some r → po.nodes[k]? = some n →
          value ops lit leaf ph r = value ops lit leaf ph n) ∧ ∀ r ∈ results, ∀ k, r.label ≠ .placeholder k)
        ⟨by intro k r n hk; simp at hk, by simp⟩ (by
        intro k results T1 T' n r ix args hw hlen ⟨hv, hp⟩ hst _
        have hargs : ∀ a ∈ args, a ∈ results := fun a ha => by
          obtain ⟨j, _, hj⟩ := hst.mem a ha
          exact List.mem_of_getElem? hj
        have hav := args_values (value ops lit leaf ph) hst.argsEq hst.deps hv
        have hnsub : Sub n root := (hsub n).1 (List.mem_of_getElem? hst.node)
        have hval : value ops lit leaf ph r = value ops lit leaf ph n ∧ ∀ k, r.label ≠ .placeholder k := by
          have hshort : ∀ m, env.lang.withNewDeps n args = .ok m → isShortWhere env m = .ok true → ∀ c t f, args = [c, t, f] →
              value ops lit leaf ph n = choose (value ops lit leaf ph c) (value ops lit leaf ph t) (value ops lit leaf ph f) := by
            intro m hm1 hs c t f hargs3
            have hlab := (withNewDeps_label env.lang hm1).1
            unfold isShortWhere at hs
            cases hl : m.label with
            | op o =>
              rw [hl] at hs
              rw [value_op ops lit leaf ph (hlab ▸ hl), ← hav, hargs3]
              exact hm.short o _ _ _ hs
            | _ => rw [hl] at hs; cases hs
          cases hst.made with
          | same hm1 _ =>
            have hlab := (withNewDeps_label env.lang hm1).1
            have hd := withNewDeps_deps hst.len hm1
            exact ⟨value_congr ops lit leaf ph hlab (by rw [hd, hav]), fun k => by rw [hlab]; exact hnp n k hnsub⟩
          | @whr m c t f o a hm1 hs e1 hc _ =>
            refine ⟨?_, fun k => by simp [Expr.label]⟩
            rw [hshort m hm1 hs c t f e1, value_op ops lit leaf ph (o := o) rfl]
            exact hm.core o _ _ _ hc
          | @packed m c t f xt xf lt lf o a hm1 hs e1 hx hy hpk =>
            refine ⟨?_, fun k => by simp [Expr.label]⟩
            have ht : t ∈ results := hargs t (by rw [e1]; simp)
            have hf : f ∈ results := hargs f (by rw [e1]; simp)
            obtain ⟨c1, l1, v1⟩ := branch_value hw env hp ops lit leaf ph ht hx
            obtain ⟨c2, l2, v2⟩ := branch_value hw env hp ops lit leaf ph hf hy
            rw [hshort m hm1 hs c t f e1, value_op ops lit leaf ph (o := o) rfl]
            simp only [Expr.deps, List.map_append, List.map_cons, List.map_nil, List.singleton_append]
            rw [hm.packed xt xf lt lf o _ _ _ c1 c2 hpk (by rw [List.length_map]; exact l1) (by rw [List.length_map]; exact l2),
              v1, v2]
        refine ⟨?_, ?_⟩
        · intro i r' n' hi hn'
          rcases Nat.lt_or_ge i results.length with hlt | hge
          · rw [List.getElem?_append_left hlt] at hi
            exact hv i r' n' hi hn'
          · have hik : i = k := by
              have := (List.getElem?_eq_some_iff.1 hi).1
              simp only [List.length_append, List.length_singleton] at this
              omega
            subst hik
            rw [List.getElem?_append_right hge, hlen, Nat.sub_self] at hi
            simp only [List.getElem?_cons_zero, Option.some.injEq] at hi
            subst hi
            rw [hst.node] at hn'; cases hn'
            exact hval.1
        · intro x hx
          rcases List.mem_append.1 hx with hx | hx
          · exact hp x hx
          · rw [List.mem_singleton] at hx; subst hx; exact hval.2
        ) po.nodes.length (Nat.le_refl _)
      rcases hsw with ⟨e, he⟩ | ⟨results, T', he, hl, _, hv, _⟩
      · exact Or.inl ⟨e, by rw [he]⟩
      · rw [he]
        dsimp only
        have hpos : 0 < po.nodes.length := by
          cases hl : po.nodes with
          | nil => rw [hl] at hlast; cases hlast
          | cons a b => simp
        rw [List.getLast?_eq_getElem?] at hlast ⊢
        have hr : results[results.length - 1]? = some (results[results.length - 1]'(by omega)) :=
          List.getElem?_eq_getElem (by omega)
        rw [hr]
        refine Or.inr ⟨_, rfl, hv _ _ root hr ?_⟩
        rw [hl]; exact hlast

end Verif.Where
