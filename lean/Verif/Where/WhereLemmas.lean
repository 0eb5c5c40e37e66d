import Verif.Where.TreeLemmas

/-! # Lemmas about the global transformation -/

namespace Verif.Where
open Verif.Expr

variable {O V A E L : Type} [DecidableEq O] [DecidableEq V] [DecidableEq A]

/-! ## Annotations -/

theorem strip_some (anno : O → Except E Bool) : ∀ (fuel : Nat) (n : Expr O V A), n.size ≤ fuel →
    (∃ e, stripLoop anno fuel n = some (.error e)) ∨ (∃ s, stripLoop anno fuel n = some (.ok s) ∧ Sub s n ∧
      (s = n ↔ isAnnotation anno n = .ok false)) := by
  intro fuel
  induction fuel with
  | zero => intro n h; have := size_eq n; omega
  | succ fuel ih =>
    intro n h
    cases ha : isAnnotation anno n with
    | error e => exact Or.inl ⟨e, by rw [stripLoop, ha]⟩
    | ok b =>
      cases b with
      | false => exact Or.inr ⟨n, by rw [stripLoop, ha], .refl n, by simp⟩
      | true =>
        have hne : n.deps ≠ [] := by
          intro hh; unfold isAnnotation at ha; rw [if_pos hh] at ha; cases ha
        obtain ⟨d, ds, hd⟩ := List.exists_cons_of_ne_nil hne
        have hmem : d ∈ n.deps := by rw [hd]; simp
        have hsz := size_eq n
        have hsz2 := size_mem hmem
        have he : stripLoop anno (fuel + 1) n = stripLoop anno fuel d := by
          rw [stripLoop, ha, hd]; rfl
        rw [he]
        rcases ih d (by omega) with ⟨e, h1⟩ | ⟨s, h1, h2, _⟩
        · exact Or.inl ⟨e, h1⟩
        · refine Or.inr ⟨s, h1, .dep h2 hmem, ?_⟩
          constructor
          · rintro rfl
            have := h2.size
            omega
          · intro hh; cases hh

theorem isLeaf_iff (n : Expr O V A) : isLeaf n = true ↔ ∃ k, n.label = .leaf k := by
  unfold isLeaf
  cases n.label <;> simp

theorem isLiteral_iff (n : Expr O V A) : isLiteral n = true ↔ ∃ v, n.label = .literal v := by
  unfold isLiteral
  cases n.label <;> simp

/-- `must_be_short_circuited` by cases. -/
theorem inLambda_cases (env : Env O V A E L) (T : Tree O V A) (b n : Expr O V A) :
    (Plain env.anno n ∧ inLambda env T b n =
      (if n = b then (T.hasSingleParent n).map .ok else (T.strictlyDominates n b).map .ok)) ∨
    (¬ Plain env.anno n ∧ (inLambda env T b n = some (.ok false) ∨ ∃ e, inLambda env T b n = some (.error e))) := by
  unfold inLambda
  rcases strip_some env.anno n.size n (Nat.le_refl _) with ⟨e, h1⟩ | ⟨s, h1, h2, h3⟩
  · right
    refine ⟨?_, Or.inr ⟨e, by rw [h1]⟩⟩
    rintro ⟨h, _⟩
    have hs := size_eq n
    have hh : n.size = (n.size - 1) + 1 := by omega
    rw [hh, stripLoop, h] at h1
    cases h1
  · rw [h1]
    dsimp only
    by_cases hleaf : isLeaf s = true
    · right
      rw [if_pos hleaf]
      refine ⟨?_, Or.inl rfl⟩
      rintro ⟨p1, p2, _⟩
      rw [h3.2 p1] at hleaf
      obtain ⟨k, hk⟩ := (isLeaf_iff n).1 hleaf
      exact p2 k hk
    · rw [if_neg hleaf]
      by_cases hsn : s = n
      · rw [if_neg (by simp [hsn])]
        by_cases hlit : isLiteral n = true
        · right
          rw [if_pos hlit]
          refine ⟨?_, Or.inl rfl⟩
          rintro ⟨_, _, p3⟩
          obtain ⟨v, hv⟩ := (isLiteral_iff n).1 hlit
          exact p3 v hv
        · left
          rw [if_neg hlit]
          subst hsn
          refine ⟨⟨h3.1 rfl, fun k hk => hleaf ((isLeaf_iff _).2 ⟨k, hk⟩), fun v hv => hlit ((isLiteral_iff _).2 ⟨v, hv⟩)⟩, rfl⟩
      · right
        rw [if_pos hsn]
        exact ⟨fun h => hsn (h3.2 h.1), Or.inr ⟨_, rfl⟩⟩

/-! ## Reading the tree -/

theorem nodeId_lt {root : Expr O V A} {po : PostOrder O V A} {T : Tree O V A} (hb : Built root po T) {n : Expr O V A} {k : Nat}
    (h : lookup T.idx n = some k) : T.nodeId n = some (toCfgId po.nodes.length k) := by
  unfold Tree.nodeId; rw [h, hb.num]; rfl

theorem depth_some {root : Expr O V A} {po : PostOrder O V A} {T : Tree O V A} (hb : Built root po T) {k : Nat}
    (hk : k < po.nodes.length) : ∃ d, T.t.depth[toCfgId po.nodes.length k]? = some d := by
  obtain ⟨d, h, _⟩ := Cfg.depth_get hb.inv.1 (b := toCfgId po.nodes.length k) (by rw [hb.num]; unfold toCfgId; omega)
  exact ⟨d, h⟩

theorem strictlyDominates_eq {root : Expr O V A} {po : PostOrder O V A} {T : Tree O V A} (hb : Built root po T)
    {n b : Expr O V A} {j k : Nat} (h1 : lookup T.idx n = some j) (h2 : lookup T.idx b = some k)
    (hj : j < po.nodes.length) (hk : k < po.nodes.length) :
    ∃ dn db, T.t.depth[toCfgId po.nodes.length j]? = some dn ∧ T.t.depth[toCfgId po.nodes.length k]? = some db ∧
      T.strictlyDominates n b = some (decide (dn > db)) := by
  obtain ⟨dn, e1⟩ := depth_some hb hj
  obtain ⟨db, e2⟩ := depth_some hb hk
  refine ⟨dn, db, e1, e2, ?_⟩
  unfold Tree.strictlyDominates
  rw [nodeId_lt hb h1, nodeId_lt hb h2]
  simp only [Option.bind_eq_bind, Option.bind_some, e1, e2]

theorem hasSingleParent_eq {root : Expr O V A} {po : PostOrder O V A} {T : Tree O V A} (hb : Built root po T)
    {n m : Expr O V A} {j : Nat} (h1 : lookup T.idx n = some j) (hj : po.nodes[j]? = some m) :
    ∃ r, T.hasSingleParent n = some r ∧ (r = true ↔ ∃ w, UsedOnceBy root m w) := by
  obtain ⟨ps, e1, e2⟩ := hb.single j m hj
  refine ⟨decide (ps.length = 1), ?_, by rw [decide_eq_true_iff, e2]⟩
  unfold Tree.hasSingleParent
  rw [nodeId_lt hb h1]
  simp only [Option.bind_eq_bind, Option.bind_some, e1]

/-- The predicate has no undefined behaviour on nodes that have an id. -/
theorem inLambda_ne {root : Expr O V A} {po : PostOrder O V A} {T : Tree O V A} (hb : Built root po T)
    (env : Env O V A E L) {n b : Expr O V A} {j k : Nat} (h1 : lookup T.idx n = some j) (h2 : lookup T.idx b = some k)
    (hj : j < po.nodes.length) (hk : k < po.nodes.length) : inLambda env T b n ≠ none := by
  rcases inLambda_cases env T b n with ⟨_, h⟩ | ⟨_, h | ⟨e, h⟩⟩
  · rw [h]
    split
    · obtain ⟨r, e1, _⟩ := hasSingleParent_eq hb h1 (List.getElem?_eq_getElem hj)
      rw [e1]; simp
    · obtain ⟨_, _, _, _, e1⟩ := strictlyDominates_eq hb h1 h2 hj hk
      rw [e1]; simp
  · rw [h]; simp
  · rw [h]; simp

/-! ## The transformation without assumptions -/

/-- What holds after some calls of the visitor. -/
structure Weak (root : Expr O V A) (po : PostOrder O V A) (results : List (Expr O V A)) (T : Tree O V A) : Prop where
  built : Built root po T
  orig : ∀ (k : Nat) n, po.nodes[k]? = some n → lookup T.idx n = some k
  img : ∀ r ∈ results, ∃ k, lookup T.idx r = some k
  rng : ∀ x k, lookup T.idx x = some k → k < po.nodes.length
  deps : ∀ r ∈ results, ∀ d ∈ r.deps, d ∈ results

theorem weak_reached {root : Expr O V A} {po : PostOrder O V A} {results : List (Expr O V A)} {T : Tree O V A}
    (hw : Weak root po results T) {keep : Expr O V A → Option (Except E Bool)} {b n : Expr O V A} (hb : b ∈ results)
    (h : Reached keep b n) : n ∈ results := by
  induction h with
  | root => exact hb
  | dep _ _ hd ih => exact hw.deps _ ih _ hd

theorem weak_ne {root : Expr O V A} {po : PostOrder O V A} {results : List (Expr O V A)} {T : Tree O V A}
    (hw : Weak root po results T) (env : Env O V A E L) {b n : Expr O V A} (hb : b ∈ results) (hn : n ∈ results) :
    inLambda env T b n ≠ none := by
  obtain ⟨j, h1⟩ := hw.img n hn
  obtain ⟨k, h2⟩ := hw.img b hb
  exact inLambda_ne hw.built env h1 h2 (hw.rng _ _ h1) (hw.rng _ _ h2)

/-- One branch. -/
theorem branchOp_spec {root : Expr O V A} {po : PostOrder O V A} {results : List (Expr O V A)} {T : Tree O V A}
    (hw : Weak root po results T) (env : Env O V A E L) {b : Expr O V A} (hb : b ∈ results) :
    (∃ e, branchOp env T b = some (.error e)) ∨
    (∃ x l, branchOp env T b = some (.ok (x, l)) ∧ extractLambda env.lang b (inLambda env T b) = some (.ok x) ∧
      env.compile x = .ok l ∧ ∀ a ∈ x.args, Reached (inLambda env T b) b a ∧ inLambda env T b a = some (.ok false)) := by
  unfold branchOp
  rcases extract_spec env.lang (inLambda env T b) b
    (fun n hn => weak_ne hw env hb (weak_reached hw hb hn)) with ⟨e, h1, _⟩ | ⟨x, h1, _, h3, _⟩
  · exact Or.inl ⟨e, by rw [h1]⟩
  · rw [h1]
    dsimp only
    cases hc : env.compile x with
    | error e => exact Or.inl ⟨e, rfl⟩
    | ok l => exact Or.inr ⟨x, l, rfl, rfl, hc, fun a ha => (h3 a).1 ha⟩

/-- The ways in which a node with new dependencies is transformed. -/
inductive Made (env : Env O V A E L) (T : Tree O V A) (n : Expr O V A) (args : List (Expr O V A)) : Expr O V A → Prop
  /-- not a `core._short_circuit_where` node -/
  | same {m : Expr O V A} : env.lang.withNewDeps n args = .ok m → isShortWhere env m = .ok false → Made env T n args m
  /-- nothing to short circuit -/
  | whr {m c t f : Expr O V A} {o : O} {a : A} : env.lang.withNewDeps n args = .ok m → isShortWhere env m = .ok true →
      args = [c, t, f] → env.coreWhere = .ok o → inLambda env T t t = some (.ok false) →
      inLambda env T f f = some (.ok false) → Made env T n args (.mk (.op o) a [c, t, f])
  /-- a packed operator -/
  | packed {m c t f : Expr O V A} {xt xf : Extracted O V A} {lt lf : L} {o : O} {a : A} :
      env.lang.withNewDeps n args = .ok m → isShortWhere env m = .ok true → args = [c, t, f] →
      branchOp env T t = some (.ok (xt, lt)) → branchOp env T f = some (.ok (xf, lf)) →
      env.pack lt lf = .ok o → Made env T n args (.mk (.op o) a ([c] ++ xt.args ++ xf.args))

theorem mkOp_cases (G : Lang O V A E) (o : O) (ds : List (Expr O V A)) :
    (∃ e, G.mkOp o ds = .error e) ∨ ∃ a, G.mkOp o ds = .ok (.mk (.op o) a ds) := by
  unfold Lang.mkOp
  split
  · exact Or.inl ⟨_, rfl⟩
  · exact Or.inr ⟨_, rfl⟩

theorem transformImpl_spec {root : Expr O V A} {po : PostOrder O V A} {results : List (Expr O V A)} {T : Tree O V A}
    (hw : Weak root po results T) (env : Env O V A E L) {n m : Expr O V A} {args : List (Expr O V A)}
    (ha : ∀ a ∈ args, a ∈ results) (hl : args.length = n.deps.length) (hm : env.lang.withNewDeps n args = .ok m) :
    (∃ e, transformImpl env T m = some (.error e)) ∨ ∃ r, transformImpl env T m = some (.ok r) ∧ Made env T n args r := by
  have hdeps : m.deps = args := withNewDeps_deps hl hm
  unfold transformImpl
  cases hs : isShortWhere env m with
  | error e => exact Or.inl ⟨e, rfl⟩
  | ok b =>
    cases b with
    | false => exact Or.inr ⟨m, rfl, .same hm hs⟩
    | true =>
      dsimp only
      rw [hdeps]
      match args, ha, hm with
      | [c, t, f], ha, hm =>
        dsimp only
        have ht : t ∈ results := ha t (by simp)
        have hf : f ∈ results := ha f (by simp)
        unfold whereNode
        cases env.verify c.attr t.attr f.attr with
        | error e => exact Or.inl ⟨e, rfl⟩
        | ok _ =>
          dsimp only
          cases h1 : inLambda env T t t with
          | none => exact absurd h1 (weak_ne hw env ht ht)
          | some r1 =>
            cases r1 with
            | error e => exact Or.inl ⟨e, rfl⟩
            | ok bt =>
              dsimp only
              cases h2 : inLambda env T f f with
              | none => exact absurd h2 (weak_ne hw env hf hf)
              | some r2 =>
                cases r2 with
                | error e => exact Or.inl ⟨e, rfl⟩
                | ok bf =>
                  dsimp only
                  by_cases hbb : (!bt && !bf) = true
                  · rw [if_pos hbb]
                    simp only [Bool.and_eq_true, Bool.not_eq_true'] at hbb
                    obtain ⟨rfl, rfl⟩ := hbb
                    cases hcw : env.coreWhere with
                    | error e => exact Or.inl ⟨e, rfl⟩
                    | ok o =>
                      dsimp only
                      rcases mkOp_cases env.lang o [c, t, f] with ⟨e, he⟩ | ⟨a, hh⟩
                      · exact Or.inl ⟨e, by rw [he]⟩
                      · exact Or.inr ⟨_, by rw [hh], .whr hm hs rfl hcw h1 h2⟩
                  · rw [if_neg hbb]
                    unfold packBranches
                    rcases branchOp_spec hw env ht with ⟨e, he⟩ | ⟨xt, lt, hx, _⟩
                    · exact Or.inl ⟨e, by rw [he]⟩
                    · rw [hx]
                      dsimp only
                      rcases branchOp_spec hw env hf with ⟨e, he⟩ | ⟨xf, lf, hy, _⟩
                      · exact Or.inl ⟨e, by rw [he]⟩
                      · rw [hy]
                        dsimp only
                        cases hp : env.pack lt lf with
                        | error e => exact Or.inl ⟨e, rfl⟩
                        | ok o =>
                          dsimp only
                          rcases mkOp_cases env.lang o ([c] ++ xt.args ++ xf.args) with ⟨e, he⟩ | ⟨a, hh⟩
                          · exact Or.inl ⟨e, by rw [he]⟩
                          · exact Or.inr ⟨_, by rw [hh], .packed hm hs rfl hx hy hp⟩
      | [], _, _ => exact Or.inl ⟨_, rfl⟩
      | [_], _, _ => exact Or.inl ⟨_, rfl⟩
      | [_, _], _, _ => exact Or.inl ⟨_, rfl⟩
      | _ :: _ :: _ :: _ :: _, _, _ => exact Or.inl ⟨_, rfl⟩

theorem made_deps {root : Expr O V A} {po : PostOrder O V A} {results : List (Expr O V A)} {T : Tree O V A}
    (hw : Weak root po results T) {env : Env O V A E L} {n r : Expr O V A} {args : List (Expr O V A)}
    (ha : ∀ a ∈ args, a ∈ results) (hl : args.length = n.deps.length) (h : Made env T n args r) :
    ∀ d ∈ r.deps, d ∈ results := by
  cases h with
  | same hm _ => rw [withNewDeps_deps hl hm]; exact ha
  | @whr m c t f o a hm hs e1 _ => subst e1; exact ha
  | @packed m c t f xt xf lt lf o a hm hs e1 hx hy hp =>
    subst e1
    have ht : t ∈ results := ha t (by simp)
    have hf : f ∈ results := ha f (by simp)
    intro d hd
    simp only [Expr.deps, List.append_assoc, List.mem_append, List.mem_singleton] at hd
    rcases hd with rfl | hd | hd
    · exact ha _ (by simp)
    · rcases branchOp_spec hw env ht with ⟨e, he⟩ | ⟨x, l, h1, _, _, h4⟩
      · rw [hx] at he; cases he
      · rw [hx] at h1; cases h1
        exact weak_reached hw ht (h4 d hd).1
    · rcases branchOp_spec hw env hf with ⟨e, he⟩ | ⟨x, l, h1, _, _, h4⟩
      · rw [hy] at he; cases he
      · rw [hy] at h1; cases h1
        exact weak_reached hw hf (h4 d hd).1

theorem gather_spec (results : List (Expr O V A)) : ∀ ix : List Nat, (∀ k ∈ ix, k < results.length) →
    ∃ args, gather results ix = some args ∧ args.map some = ix.map (fun k => results[k]?) := by
  intro ix
  induction ix with
  | nil => intro _; exact ⟨[], rfl, rfl⟩
  | cons k ks ih =>
    intro h
    obtain ⟨args, h1, h2⟩ := ih (fun x hx => h x (by simp [hx]))
    have hkl := h k (by simp)
    have hk : results[k]? = some results[k] := List.getElem?_eq_getElem hkl
    refine ⟨results[k] :: args, ?_, ?_⟩
    · rw [gather, hk]; dsimp only; rw [h1]
    · rw [List.map_cons, List.map_cons, h2, hk]

/-- One step of the traversal. -/
structure StepTo (po : PostOrder O V A) (env : Env O V A E L) (k : Nat) (results : List (Expr O V A))
    (T T' : Tree O V A) (n r : Expr O V A) (ix : List Nat) (args : List (Expr O V A)) : Prop where
  node : po.nodes[k]? = some n
  dep : po.depIndices k = some ix
  deps : ix.map (fun k => po.nodes[k]?) = n.deps.map some
  lt : ∀ j ∈ ix, j < k
  argsEq : args.map some = ix.map (fun k => results[k]?)
  made : Made env T n args r
  tree : T' = { T with idx := emplace T.idx r k }

theorem StepTo.len {po : PostOrder O V A} {env : Env O V A E L} {k : Nat} {results : List (Expr O V A)}
    {T T' : Tree O V A} {n r : Expr O V A} {ix : List Nat} {args : List (Expr O V A)}
    (h : StepTo po env k results T T' n r ix args) : args.length = n.deps.length := by
  have a := congrArg List.length h.argsEq
  have b := congrArg List.length h.deps
  simp only [List.length_map] at a b
  omega

theorem StepTo.mem {po : PostOrder O V A} {env : Env O V A E L} {k : Nat} {results : List (Expr O V A)}
    {T T' : Tree O V A} {n r : Expr O V A} {ix : List Nat} {args : List (Expr O V A)}
    (h : StepTo po env k results T T' n r ix args) : ∀ a ∈ args, ∃ j ∈ ix, results[j]? = some a := by
  intro a ha
  have : some a ∈ ix.map (fun k => results[k]?) := by rw [← h.argsEq]; exact List.mem_map.2 ⟨a, ha, rfl⟩
  obtain ⟨j, hj, e⟩ := List.mem_map.1 this
  exact ⟨j, hj, e⟩

theorem lookup_emplace' {T : Type} (m : List (Expr O V A × T)) (n : Expr O V A) (t : T) (x : Expr O V A) (y : T)
    (h : lookup (emplace m n t) x = some y) : lookup m x = some y ∨ (x = n ∧ y = t ∧ lookup m n = none) := by
  cases hl : lookup m n with
  | some z => rw [emplace_some (by rw [hl]; rfl)] at h; exact Or.inl h
  | none =>
    rw [lookup_emplace hl] at h
    split at h
    · rename_i hh; exact Or.inr ⟨hh, (Option.some.inj h).symm, rfl⟩
    · exact Or.inl h

theorem lookup_keep {T : Type} {m : List (Expr O V A × T)} (n : Expr O V A) (t : T) {x : Expr O V A} {y : T}
    (h : lookup m x = some y) : lookup (emplace m n t) x = some y := by
  cases hl : lookup m n with
  | some z => rw [emplace_some (by rw [hl]; rfl)]; exact h
  | none =>
    rw [lookup_emplace hl]
    by_cases hx : x = n
    · subst hx; rw [h] at hl; cases hl
    · rw [if_neg hx]; exact h

theorem lookup_self {T : Type} (m : List (Expr O V A × T)) (n : Expr O V A) (t : T) : ∃ y, lookup (emplace m n t) n = some y := by
  cases hl : lookup m n with
  | some z => exact ⟨z, lookup_keep n t hl⟩
  | none => exact ⟨t, by rw [lookup_emplace hl, if_pos rfl]⟩

/-- Induction over the calls of the visitor. -/
theorem steps_weak {root : Expr O V A} {po : PostOrder O V A} {T : Tree O V A} (h : postOrder root = some po)
    (hb : Built root po T) (hix : T.idx = po.idx) (env : Env O V A E L) (P : List (Expr O V A) → Tree O V A → Prop)
    (h0 : P [] T)
    (hstep : ∀ k results T1 T' n r ix args, Weak root po results T1 → results.length = k → P results T1 →
      StepTo po env k results T1 T' n r ix args → Weak root po (results ++ [r]) T' → P (results ++ [r]) T') :
    ∀ k, k ≤ po.nodes.length →
    (∃ e, steps env po T k = some (.error e)) ∨
    (∃ results T', steps env po T k = some (.ok (results, T')) ∧ results.length = k ∧ Weak root po results T' ∧
      P results T') := by
  obtain ⟨po', h', hnd, hsub, hlast, hdeps, hidx⟩ := post_order root
  rw [h] at h'; cases h'
  intro k
  induction k with
  | zero =>
    intro _
    refine Or.inr ⟨[], T, rfl, rfl, ⟨hb, ?_, by simp, ?_, by simp⟩, h0⟩
    · intro k n hk
      rw [hix]
      exact (hidx n k).2 hk
    · intro x k hk
      rw [hix] at hk
      exact (List.getElem?_eq_some_iff.1 ((hidx x k).1 hk)).1
  | succ k ih =>
    intro hk
    rcases ih (by omega) with ⟨e, he⟩ | ⟨results, T1, he, hl, hw, hp⟩
    · exact Or.inl ⟨e, by rw [steps, he]⟩
    · rw [steps, he]
      dsimp only
      have hkn : po.nodes[k]? = some po.nodes[k] := List.getElem?_eq_getElem (by omega)
      obtain ⟨ix, d1, d2, d3⟩ := hdeps k _ hkn
      rw [hkn, d1]
      dsimp only
      obtain ⟨args, g1, g2⟩ := gather_spec results ix (fun j hj => by have := d3 j hj; omega)
      rw [g1]
      dsimp only
      have hlen : args.length = po.nodes[k].deps.length := by
        have a := congrArg List.length g2
        have b := congrArg List.length d2
        simp only [List.length_map] at a b
        omega
      have hargs : ∀ a ∈ args, a ∈ results := by
        intro a ha
        have : some a ∈ ix.map (fun k => results[k]?) := by rw [← g2]; exact List.mem_map.2 ⟨a, ha, rfl⟩
        obtain ⟨j, _, hj⟩ := List.mem_map.1 this
        exact List.mem_of_getElem? hj
      unfold visitNode
      cases hm : env.lang.withNewDeps po.nodes[k] args with
      | error e => exact Or.inl ⟨e, rfl⟩
      | ok m =>
        dsimp only
        rcases transformImpl_spec hw env hargs hlen hm with ⟨e, h1⟩ | ⟨r, h1, hmade⟩
        · exact Or.inl ⟨e, by rw [h1]⟩
        · rw [h1]
          dsimp only
          unfold Tree.addAlias
          rw [hw.orig k _ hkn]
          have hst : StepTo po env k results T1 { T1 with idx := emplace T1.idx r k } po.nodes[k] r ix args :=
            ⟨hkn, d1, d2, d3, g2, hmade, rfl⟩
          have hw' : Weak root po (results ++ [r]) { T1 with idx := emplace T1.idx r k } := by
            refine ⟨⟨hw.built.ok, hw.built.inv, hw.built.num, hw.built.edge, hw.built.single⟩, ?_, ?_, ?_, ?_⟩
            · intro i n hi
              exact lookup_keep r k (hw.orig i n hi)
            · intro x hx
              rcases List.mem_append.1 hx with hx | hx
              · obtain ⟨y, hy⟩ := hw.img x hx
                exact ⟨y, lookup_keep r k hy⟩
              · rw [List.mem_singleton] at hx; subst hx
                exact lookup_self T1.idx x k
            · intro x y hx
              rcases lookup_emplace' _ _ _ _ _ hx with hx | ⟨_, rfl, _⟩
              · exact hw.rng x y hx
              · omega
            · intro x hx d hd
              rcases List.mem_append.1 hx with hx | hx
              · exact List.mem_append_left _ (hw.deps x hx d hd)
              · rw [List.mem_singleton] at hx; subst hx
                exact List.mem_append_left _ (made_deps hw hargs hlen hmade d hd)
          exact Or.inr ⟨results ++ [r], _, rfl, by simp [hl], hw', hstep k results T1 _ _ r ix args hw hl hp hst hw'⟩

end Verif.Where
