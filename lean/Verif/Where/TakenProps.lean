import Verif.Where.WhereProps

/-! # C104: a branch takes exactly the operators that only it uses -/

namespace Verif.Where
open Verif.Expr

variable {O V A E L : Type} [DecidableEq O] [DecidableEq V] [DecidableEq A]

theorem dom_trans {g : Cfg.Cfg} (hg : Cfg.Ok g) {t : Cfg.DTree} (hi : Cfg.Inv g t g.numNodes) {a b c : Nat}
    (hc : c < g.numNodes) (h1 : Cfg.Dom g a b) (h2 : Cfg.Dom g b c) : Cfg.Dom g a c := by
  have hb := Cfg.dom_le hg hc h2
  have a1 := (hi.2.1 b (by omega) a).2 h1
  have a2 := (hi.2.1 c hc b).2 h2
  exact (hi.2.1 c hc a).1 (Cfg.anc_trans a1 a2)

/-- What holds after some calls of the visitor if no nodes are merged: the ids are those of the original nodes, and an edge
of the transformed expression comes from an edge that starts below. -/
structure Tracks (po : PostOrder O V A) (results : List (Expr O V A)) (T : Tree O V A) : Prop where
  only : ∀ x k, lookup T.idx x = some k → po.nodes[k]? = some x ∨ results[k]? = some x
  img : ∀ (k : Nat) r, results[k]? = some r → lookup T.idx r = some k
  deps : ∀ (k : Nat) r, results[k]? = some r → ∀ d ∈ r.deps, ∃ j, j < k ∧ results[j]? = some d ∧
    ∃ m, Cfg.Dom T.g (toCfgId po.nodes.length k) m ∧ Cfg.Edge T.g m (toCfgId po.nodes.length j)

theorem walk_self {root n : Expr O V A} {l : List (Expr O V A)} (h : Walk root n l) : n ∈ l := by
  cases h <;> simp

/-- The predicate, decided. -/
theorem taken {root : Expr O V A} {po : PostOrder O V A} {results : List (Expr O V A)} {T : Tree O V A}
    (h : postOrder root = some po) (hw : Weak root po results T) (ht : Tracks po results T)
    (hlen : results.length ≤ po.nodes.length)
    (env : Env O V A E L) {kb : Nat} {b B : Expr O V A} (hb : results[kb]? = some b) (hB : po.nodes[kb]? = some B) :
    (inLambda env T b b = some (.ok true) ↔ Plain env.anno b ∧ ∃ w, UsedOnceBy root B w) ∧
    (inLambda env T b b = some (.ok true) → ∀ n, Reached (inLambda env T b) b n → ∃ j m, j ≤ kb ∧ results[j]? = some n ∧
      po.nodes[j]? = some m ∧ (inLambda env T b n = some (.ok true) ↔ Plain env.anno n ∧ OnlyIn root B m)) := by
  have first : inLambda env T b b = some (.ok true) ↔ Plain env.anno b ∧ ∃ w, UsedOnceBy root B w := by
    obtain ⟨r, e1, e2⟩ := hasSingleParent_eq hw.built (ht.img kb b hb) hB
    rcases inLambda_cases env T b b with ⟨hp, he⟩ | ⟨hp, he | ⟨e, he⟩⟩
    · rw [he, if_pos rfl, e1]
      simp only [Option.map_some, Option.some.injEq, Except.ok.injEq]
      rw [e2]
      exact ⟨fun hh => ⟨hp, hh⟩, fun hh => hh.2⟩
    · rw [he]
      exact ⟨fun hh => by simp at hh, fun hh => absurd hh.1 hp⟩
    · rw [he]
      exact ⟨fun hh => by simp at hh, fun hh => absurd hh.1 hp⟩
  refine ⟨first, fun hbt n hn => ?_⟩
  have hkl : kb < po.nodes.length := (List.getElem?_eq_some_iff.1 hB).1
  induction hn with
  | root =>
    refine ⟨kb, B, Nat.le_refl _, hb, hB, ?_⟩
    exact ⟨fun _ => ⟨(first.1 hbt).1, fun l hl => walk_self hl⟩, fun _ => hbt⟩
  | @dep p n hp hkp hd ih =>
    obtain ⟨jp, mp, hle, hjp, hmp, hiff⟩ := ih
    obtain ⟨j, hjlt, hj, m, hdom, hedge⟩ := ht.deps jp p hjp n hd
    have hjl : j < po.nodes.length := by omega
    have hm : po.nodes[j]? = some po.nodes[j] := List.getElem?_eq_getElem hjl
    refine ⟨j, po.nodes[j], by omega, hj, hm, ?_⟩
    have hnb : n ≠ b := by
      intro hh
      have e1 := ht.img j n hj
      have e2 := ht.img kb b hb
      rw [hh, e2] at e1
      have := Option.some.inj e1
      omega
    rcases inLambda_cases env T b n with ⟨hpl, he⟩ | ⟨hpl, he | ⟨e, he⟩⟩
    · obtain ⟨dn, db, d1, d2, d3⟩ := strictlyDominates_eq hw.built (ht.img j n hj) (ht.img kb b hb) hjl hkl
      rw [he, if_neg hnb, d3]
      simp only [Option.map_some, Option.some.injEq, Except.ok.injEq, decide_eq_true_eq]
      have hml : m < T.g.numNodes := by have := hw.built.ok.lt _ _ hedge; omega
      have hdbp : Cfg.Dom T.g (toCfgId po.nodes.length kb) (toCfgId po.nodes.length jp) :=
        (dom_iff h hw.built hB hmp).2 (hiff.1 hkp).2
      have hdbm := dom_trans hw.built.ok hw.built.inv hml hdbp hdom
      have hiff2 := depth_dom hw.built.ok hw.built.inv hml hdbm hedge d2 d1
      rw [dom_iff h hw.built hB hm] at hiff2
      exact ⟨fun hh => ⟨hpl, hiff2.1 hh⟩, fun hh => hiff2.2 hh.2⟩
    · rw [he]
      exact ⟨fun hh => by simp at hh, fun hh => absurd hh.1 hpl⟩
    · rw [he]
      exact ⟨fun hh => by simp at hh, fun hh => absurd hh.1 hpl⟩

/-- Everything a branch leaves outside is below an edge that starts at the `where` node or below it. -/
theorem branch_edge {root : Expr O V A} {po : PostOrder O V A} {results : List (Expr O V A)} {T : Tree O V A}
    (h : postOrder root = some po) (hw : Weak root po results T) (ht : Tracks po results T)
    (hlen : results.length ≤ po.nodes.length)
    (env : Env O V A E L) {k kb : Nat} {n b : Expr O V A} (hk : po.nodes[k]? = some n) (hkb : kb < k)
    (hb : results[kb]? = some b) (hdep : ∃ B, po.nodes[kb]? = some B ∧ B ∈ n.deps) {a : Expr O V A}
    (ha : Reached (inLambda env T b) b a) : ∃ j, j < k ∧ results[j]? = some a ∧
      ∃ m, Cfg.Dom T.g (toCfgId po.nodes.length k) m ∧ Cfg.Edge T.g m (toCfgId po.nodes.length j) := by
  obtain ⟨B, hB, hBn⟩ := hdep
  have hkl : k < po.nodes.length := (List.getElem?_eq_some_iff.1 hk).1
  have hkbl : kb < po.nodes.length := by omega
  have hedge0 : Cfg.Edge T.g (toCfgId po.nodes.length k) (toCfgId po.nodes.length kb) :=
    (hw.built.edge k kb hkl hkbl).2 ⟨n, B, hk, hB, hBn⟩
  obtain ⟨t1, t2⟩ := taken h hw ht hlen env hb hB
  cases ha with
  | root => exact ⟨kb, hkb, hb, _, Cfg.dom_refl _ _, hedge0⟩
  | @dep p _ hp hkp hd =>
    have hbt : inLambda env T b b = some (.ok true) := by
      clear hd hkb
      induction hp with
      | root => exact hkp
      | dep _ hk2 _ ih => exact ih hk2
    obtain ⟨jp, mp, hle, hjp, hmp, hiff⟩ := t2 hbt p hp
    obtain ⟨j, hjlt, hj, m, hdom, hedge⟩ := ht.deps jp p hjp a hd
    refine ⟨j, by omega, hj, m, ?_, hedge⟩
    have hml : m < T.g.numNodes := by have := hw.built.ok.lt _ _ hedge; omega
    have hdbp : Cfg.Dom T.g (toCfgId po.nodes.length kb) (toCfgId po.nodes.length jp) :=
      (dom_iff h hw.built hB hmp).2 (hiff.1 hkp).2
    obtain ⟨_, w, _, _, hw3⟩ := t1.1 hbt
    have hsubn : Sub n root := by
      obtain ⟨po', h', _, hsub, _⟩ := post_order root
      rw [h] at h'; cases h'
      exact (hsub n).1 (List.mem_of_getElem? hk)
    have hnw := hw3 n hsubn hBn
    have hkkb : Cfg.Dom T.g (toCfgId po.nodes.length k) (toCfgId po.nodes.length kb) := by
      rw [Cfg.dom_step (by unfold toCfgId; omega)]
      right
      intro x hx
      have hxl : x < po.nodes.length := by have := hw.built.ok.lt _ _ hx; have := hw.built.num; omega
      have hxx : toCfgId po.nodes.length (toCfgId po.nodes.length x) = x := by unfold toCfgId; omega
      rw [← hxx] at hx
      obtain ⟨m', d', e1, e2, e3⟩ := (hw.built.edge _ kb (by unfold toCfgId; omega) hkbl).1 hx
      rw [hB] at e2; cases e2
      obtain ⟨po', h', hnd, hsub, _⟩ := post_order root
      rw [h] at h'; cases h'
      have hmw := hw3 m' ((hsub m').1 (List.mem_of_getElem? e1)) e3
      subst hmw; subst hnw
      have a := List.getElem?_eq_some_iff.1 e1
      have b := List.getElem?_eq_some_iff.1 hk
      have : toCfgId po.nodes.length x = k := (List.Nodup.getElem_inj_iff hnd).1 (a.2.trans b.2.symm)
      rw [← hxx, this]
      exact Cfg.dom_refl _ _
    exact dom_trans hw.built.ok hw.built.inv hml (dom_trans hw.built.ok hw.built.inv
      (by rw [hw.built.num]; unfold toCfgId; omega) hkkb hdbp) hdom

theorem steps_tracks {root : Expr O V A} {po : PostOrder O V A} {T : Tree O V A} (h : postOrder root = some po)
    (hb : Built root po T) (hix : T.idx = po.idx) (env : Env O V A E L) {k : Nat} (hk : k ≤ po.nodes.length)
    {results : List (Expr O V A)} {T' : Tree O V A} (hs : steps env po T k = some (.ok (results, T')))
    (hn : NoMerge po.nodes results) : results.length = k ∧ Weak root po results T' ∧ Tracks po results T' := by
  have key := steps_weak h hb hix env (fun results T => NoMerge po.nodes results → Tracks po results T) (by
      intro _
      obtain ⟨po', h', hnd, hsub, hlast, hdeps, hidx⟩ := post_order root
      rw [h] at h'; cases h'
      refine ⟨?_, by intro k r hk; simp at hk, by intro k r hk; simp at hk⟩
      intro x k hx
      rw [hix] at hx
      exact Or.inl ((hidx x k).1 hx)) (by
      intro k results T1 T' n r ix args hw hlen hp hst hw' hnm
      have hget : ∀ (i : Nat) x, (results ++ [r])[i]? = some x → results[i]? = some x ∨ (i = k ∧ x = r) := by
        intro i x hi
        rcases Nat.lt_or_ge i results.length with hlt | hge
        · rw [List.getElem?_append_left hlt] at hi; exact Or.inl hi
        · have hik : i = k := by
            have := (List.getElem?_eq_some_iff.1 hi).1
            simp only [List.length_append, List.length_singleton] at this
            omega
          subst hik
          rw [List.getElem?_append_right hge, hlen, Nat.sub_self] at hi
          simp only [List.getElem?_cons_zero, Option.some.injEq] at hi
          exact Or.inr ⟨rfl, hi.symm⟩
      have hleft : ∀ (i : Nat) x, results[i]? = some x → (results ++ [r])[i]? = some x := by
        intro i x hi
        rw [List.getElem?_append_left (List.getElem?_eq_some_iff.1 hi).1]; exact hi
      have hrk : (results ++ [r])[k]? = some r := by
        rw [List.getElem?_append_right (by omega), hlen, Nat.sub_self]; rfl
      have hkl : k < po.nodes.length := (List.getElem?_eq_some_iff.1 hst.node).1
      have ht := hp (fun j l x h1 h2 => hnm j l x (hleft j x h1) (h2.imp (hleft l x ·) id))
      have htree := hst.tree
      subst htree
      have hlk : ∀ y, lookup T1.idx r = some y → y = k := by
        intro y hy
        rcases ht.only r y hy with h1 | h1
        · exact (hnm k y r hrk (Or.inr h1)).symm
        · exact (hnm k y r hrk (Or.inl (hleft y r h1))).symm
      refine ⟨?_, ?_, ?_⟩
      · intro x y hx
        rcases lookup_emplace' _ _ _ _ _ hx with hx | ⟨rfl, rfl, _⟩
        · exact (ht.only x y hx).imp id (hleft y x ·)
        · exact Or.inr hrk
      · intro i x hi
        rcases hget i x hi with hi | ⟨rfl, rfl⟩
        · exact lookup_keep r k (ht.img i x hi)
        · obtain ⟨y, hy⟩ := lookup_self T1.idx x i
          rcases lookup_emplace' _ _ _ _ _ hy with h1 | ⟨_, rfl, _⟩
          · rw [hlk y h1] at hy; exact hy
          · exact hy
      · intro i x hi d hd
        dsimp only
        rcases hget i x hi with hi | ⟨rfl, rfl⟩
        · obtain ⟨j, j1, j2, j3⟩ := ht.deps i x hi d hd
          exact ⟨j, j1, hleft j d j2, j3⟩
        · -- the new node
          have harg : ∀ a ∈ args, ∃ j, j < i ∧ results[j]? = some a ∧ (∃ B, po.nodes[j]? = some B ∧ B ∈ n.deps) := by
            intro a ha
            obtain ⟨j, hj, hja⟩ := hst.mem a ha
            have hji := hst.lt j hj
            refine ⟨j, hji, hja, po.nodes[j], List.getElem?_eq_getElem (by omega), ?_⟩
            have : po.nodes[j]? ∈ n.deps.map some := by
              rw [← hst.deps]; exact List.mem_map.2 ⟨j, hj, rfl⟩
            rw [List.getElem?_eq_getElem (by omega)] at this
            obtain ⟨q, q1, q2⟩ := List.mem_map.1 this
            rw [← Option.some.inj q2]; exact q1
          have hrl : results.length ≤ po.nodes.length := by omega
          have hdirect : ∀ a ∈ args, ∃ j, j < i ∧ results[j]? = some a ∧
              ∃ m, Cfg.Dom T1.g (toCfgId po.nodes.length i) m ∧ Cfg.Edge T1.g m (toCfgId po.nodes.length j) := by
            intro a ha
            obtain ⟨j, j1, j2, j3⟩ := harg a ha
            exact branch_edge h hw ht hrl env hst.node j1 j2 j3 .root
          have hbr : ∀ b ∈ args, ∀ xx l, branchOp env T1 b = some (.ok (xx, l)) → ∀ a ∈ xx.args, ∃ j, j < i ∧ results[j]? = some a ∧
              ∃ m, Cfg.Dom T1.g (toCfgId po.nodes.length i) m ∧ Cfg.Edge T1.g m (toCfgId po.nodes.length j) := by
            intro b hbm xx l hx a ha
            obtain ⟨j, j1, j2, j3⟩ := harg b hbm
            rcases branchOp_spec hw env (List.mem_of_getElem? j2) with ⟨e, he⟩ | ⟨x', l', h1, _, _, h4⟩
            · rw [hx] at he; cases he
            · rw [hx] at h1; cases h1
              exact branch_edge h hw ht hrl env hst.node j1 j2 j3 (h4 a ha).1
          have hfin : ∃ j, j < i ∧ results[j]? = some d ∧
              ∃ m, Cfg.Dom T1.g (toCfgId po.nodes.length i) m ∧ Cfg.Edge T1.g m (toCfgId po.nodes.length j) := by
            cases hst.made with
            | same hm _ => rw [withNewDeps_deps hst.len hm] at hd; exact hdirect d hd
            | whr _ _ e1 _ => rw [e1] at hdirect; exact hdirect d hd
            | @packed m c t f xt xf lt lf o a hm hs e1 hx hy hp =>
              simp only [Expr.deps, List.append_assoc, List.mem_append, List.mem_singleton] at hd
              rcases hd with rfl | hd | hd
              · exact hdirect _ (by rw [e1]; simp)
              · exact hbr t (by rw [e1]; simp) xt lt hx d hd
              · exact hbr f (by rw [e1]; simp) xf lf hy d hd
          obtain ⟨j, j1, j2, j3⟩ := hfin
          exact ⟨j, j1, hleft j d j2, j3⟩) k hk
  rcases key with ⟨e, he⟩ | ⟨results', T'', he, hl, hw, hp⟩
  · rw [hs] at he; cases he
  · rw [hs] at he; cases he
    exact ⟨hl, hw, hp hn⟩

/-- When the `k`-th node is transformed, and `b` is the transformed form of one of its dependencies `B`: `b` itself is taken
into the lambda iff it is an operator whose only use is by this node; and then, of the nodes reached, exactly the operators are
taken whose original is only used inside of `B`.  So nothing that is needed elsewhere is skipped with the branch, and nothing
that only the branch needs is computed outside of it.  Missing: nodes that become equal by the transformation (see
`merge_counterexample`). -/
theorem branch_takes_exactly_partial (env : Env O V A E L) {root : Expr O V A} {po : PostOrder O V A} {T : Tree O V A}
    (h : postOrder root = some po) (hb : Tree.build po = some (.ok T)) {k : Nat} (hk : k ≤ po.nodes.length)
    {results : List (Expr O V A)} {T' : Tree O V A} (hs : steps env po T k = some (.ok (results, T')))
    (hn : NoMerge po.nodes results) {w : Expr O V A} (hw : po.nodes[k]? = some w) {i : Nat} {b B : Expr O V A}
    (hi : results[i]? = some b) (hB : po.nodes[i]? = some B) (hBw : B ∈ w.deps) :
    (inLambda env T' b b = some (.ok true) ↔ Plain env.anno b ∧ UsedOnceBy root B w) ∧
    (inLambda env T' b b = some (.ok true) → ∀ n, Reached (inLambda env T' b) b n → ∃ (j : Nat) (m : Expr O V A), results[j]? = some n ∧
      po.nodes[j]? = some m ∧ (inLambda env T' b n = some (.ok true) ↔ Plain env.anno n ∧ OnlyIn root B m)) := by
  obtain ⟨T0, b1, b2, b3⟩ := build_spec h
  rw [hb] at b1; cases b1
  obtain ⟨hl, hwk, htr⟩ := steps_tracks h b2 b3 env hk hs hn
  obtain ⟨t1, t2⟩ := taken h hwk htr (by omega) env hi hB
  have hsubw : Sub w root := by
    obtain ⟨po', h', _, hsub, _⟩ := post_order root
    rw [h] at h'; cases h'
    exact (hsub w).1 (List.mem_of_getElem? hw)
  refine ⟨?_, fun hbt n hr => ?_⟩
  · rw [t1]
    constructor
    · rintro ⟨p, w', u1, u2, u3⟩
      have := u3 w hsubw hBw; subst this
      exact ⟨p, u1, u2, u3⟩
    · rintro ⟨p, u⟩; exact ⟨p, w, u⟩
  · obtain ⟨j, m, _, r2, r3, r4⟩ := t2 hbt n hr
    exact ⟨j, m, r2, r3, r4⟩

/-- What only the branch uses, only the `where` node uses: a taken node is never needed when the `where` node is not. -/
theorem only_in_where {root B w n : Expr O V A} (hu : UsedOnceBy root B w) (h : OnlyIn root B n) : OnlyIn root w n := by
  intro l hl
  have hB := h l hl
  clear h
  induction hl with
  | root =>
    rw [List.mem_singleton] at hB; subst hB
    have h1 := hu.1.size
    have h2 : B ∈ w.deps := List.count_pos_iff.1 (by rw [hu.2.1]; exact Nat.one_pos)
    have h3 := size_eq w
    have h4 := size_mem h2
    omega
  | @step m d l hw hd ih =>
    rcases List.mem_cons.1 hB with rfl | hB
    · have hsub : Sub m root := by
        clear hB ih hd
        induction hw with
        | root => exact .refl _
        | step _ hd ih => exact sub_dep ih hd
      have := hu.2.2 m hsub hd
      subst this
      exact List.mem_cons_of_mem _ (walk_self hw)
    · exact List.mem_cons_of_mem _ (ih hB)

/-! ## Examples -/

section
/-- `0` is `core._short_circuit_where`, `1` is `core.where`, `100 * i + j` a packed operator for lambdas with `i` and `j`
parameters. -/
private def exEnv : Env Nat Nat Unit String Nat where
  lang := ⟨(), fun _ => (), fun _ _ => .ok (), "deps"⟩
  anno _ := .ok false
  shortWhere o := .ok (o = 0)
  coreWhere := .ok 1
  verify _ _ _ := .ok ()
  compile x := .ok x.params.length
  pack i j := .ok (100 * i + j)
  arityError := "arity"
  annoError := "annotation"
private def exL (k : Nat) : Expr Nat Nat Unit := .mk (.leaf [k]) () []
private def exO (o : Nat) (ds : List (Expr Nat Nat Unit)) : Expr Nat Nat Unit := .mk (.op o) () ds

/-- `h(z)` is also used outside of the branch, `g(y)` is not: it is taken into the lambda `f(g(_0), _1)`. -/
example : globalTransform exEnv id
    (exO 5 [exO 0 [exL 1, exO 2 [exO 3 [exL 2], exO 4 [exL 3]], exL 4], exO 4 [exL 3]]) =
    some (.ok (exO 5 [exO 201 [exL 1, exL 2, exO 4 [exL 3], exL 4], exO 4 [exL 3]])) := by decide +kernel

private def exRoot : Expr Nat Nat Unit :=
  exO 5 [exO 0 [exL 1, exO 2 [exO 3 [exL 2], exO 4 [exL 3]], exL 4], exO 4 [exL 3]]

/-- A check of `NoMerge`. -/
private def noMerge (nodes results : List (Expr Nat Nat Unit)) : Bool :=
  (List.range results.length).all (fun j => (List.range (max results.length nodes.length)).all (fun k =>
    (results[j]? ≠ results[k]? ∧ results[j]? ≠ nodes[k]?) ∨ j = k))

private theorem noMerge_ok {nodes results : List (Expr Nat Nat Unit)} (h : noMerge nodes results = true) :
    NoMerge nodes results := by
  intro j k r h1 h2
  have hj := (List.getElem?_eq_some_iff.1 h1).1
  have hk : k < max results.length nodes.length := by
    rcases h2 with h2 | h2 <;> have := (List.getElem?_eq_some_iff.1 h2).1 <;> omega
  unfold noMerge at h
  have h3 := List.all_eq_true.1 (List.all_eq_true.1 h j (List.mem_range.2 hj)) k (List.mem_range.2 hk)
  rw [decide_eq_true_eq] at h3
  rcases h3 with ⟨a, b⟩ | h3
  · rcases h2 with h2 | h2
    · exact absurd (h1.trans h2.symm) a
    · exact absurd (h1.trans h2.symm) b
  · exact h3

/-- The state before the `where` node of `exRoot`, the 8th node, is transformed. -/
private def exState : Option (List (Expr Nat Nat Unit) × List (Expr Nat Nat Unit) × Tree Nat Nat Unit) :=
  match postOrder exRoot with
  | some po =>
    match Tree.build po with
    | some (.ok T) =>
      match steps exEnv po T 7 with
      | some (.ok (results, T')) => some (po.nodes, results, T')
      | _ => none
    | _ => none
  | none => none

/-- The hypotheses of `branch_takes_exactly_partial` hold for the branch of `exRoot`; the branch and `g(y)` are taken, `h(z)`
is not. -/
example : ∃ po T results T' w b, postOrder exRoot = some po ∧ Tree.build po = some (.ok T) ∧
    steps exEnv po T 7 = some (.ok (results, T')) ∧ NoMerge po.nodes results ∧ po.nodes[7]? = some w ∧
    results[5]? = some b ∧ po.nodes[5]? = some b ∧ b ∈ w.deps ∧ inLambda exEnv T' b b = some (.ok true) ∧
    inLambda exEnv T' b (exO 3 [exL 2]) = some (.ok true) ∧ inLambda exEnv T' b (exO 4 [exL 3]) = some (.ok false) := by
  have hs : (match exState with
    | some (nodes, results, T') =>
      decide (noMerge nodes results ∧ nodes[7]? = some (exO 0 [exL 1, exO 2 [exO 3 [exL 2], exO 4 [exL 3]], exL 4]) ∧
      results[5]? = some (exO 2 [exO 3 [exL 2], exO 4 [exL 3]]) ∧ nodes[5]? = some (exO 2 [exO 3 [exL 2], exO 4 [exL 3]]) ∧
      inLambda exEnv T' (exO 2 [exO 3 [exL 2], exO 4 [exL 3]]) (exO 2 [exO 3 [exL 2], exO 4 [exL 3]]) = some (.ok true) ∧
      inLambda exEnv T' (exO 2 [exO 3 [exL 2], exO 4 [exL 3]]) (exO 3 [exL 2]) = some (.ok true) ∧
      inLambda exEnv T' (exO 2 [exO 3 [exL 2], exO 4 [exL 3]]) (exO 4 [exL 3]) = some (.ok false))
    | none => false) = true := by decide +kernel
  unfold exState at hs
  cases h1 : postOrder exRoot with
  | none => rw [h1] at hs; cases hs
  | some po =>
    rw [h1] at hs
    dsimp only at hs
    cases h2 : Tree.build po with
    | none => rw [h2] at hs; cases hs
    | some r =>
      cases r with
      | error e => rw [h2] at hs; cases hs
      | ok T =>
        rw [h2] at hs
        dsimp only at hs
        cases h3 : steps exEnv po T 7 with
        | none => rw [h3] at hs; cases hs
        | some r =>
          cases r with
          | error e => rw [h3] at hs; cases hs
          | ok r =>
            rw [h3] at hs
            dsimp only at hs
            obtain ⟨a1, a2, a3, a4, a5, a6, a7⟩ := of_decide_eq_true hs
            exact ⟨po, T, r.1, r.2, _, _, rfl, h2, h3, noMerge_ok a1, a2, a3, a4, by simp [exO, Expr.deps], a5, a6, a7⟩

/-! Example for `global_value`: only the lambdas that occur are compiled. -/

private def exP (k : List Nat) : Expr Nat Nat Unit := .mk (.placeholder k) () []
private def exTrue : Extracted Nat Nat Unit :=
  ⟨[[95, 48], [95, 49]], [exL 2, exO 4 [exL 3]], exO 2 [exO 3 [exP [95, 48]], exP [95, 49]]⟩
private def exFalse : Extracted Nat Nat Unit := ⟨[[95, 48]], [exL 4], exP [95, 48]⟩
private def exEnv2 : Env Nat Nat Unit String Nat :=
  { exEnv with
    compile := fun x => if x.body = exTrue.body ∧ x.params = exTrue.params then .ok 1
      else if x.body = exFalse.body ∧ x.params = exFalse.params then .ok 2 else .error "unknown"
    pack := fun i j => if i = 1 ∧ j = 2 then .ok 100 else .error "unknown" }
private def exChoose (c t f : Nat) : Nat := if c = 0 then f else t
private def exOps (o : Nat) (vs : List Nat) : Nat :=
  match o, vs with
  | 0, [c, t, f] => exChoose c t f
  | 1, [c, t, f] => exChoose c t f
  | 2, [a, b] => 10 * a + b
  | 3, [a] => a + 1
  | 4, [a] => a + 2
  | 100, [c, a, b, e] => exChoose c (10 * (a + 1) + b) e
  | _, vs => vs.sum

example : Meaning exEnv2 exOps id (fun k => k.sum) (fun _ => 0) exChoose ∧
    globalTransform exEnv2 id exRoot =
      some (.ok (exO 5 [exO 100 [exL 1, exL 2, exO 4 [exL 3], exL 4], exO 4 [exL 3]])) := by
  refine ⟨⟨?_, ?_, ?_⟩, by decide +kernel⟩
  · intro o c t f h
    have : o = 0 := by simpa [exEnv2, exEnv] using h
    subst this; rfl
  · intro o c t f h
    have : o = 1 := by simpa [exEnv2, exEnv] using h.symm
    subst this; rfl
  · intro xt xf lt lf o c vt vf h1 h2 h3 h4 h5
    simp only [exEnv2] at h1 h2 h3
    split at h3
    · rename_i hp
      obtain ⟨rfl, rfl⟩ := hp
      cases h3
      have e1 : xt.body = exTrue.body ∧ xt.params = exTrue.params := by
        split at h1
        · assumption
        · split at h1 <;> simp at h1
      have e2 : xf.body = exFalse.body ∧ xf.params = exFalse.params := by
        split at h2
        · simp at h2
        · split at h2
          · assumption
          · simp at h2
      rw [e1.2] at h4
      rw [e2.2] at h5
      obtain ⟨a, b, rfl⟩ : ∃ a b, vt = [a, b] := by
        match vt, h4 with
        | [a, b], _ => exact ⟨a, b, rfl⟩
      obtain ⟨e, rfl⟩ : ∃ e, vf = [e] := by
        match vf, h5 with
        | [e], _ => exact ⟨e, rfl⟩
      unfold call
      rw [e1.1, e1.2, e2.1, e2.2]
      rfl
    · cases h3

/-- Nested: the inner `where` goes into the lambda of the outer one. -/
example : globalTransform exEnv id
    (exO 0 [exL 1, exO 2 [exO 0 [exL 2, exO 3 [exL 3], exL 4]], exL 5]) =
    some (.ok (exO 301 [exL 1, exL 2, exL 3, exL 4, exL 5])) := by decide +kernel

/-- Two nodes that become equal: `core._short_circuit_where(c, a, b)` has leaves as branches and becomes `core.where(c, a, b)`,
which also occurs in the branch of another `where`.  The node is needed outside of the branch, but it is taken into the lambda
all the same (the arguments are `c, a, b`), and computed twice. -/
theorem merge_counterexample :
    globalTransform exEnv id
      (exO 5 [exO 0 [exL 1, exL 2, exL 3], exO 0 [exL 4, exO 2 [exO 1 [exL 1, exL 2, exL 3]], exL 5]]) =
    some (.ok (exO 5 [exO 1 [exL 1, exL 2, exL 3], exO 301 [exL 4, exL 1, exL 2, exL 3, exL 5]])) := by decide +kernel

end
end Verif.Where
