import Verif.Cfg.CfgLemmas

/-! # C28–C31: acyclic control flow graphs and dominators -/

namespace Verif.Cfg

/-- The graph `0 → 1, 2; 1 → 3; 2 → 3; 3 → 4`. -/
def exDeps : List (List Int) := [[1, 2], [3], [3, 3], [4], []]
def exGraph : Cfg := ⟨[[1, 2], [3], [3, 3], [4], []], [[], [0], [0], [1, 2, 2], [3]]⟩
theorem exGraph_create : create exDeps = .ok exGraph := rfl

/-! ## C29 -/

/-- C29: `Create` accepts exactly the non-empty graphs in which every dependency is a known node with a
larger id and every node but the entry is a dependency; in the accepted graph the dependencies are the given
ones, `reverse_deps` lists the nodes which depend on a node, with multiplicity and in order, and every node
is reachable from the entry. -/
theorem create_accepts (deps : List (List Int)) :
    ((∃ g, create deps = .ok g) ↔ WellFormed deps) ∧
    ∀ g, create deps = .ok g →
      (∀ i : Nat, (g.deps[i]?).map (·.map Int.ofNat) = deps[i]?) ∧
      g.rdeps.length = deps.length ∧
      (∀ (j : Nat) ps, g.rdeps[j]? = some ps →
        ps = (List.range deps.length).flatMap (fun i => List.replicate ((deps[i]?.getD []).count (j : Int)) i)) ∧
      ∀ b, b < deps.length → Reach g 0 b := by
  obtain ⟨c1, c2⟩ := create_spec deps
  constructor
  · constructor
    · rintro ⟨g, hg⟩
      by_contra hc
      obtain ⟨m, hm⟩ := c2 hc
      rw [hm] at hg
      cases hg
    · intro h
      obtain ⟨g, hg, _⟩ := c1 h
      exact ⟨g, hg⟩
  · intro g hg
    have hwf : WellFormed deps := by
      by_contra hc
      obtain ⟨m, hm⟩ := c2 hc
      rw [hm] at hg
      cases hg
    obtain ⟨g', h1, h2, h3, h4, h5⟩ := c1 hwf
    rw [hg] at h1
    cases h1
    refine ⟨?_, h3, ?_, ?_⟩
    · intro i
      rw [h2, List.getElem?_map, Option.map_map]
      cases hd : deps[i]? with
      | none => rfl
      | some ds =>
        simp only [Option.map_some, Function.comp_apply, List.map_map, Option.some.injEq]
        have : ∀ d ∈ ds, (Int.ofNat ∘ Int.toNat) d = d := by
          intro d hd'
          have := hwf.2.1 i ds d hd hd'
          simp only [Function.comp_apply, Int.ofNat_eq_natCast]
          omega
        rw [List.map_congr_left this, List.map_id']
    · intro j ps hps
      have hj : j < deps.length := by
        obtain ⟨h, _⟩ := List.getElem?_eq_some_iff.1 hps
        omega
      rw [h4 j hj] at hps
      cases hps
      have : ∀ (rest : List (List Int)) (node : Nat), revOf j node rest =
          (List.range rest.length).flatMap (fun i => List.replicate ((rest[i]?.getD []).count (j : Int)) (node + i)) := by
        intro rest
        induction rest with
        | nil => intro node; rfl
        | cons ds rest ih =>
          intro node
          rw [revOf, ih, List.length_cons, List.range_succ_eq_map, List.flatMap_cons, List.flatMap_map]
          congr 1
          congr 1
          funext i
          simp only [List.getElem?_cons_succ, Nat.succ_eq_add_one]
          rw [show node + 1 + i = node + (i + 1) by omega]
      rw [this deps 0]
      simp only [Nat.zero_add]
    · intro b hb
      have hn : g.numNodes = deps.length := by unfold Cfg.numNodes; rw [h2, List.length_map]
      obtain ⟨l, hl⟩ := path_exists h5 b (by omega)
      clear hb
      induction hl with
      | start => exact .refl
      | step _ e ih => exact .step ih e

example : WellFormed exDeps := (create_accepts exDeps).1.1 ⟨_, exGraph_create⟩
example : ∃ m, create [[1], [1]] = .error m := ⟨_, rfl⟩
example : ¬ WellFormed [[1], [], []] := fun h => by
  obtain ⟨g, hg⟩ := (create_accepts [[1], [], []]).1.2 h
  cases hg

/-! ## C28 -/

theorem create_ok {deps : List (List Int)} {g : Cfg} (h : create deps = .ok g) : Ok g := by
  obtain ⟨c1, c2⟩ := create_spec deps
  by_cases hc : WellFormed deps
  · obtain ⟨g', h1, _, _, _, h5⟩ := c1 hc
    rw [h] at h1
    cases h1
    exact h5
  · obtain ⟨m, hm⟩ := c2 hc
    rw [hm] at h
    cases h

/-- C28: for every accepted graph the dominator tree is computed; ancestors in the tree (a node is its own
ancestor) are exactly the dominators; the parent of a node other than the entry is its immediate dominator;
the entry is its own parent; the depth is the number of strict dominators; `children` lists exactly the nodes
immediately dominated, in increasing order. -/
theorem dominator_tree_correct {deps : List (List Int)} {g : Cfg} (h : create deps = .ok g) :
    ∃ t, dominatorTree g = some t ∧ t.parent.length = g.numNodes ∧ t.depth.length = g.numNodes ∧
      t.children.length = g.numNodes ∧
      (∀ a b, b < g.numNodes → (Anc t a b ↔ Dom g a b)) ∧
      t.parent[0]? = some 0 ∧ (∀ b, 0 < b → b < g.numNodes → ∃ p, t.parent[b]? = some p ∧ IDom g p b) ∧
      (∀ b, b < g.numNodes → ∃ (d : Nat) (l : List Nat), t.depth[b]? = some d ∧ l.Nodup ∧ l.length = d ∧
        ∀ x, x ∈ l ↔ (Dom g x b ∧ x ≠ b)) ∧
      (∀ b, b < g.numNodes → ∃ cs : List Nat, t.children[b]? = some cs ∧ cs.Pairwise (· < ·) ∧
        ∀ c, c ∈ cs ↔ (c < g.numNodes ∧ IDom g b c)) := by
  have hg := create_ok h
  obtain ⟨t, t1, hi⟩ := dominatorTree_spec hg
  have ⟨ht, hd, hc⟩ := hi
  refine ⟨t, t1, ht.plen, ht.dlen, hc.1, fun a b hb => hd b hb a, ht.root.1, ?_, ?_, ?_⟩
  · intro b h0 hb
    obtain ⟨p, _, h1, _⟩ := ht.node b h0 hb
    exact ⟨p, h1, idom_parent hi (by omega) hb h1⟩
  · intro b hb
    obtain ⟨d, l, h1, h2, h3, h4⟩ := strict_list ht b hb
    exact ⟨d, l, h1, h2, h3, fun x => by rw [h4, hd b hb]⟩
  · intro b hb
    refine ⟨_, hc.2 b hb, List.Pairwise.filter _ List.pairwise_lt_range, ?_⟩
    intro c
    rw [List.mem_filter, List.mem_range, decide_eq_true_iff]
    constructor
    · rintro ⟨h1, h2, h3⟩
      exact ⟨h1, idom_parent hi h2 h1 h3⟩
    · rintro ⟨h1, h2⟩
      have h0 : c ≠ 0 := by
        rintro rfl
        have := (dom_zero hg b).1 h2.2.1
        exact h2.1 this
      obtain ⟨p, _, h3, _⟩ := ht.node c (by omega) h1
      have := idom_unique hg h1 h2 (idom_parent hi h0 h1 h3)
      exact ⟨h1, h0, by rw [this]; exact h3⟩

example : dominatorTree exGraph =
    some ⟨[0, 0, 0, 0, 3], [0, 1, 1, 1, 2], [[1, 2, 3], [], [], [4], []]⟩ := rfl
example : Dom exGraph 3 4 ∧ ¬ Dom exGraph 1 3 := by
  obtain ⟨t, h1, _, _, _, h2, _⟩ := dominator_tree_correct exGraph_create
  rw [show dominatorTree exGraph =
    some ⟨[0, 0, 0, 0, 3], [0, 1, 1, 1, 2], [[1, 2, 3], [], [], [4], []]⟩ from rfl] at h1
  cases h1
  refine ⟨(h2 3 4 (by decide)).1 (.up (by decide) rfl .refl), fun hc => ?_⟩
  have := (h2 1 3 (by decide)).2 hc
  cases this with
  | up _ hp h => cases hp; cases anc_zero h

/-! ## C30 -/

/-- C30: the nodes reported are exactly those which dominate everything reachable from them. -/
theorem empty_frontier_correct {deps : List (List Int)} {g : Cfg} (h : create deps = .ok g) {t : DTree}
    (ht : dominatorTree g = some t) :
    ∃ e, emptyFrontier g t = some e ∧ e.length = g.numNodes ∧
      ∀ v, v < g.numNodes → (e[v]? = some true ↔ ∀ d, Reach g v d → Dom g v d) := by
  have hg := create_ok h
  obtain ⟨t', t1, hi⟩ := dominatorTree_spec hg
  rw [ht] at t1
  cases t1
  obtain ⟨e, e1, e2, e3⟩ := frontierLoop_spec hg hi g.numNodes (List.replicate g.numNodes 0)
    (List.replicate g.numNodes false) (Nat.le_refl _) (by simp) (by simp)
    (fun v h1 h2 => by omega) (fun v h1 h2 => by omega)
  refine ⟨e, e1, e2, ?_⟩
  intro v hv
  obtain ⟨b, b1, b2⟩ := e3 v hv
  rw [b1, ← b2]
  simp

/-- C30 in terms of the dominance frontier (nodes not strictly dominated by `v` with a predecessor dominated
by `v`): the nodes reported are those whose frontier is empty. -/
theorem empty_frontier_is_empty {deps : List (List Int)} {g : Cfg} (h : create deps = .ok g) {t : DTree}
    (ht : dominatorTree g = some t) {e : List Bool} (he : emptyFrontier g t = some e) {v : Nat} (hv : v < g.numNodes) :
    e[v]? = some true ↔ ¬ ∃ x y, x < g.numNodes ∧ Dom g v x ∧ Edge g x y ∧ ¬ (Dom g v y ∧ v ≠ y) := by
  have hg := create_ok h
  obtain ⟨e', e1, _, e3⟩ := empty_frontier_correct h ht
  rw [he] at e1
  cases e1
  rw [e3 v hv]
  constructor
  · rintro h1 ⟨x, y, h2, h3, h4, h5⟩
    apply h5
    have hlt := hg.lt x y h4
    have hvx := dom_le hg h2 h3
    have hr : Reach g v x := by
      obtain ⟨l, hl⟩ := path_exists hg x h2
      have := h3 l hl
      clear h1 h2 h3 h4 h5 hlt hvx
      induction hl with
      | start => simp only [List.mem_singleton] at this; subst this; exact .refl
      | @step a b l hp e ih =>
        rcases List.mem_cons.1 this with rfl | h
        · exact .refl
        · exact .step (ih h) e
    exact ⟨h1 y (.step hr h4), by omega⟩
  · intro h1 d hr
    induction hr with
    | refl => exact dom_refl g v
    | @step x y hr e ih =>
      by_contra hc
      apply h1
      have := hg.lt x y e
      exact ⟨x, y, by omega, ih, e, fun h => hc h.1⟩

example : emptyFrontier exGraph ⟨[0, 0, 0, 0, 3], [0, 1, 1, 1, 2], [[1, 2, 3], [], [], [4], []]⟩ =
    some [true, false, false, true, true] := by decide +kernel

/-! ## C31 -/

/-- C31: externalizing always succeeds; a listed node (other than the entry) becomes a dependency of exactly
its immediate dominator, all other dependencies are unchanged; dominance is unchanged. -/
theorem externalize_correct {deps : List (List Int)} {g : Cfg} (h : create deps = .ok g) {t : DTree}
    (ht : dominatorTree g = some t) (glob : Nat → Bool) :
    ∃ g' deps', externalizeNodes g t glob = some (.ok g') ∧ create deps' = .ok g' ∧ g'.numNodes = g.numNodes ∧
      (∀ a b, b < g.numNodes → (Edge g' a b ↔
        if glob b = true ∧ b ≠ 0 then IDom g a b else Edge g a b)) ∧
      (∀ a b, b < g.numNodes → (Dom g' a b ↔ Dom g a b)) ∧
      dominatorTree g' = some t := by
  have hg := create_ok h
  obtain ⟨t', t1, hi⟩ := dominatorTree_spec hg
  rw [ht] at t1
  cases t1
  obtain ⟨g', g1, g2, g3, g4⟩ := externalize_spec hg hi glob
  have hdom := externalize_dom hg g2 hi g3 g4
  have hcreate : ∃ deps', create deps' = .ok g' := by
    unfold externalizeNodes at g1
    obtain ⟨d, d1, d2⟩ := Option.bind_eq_some_iff.1 g1
    exact ⟨_, Option.some.inj d2⟩
  obtain ⟨deps', hd'⟩ := hcreate
  refine ⟨g', deps', g1, hd', g3, ?_, fun a b hb => hdom b hb a, ?_⟩
  · intro a b hb
    rw [g4]
    unfold ExtEdge
    by_cases hc : glob b = true ∧ b ≠ 0
    · rw [if_pos hc]
      obtain ⟨p, _, h1, _⟩ := hi.1.node b (by omega) hb
      have hp := idom_parent hi hc.2 hb h1
      constructor
      · rintro (⟨_, h⟩ | ⟨_, _, _, h⟩)
        · rw [hc.1] at h; cases h
        · rw [h1] at h; cases h; exact hp
      · intro h
        have := idom_unique hg hb h hp
        subst this
        exact Or.inr ⟨hb, hc.1, hc.2, h1⟩
    · rw [if_neg hc]
      constructor
      · rintro (⟨h, _⟩ | ⟨_, h1, h2, _⟩)
        · exact h
        · exact absurd ⟨h1, h2⟩ hc
      · intro h
        have := hg.lt a b h
        refine Or.inl ⟨h, ?_⟩
        cases hgb : glob b with
        | false => rfl
        | true => exact absurd ⟨hgb, by omega⟩ hc
  · obtain ⟨t2, s1, hi2⟩ := dominatorTree_spec g2
    rw [s1]
    rw [g3] at hi2
    have hpar : t2.parent = t.parent := by
      apply List.ext_getElem?
      intro b
      rcases Nat.lt_or_ge b g.numNodes with hb | hb
      · rcases Nat.eq_zero_or_pos b with rfl | h0
        · rw [hi2.1.root.1, hi.1.root.1]
        · obtain ⟨p, _, h1, _⟩ := hi.1.node b h0 hb
          obtain ⟨q, _, h2, _⟩ := hi2.1.node b h0 hb
          have e1 := idom_parent hi (by omega) hb h1
          have e2 := idom_parent (g3 ▸ hi2) (by omega) (by omega) h2
          have l2 := dom_le g2 (by omega) e2.2.1
          have e3 : IDom g q b := ⟨e2.1, (hdom b hb q).1 e2.2.1, fun a ha hne =>
            (hdom q (by omega) a).1 (e2.2.2 a ((hdom b hb a).2 ha) hne)⟩
          rw [h1, h2, idom_unique hg hb e1 e3]
      · rw [List.getElem?_eq_none (by rw [hi2.1.plen]; exact hb), List.getElem?_eq_none (by rw [hi.1.plen]; exact hb)]
    have hdep : t2.depth = t.depth := by
      have key : ∀ b, b < g.numNodes → t2.depth[b]? = t.depth[b]? := by
        intro b
        induction b using Nat.strongRecOn with
        | ind b ih =>
          intro hb
          rcases Nat.eq_zero_or_pos b with rfl | h0
          · rw [hi2.1.root.2, hi.1.root.2]
          · obtain ⟨p, d, h1, h2, h3, h4⟩ := hi.1.node b h0 hb
            obtain ⟨q, d', h1', h2', h3', h4'⟩ := hi2.1.node b h0 hb
            rw [hpar, h1] at h1'
            cases h1'
            rw [ih p h2 (by omega), h3] at h3'
            cases h3'
            rw [h4, h4']
      apply List.ext_getElem?
      intro b
      rcases Nat.lt_or_ge b g.numNodes with hb | hb
      · exact key b hb
      · rw [List.getElem?_eq_none (by rw [hi2.1.dlen]; exact hb), List.getElem?_eq_none (by rw [hi.1.dlen]; exact hb)]
    have hch : t2.children = t.children := by
      apply List.ext_getElem?
      intro b
      rcases Nat.lt_or_ge b g.numNodes with hb | hb
      · rw [hi.2.2.2 b hb, hi2.2.2.2 b (by omega), hpar]
      · rw [List.getElem?_eq_none (by rw [hi2.2.2.1, g3]; exact hb), List.getElem?_eq_none (by rw [hi.2.2.1]; exact hb)]
    cases t; cases t2
    dsimp only at hpar hdep hch
    subst hpar hdep hch
    rfl

example : externalizeNodes exGraph ⟨[0, 0, 0, 0, 3], [0, 1, 1, 1, 2], [[1, 2, 3], [], [], [4], []]⟩ (· == 3) =
    some (.ok ⟨[[1, 2, 3], [], [], [4], []], [[], [0], [0], [0], [3]]⟩) := by rfl

end Verif.Cfg
