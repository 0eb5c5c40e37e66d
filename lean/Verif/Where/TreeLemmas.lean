import Verif.Where.WhereSpec
import Verif.Where.ExtractProps
import Verif.Cfg.CfgLemmas
import Verif.Expr.PostOrderProps

/-! # Lemmas about `ExprDominatorTree` -/

namespace Verif.Where
open Verif.Expr

variable {O V A E : Type} [DecidableEq O] [DecidableEq V] [DecidableEq A]

/-! ## Depths decide dominance along edges -/

theorem depth_dom {g : Cfg.Cfg} (hg : Cfg.Ok g) {t : Cfg.DTree} (hi : Cfg.Inv g t g.numNodes) {a m n da dn : Nat}
    (hm : m < g.numNodes) (hd : Cfg.Dom g a m) (he : Cfg.Edge g m n) (h1 : t.depth[a]? = some da)
    (h2 : t.depth[n]? = some dn) : da < dn ↔ Cfg.Dom g a n := by
  obtain ⟨hlt, hn⟩ := hg.lt m n he
  have h0 : n ≠ 0 := by omega
  have ham := Cfg.dom_le hg hm hd
  obtain ⟨ht, hdom, hch⟩ := hi
  obtain ⟨p, d, hp, hpn, hdp, hdn⟩ := ht.node n (by omega) hn
  have hid : Cfg.IDom g p n := Cfg.idom_parent ⟨ht, hdom, hch⟩ h0 hn hp
  rw [h2] at hdn; cases hdn
  have hpm : Cfg.Dom g p m := by
    rcases (Cfg.dom_step h0).1 hid.2.1 with h | h
    · exact absurd h hid.1
    · exact h m he
  have a1 := (hdom m hm a).2 hd
  have a2 := (hdom m hm p).2 hpm
  rcases Cfg.anc_chain a1 a2 with h | h
  · obtain ⟨x, y, e1, e2, e3, _⟩ := Cfg.anc_depth ht h (by omega)
    rw [h1] at e1; cases e1
    rw [hdp] at e2; cases e2
    exact ⟨fun _ => (hdom n hn a).1 (.up h0 hp h), fun _ => by omega⟩
  · by_cases hpa : p = a
    · subst hpa
      rw [h1] at hdp; cases hdp
      exact ⟨fun _ => hid.2.1, fun _ => by omega⟩
    · obtain ⟨x, y, e1, e2, e3, e4⟩ := Cfg.anc_depth ht h (by omega)
      rw [h1] at e2; cases e2
      rw [hdp] at e1; cases e1
      have : d ≠ da := fun e => hpa (e4 e)
      refine ⟨fun hh => by omega, fun hh => ?_⟩
      have hap := hid.2.2 a hh (by omega)
      have l1 := Cfg.dom_le hg (by omega) hap
      have l2 := Cfg.anc_le ht h (by omega)
      omega

/-! ## The graph of an expression -/

theorem revOf_single {j : Nat} : ∀ (rest : List (List Int)) (node : Nat), (Cfg.revOf j node rest).length = 1 ↔
    ∃ i ds, rest[i]? = some ds ∧ ds.count (j : Int) = 1 ∧
      ∀ (i' : Nat) ds', rest[i']? = some ds' → (j : Int) ∈ ds' → i' = i := by
  intro rest
  induction rest with
  | nil => intro node; simp [Cfg.revOf]
  | cons ds rest ih =>
    intro node
    rw [Cfg.revOf, List.length_append, List.length_replicate]
    have hnil : (Cfg.revOf j (node + 1) rest).length = 0 ↔ ∀ (i : Nat) ds', rest[i]? = some ds' → (j : Int) ∉ ds' := by
      constructor
      · intro h i ds' h1 h2
        have : node + 1 + i ∈ Cfg.revOf j (node + 1) rest := Cfg.revOf_mem.2 ⟨i, ds', rfl, h1, h2⟩
        rw [List.eq_nil_of_length_eq_zero h] at this
        cases this
      · intro h
        rcases Nat.eq_zero_or_pos (Cfg.revOf j (node + 1) rest).length with h0 | h0
        · exact h0
        · obtain ⟨i, ds', _, h1, h2⟩ := Cfg.revOf_mem.1 (List.getElem_mem h0)
          exact absurd h2 (h i ds' h1)
    constructor
    · intro h
      rcases Nat.eq_zero_or_pos (ds.count (j : Int)) with h0 | h0
      · obtain ⟨i, d, h1, h2, h3⟩ := (ih (node + 1)).1 (by omega)
        refine ⟨i + 1, d, by simpa using h1, h2, ?_⟩
        intro i' d' h4 h5
        cases i' with
        | zero =>
          simp only [List.getElem?_cons_zero, Option.some.injEq] at h4; subst h4
          have := List.count_pos_iff.2 h5; omega
        | succ i' =>
          simp only [List.getElem?_cons_succ] at h4
          rw [h3 i' d' h4 h5]
      · have h1 := hnil.1 (by omega)
        refine ⟨0, ds, rfl, by omega, ?_⟩
        intro i' d' h4 h5
        cases i' with
        | zero => rfl
        | succ i' =>
          simp only [List.getElem?_cons_succ] at h4
          exact absurd h5 (h1 i' d' h4)
    · rintro ⟨i, d, h1, h2, h3⟩
      cases i with
      | zero =>
        simp only [List.getElem?_cons_zero, Option.some.injEq] at h1; subst h1
        have := hnil.2 (fun i' d' h4 h5 => by have := h3 (i' + 1) d' (by simpa using h4) h5; omega)
        omega
      | succ i =>
        simp only [List.getElem?_cons_succ] at h1
        have e1 : ds.count (j : Int) = 0 := by
          rcases Nat.eq_zero_or_pos (ds.count (j : Int)) with h0 | h0
          · exact h0
          · have := h3 0 ds rfl (List.count_pos_iff.1 h0); omega
        have e2 := (ih (node + 1)).2 ⟨i, d, h1, h2, fun i' d' h4 h5 => by
          have := h3 (i' + 1) d' (by simpa using h4) h5; omega⟩
        omega

theorem buildLoop_spec (po : PostOrder O V A) (hx : ∀ i, i < po.nodes.length → ∃ ix, po.depIndices i = some ix) :
    ∀ (k i : Nat) (deps : List (List Int)), i + k = po.nodes.length → deps.length = po.nodes.length →
    ∃ deps', buildLoop po k i deps = some deps' ∧ deps'.length = po.nodes.length ∧
      ∀ j, j < po.nodes.length → deps'[toCfgId po.nodes.length j]? =
        if i ≤ j then (po.depIndices j).map (·.map (fun x => (toCfgId po.nodes.length x : Int)))
        else deps[toCfgId po.nodes.length j]? := by
  intro k
  induction k with
  | zero =>
    intro i deps h1 h2
    exact ⟨deps, rfl, h2, fun j hj => by rw [if_neg (by omega)]⟩
  | succ k ih =>
    intro i deps h1 h2
    obtain ⟨ix, hix⟩ := hx i (by omega)
    obtain ⟨deps', e1, e2, e3⟩ := ih (i + 1) (deps.set (toCfgId po.nodes.length i)
      (ix.map (fun j => (toCfgId po.nodes.length j : Int)))) (by omega) (by simpa using h2)
    refine ⟨deps', by rw [buildLoop, hix]; exact e1, e2, fun j hj => ?_⟩
    rw [e3 j hj]
    by_cases hj1 : i + 1 ≤ j
    · rw [if_pos hj1, if_pos (by omega)]
    · rw [if_neg hj1]
      by_cases hj2 : i = j
      · subst hj2
        rw [if_pos (by omega), List.getElem?_set_self (by unfold toCfgId; omega), hix]; rfl
      · rw [if_neg (by omega), List.getElem?_set_ne (by unfold toCfgId; omega)]

/-- What `Build` constructs. -/
structure Built (root : Expr O V A) (po : PostOrder O V A) (T : Tree O V A) : Prop where
  ok : Cfg.Ok T.g
  inv : Cfg.Inv T.g T.t T.g.numNodes
  num : T.g.numNodes = po.nodes.length
  edge : ∀ (i j : Nat), i < po.nodes.length → j < po.nodes.length →
    (Cfg.Edge T.g (toCfgId po.nodes.length i) (toCfgId po.nodes.length j) ↔
      ∃ m d, po.nodes[i]? = some m ∧ po.nodes[j]? = some d ∧ d ∈ m.deps)
  single : ∀ (j : Nat) d, po.nodes[j]? = some d → ∃ ps, T.g.rdeps[toCfgId po.nodes.length j]? = some ps ∧
    (ps.length = 1 ↔ ∃ w, UsedOnceBy root d w)

theorem count_ids {po : PostOrder O V A} (hn : po.nodes.Nodup) {n d : Expr O V A} {ix : List Nat} {j : Nat}
    (h1 : ix.map (fun k => po.nodes[k]?) = n.deps.map some) (hj : po.nodes[j]? = some d) :
    (ix.map (fun x => (toCfgId po.nodes.length x : Int))).count (toCfgId po.nodes.length j : Int) = n.deps.count d := by
  have hjl := (List.getElem?_eq_some_iff.1 hj).1
  have hix : ∀ k ∈ ix, k < po.nodes.length := by
    intro k hk
    have : po.nodes[k]? ∈ n.deps.map some := by rw [← h1]; exact List.mem_map.2 ⟨k, hk, rfl⟩
    obtain ⟨x, _, hx⟩ := List.mem_map.1 this
    exact (List.getElem?_eq_some_iff.1 hx.symm).1
  have e1 : n.deps.count d = (n.deps.map some).count (some d) := by
    rw [List.count_eq_countP, List.count_eq_countP, List.countP_map]
    apply List.countP_congr
    intro x _; simp
  rw [e1, ← h1, List.count_eq_countP, List.count_eq_countP, List.countP_map, List.countP_map]
  apply List.countP_congr
  intro k hk
  have hkl := hix k hk
  simp only [Function.comp, beq_iff_eq]
  constructor
  · intro h
    have : k = j := by unfold toCfgId at h; omega
    subst this; exact hj
  · intro h
    have : k = j := by
      have a := List.getElem?_eq_some_iff.1 h
      have b := List.getElem?_eq_some_iff.1 hj
      exact (List.Nodup.getElem_inj_iff hn).1 (a.2.trans b.2.symm)
    rw [this]

theorem mem_ids {po : PostOrder O V A} (hn : po.nodes.Nodup) {n d : Expr O V A} {ix : List Nat} {j : Nat}
    (h1 : ix.map (fun k => po.nodes[k]?) = n.deps.map some) (hj : po.nodes[j]? = some d) :
    (toCfgId po.nodes.length j : Int) ∈ ix.map (fun x => (toCfgId po.nodes.length x : Int)) ↔ d ∈ n.deps := by
  rw [← List.count_pos_iff, ← List.count_pos_iff, count_ids hn h1 hj]

theorem sub_parent {d r : Expr O V A} (h : Sub d r) : d ≠ r → ∃ m, Sub m r ∧ d ∈ m.deps := by
  induction h with
  | refl => intro h; exact absurd rfl h
  | @dep e n h1 h2 ih =>
    intro _
    by_cases hme : d = e
    · subst hme; exact ⟨n, .refl n, h2⟩
    · obtain ⟨x, hx1, hx2⟩ := ih hme
      exact ⟨x, .dep hx1 h2, hx2⟩

theorem build_spec {root : Expr O V A} {po : PostOrder O V A} (h : postOrder root = some po) :
    ∃ T, Tree.build po = some (.ok T) ∧ Built root po T ∧ T.idx = po.idx := by
  obtain ⟨po', h', hnd, hsub, hlast, hdeps, hidx⟩ := post_order root
  rw [h] at h'; cases h'
  have hx : ∀ i, i < po.nodes.length → ∃ ix, po.depIndices i = some ix := by
    intro i hi
    obtain ⟨ix, e, _⟩ := hdeps i _ (List.getElem?_eq_getElem hi)
    exact ⟨ix, e⟩
  have hpos : 0 < po.nodes.length := by
    cases hl : po.nodes with
    | nil => rw [hl] at hlast; cases hlast
    | cons a b => simp
  obtain ⟨deps, b1, b2, b3⟩ := buildLoop_spec po hx po.nodes.length 0 (List.replicate po.nodes.length [])
    (by omega) (by simp)
  -- the dependencies of a node of the graph
  have hget : ∀ u, u < po.nodes.length → ∃ (n : Expr O V A) (ix : List Nat), po.nodes[toCfgId po.nodes.length u]? = some n ∧
      ix.map (fun k => po.nodes[k]?) = n.deps.map some ∧ (∀ k ∈ ix, k < toCfgId po.nodes.length u) ∧
      deps[u]? = some (ix.map (fun x => (toCfgId po.nodes.length x : Int))) := by
    intro u hu
    have hlt : toCfgId po.nodes.length u < po.nodes.length := by unfold toCfgId; omega
    obtain ⟨ix, e1, e2, e3⟩ := hdeps _ _ (List.getElem?_eq_getElem hlt)
    refine ⟨_, ix, List.getElem?_eq_getElem hlt, e2, e3, ?_⟩
    have := b3 _ hlt
    rw [if_pos (by omega), e1] at this
    rw [show toCfgId po.nodes.length (toCfgId po.nodes.length u) = u by unfold toCfgId; omega] at this
    exact this
  have hused : ∀ d ∈ po.nodes, d ≠ root → ∃ m ∈ po.nodes, d ∈ m.deps := by
    intro d hd hne
    obtain ⟨m, hm1, hm2⟩ := sub_parent ((hsub d).1 hd) hne
    exact ⟨m, (hsub m).2 hm1, hm2⟩
  have hwf : Cfg.WellFormed deps := by
    refine ⟨by intro hh; rw [hh] at b2; simp at b2; omega, ?_, ?_⟩
    · intro u ds x hu hxm
      have hul : u < po.nodes.length := by have := (List.getElem?_eq_some_iff.1 hu).1; omega
      obtain ⟨n, ix, g1, g2, g3, g4⟩ := hget u hul
      rw [g4] at hu; cases hu
      obtain ⟨k, hk, rfl⟩ := List.mem_map.1 hxm
      have := g3 k hk
      rw [b2]
      unfold toCfgId at *
      omega
    · intro u hu0 hul
      rw [b2] at hul
      obtain ⟨d, ix, g1, g2, g3, g4⟩ := hget u hul
      have hd : d ∈ po.nodes := List.mem_of_getElem? g1
      have hne : d ≠ root := by
        rintro rfl
        rw [List.getLast?_eq_getElem?] at hlast
        have a := List.getElem?_eq_some_iff.1 g1
        have b := List.getElem?_eq_some_iff.1 hlast
        have := (List.Nodup.getElem_inj_iff hnd).1 (a.2.trans b.2.symm)
        unfold toCfgId at this; omega
      obtain ⟨m, hm, hdm⟩ := hused d hd hne
      obtain ⟨i, hi⟩ := List.getElem?_of_mem hm
      have hil := (List.getElem?_eq_some_iff.1 hi).1
      have hlt : toCfgId po.nodes.length i < po.nodes.length := by unfold toCfgId; omega
      obtain ⟨n', ix', k1, k2, k3, k4⟩ := hget _ hlt
      rw [show toCfgId po.nodes.length (toCfgId po.nodes.length i) = i by unfold toCfgId; omega, hi] at k1
      cases k1
      refine ⟨_, _, k4, ?_⟩
      have := (mem_ids hnd k2 g1).2 hdm
      rwa [show toCfgId po.nodes.length (toCfgId po.nodes.length u) = u by unfold toCfgId; omega] at this
  obtain ⟨g, c1, c2, c3, c4, c5⟩ := (Cfg.create_spec deps).1 hwf
  obtain ⟨t, t1, t2⟩ := Cfg.dominatorTree_spec c5
  have hnum : g.numNodes = po.nodes.length := by unfold Cfg.Cfg.numNodes; rw [c2]; simpa using b2
  refine ⟨⟨g, t, po.idx⟩, ?_, ⟨c5, t2, hnum, ?_, ?_⟩, rfl⟩
  · unfold Tree.build
    rw [b1]; dsimp only
    rw [c1]; dsimp only
    rw [t1]
  · intro i j hi hj
    dsimp only
    have hlt : toCfgId po.nodes.length i < po.nodes.length := by unfold toCfgId; omega
    obtain ⟨n, ix, k1, k2, k3, k4⟩ := hget _ hlt
    rw [show toCfgId po.nodes.length (toCfgId po.nodes.length i) = i by unfold toCfgId; omega] at k1
    have hj' : po.nodes[j]? = some po.nodes[j] := List.getElem?_eq_getElem hj
    have hm := mem_ids hnd k2 hj'
    unfold Cfg.Edge
    rw [c2, List.getElem?_map, k4]
    constructor
    · rintro ⟨ds, e1, e2⟩
      simp only [Option.map_some, Option.some.injEq] at e1
      subst e1
      refine ⟨n, _, k1, hj', hm.1 ?_⟩
      simp only [List.map_map, List.mem_map, Function.comp, Int.toNat_natCast] at e2
      obtain ⟨k, hk, e⟩ := e2
      rw [← e]
      exact List.mem_map.2 ⟨k, hk, rfl⟩
    · rintro ⟨m, d, e1, e2, e3⟩
      rw [k1] at e1; cases e1
      rw [hj'] at e2; cases e2
      refine ⟨_, rfl, ?_⟩
      exact List.mem_map.2 ⟨_, hm.2 e3, by simp⟩
  · intro j d hj
    have hjl := (List.getElem?_eq_some_iff.1 hj).1
    have hlt : toCfgId po.nodes.length j < deps.length := by rw [b2]; unfold toCfgId; omega
    refine ⟨_, c4 _ hlt, ?_⟩
    rw [revOf_single]
    have hinv : ∀ i, i < po.nodes.length → toCfgId po.nodes.length (toCfgId po.nodes.length i) = i := by
      intro i hi; unfold toCfgId; omega
    constructor
    · rintro ⟨u, ds, e1, e2, e3⟩
      have hul : u < po.nodes.length := by have := (List.getElem?_eq_some_iff.1 e1).1; omega
      obtain ⟨w, ix, k1, k2, k3, k4⟩ := hget u hul
      rw [k4] at e1; cases e1
      rw [count_ids hnd k2 hj] at e2
      refine ⟨w, (hsub w).1 (List.mem_of_getElem? k1), e2, ?_⟩
      intro m hm hdm
      obtain ⟨i, hi⟩ := List.getElem?_of_mem ((hsub m).2 hm)
      have hil := (List.getElem?_eq_some_iff.1 hi).1
      have hil' : toCfgId po.nodes.length i < po.nodes.length := by unfold toCfgId; omega
      obtain ⟨m', ix', q1, q2, q3, q4⟩ := hget _ hil'
      rw [hinv i hil, hi] at q1; cases q1
      have := e3 _ _ q4 ((mem_ids hnd q2 hj).2 hdm)
      have hii : i = toCfgId po.nodes.length u := by rw [← this, hinv i hil]
      rw [hii, k1] at hi; cases hi; rfl
    · rintro ⟨w, hw, e2, e3⟩
      obtain ⟨i, hi⟩ := List.getElem?_of_mem ((hsub w).2 hw)
      have hil := (List.getElem?_eq_some_iff.1 hi).1
      have hil' : toCfgId po.nodes.length i < po.nodes.length := by unfold toCfgId; omega
      obtain ⟨w', ix, q1, q2, q3, q4⟩ := hget _ hil'
      rw [hinv i hil, hi] at q1; cases q1
      refine ⟨_, _, q4, by rw [count_ids hnd q2 hj]; exact e2, ?_⟩
      intro u ds' r1 r2
      have hul : u < po.nodes.length := by have := (List.getElem?_eq_some_iff.1 r1).1; omega
      obtain ⟨m, ix', k1, k2, k3, k4⟩ := hget u hul
      rw [k4] at r1; cases r1
      have hdm := (mem_ids hnd k2 hj).1 r2
      have := e3 m ((hsub m).1 (List.mem_of_getElem? k1)) hdm
      subst this
      have a := List.getElem?_eq_some_iff.1 k1
      have b := List.getElem?_eq_some_iff.1 hi
      have := (List.Nodup.getElem_inj_iff hnd).1 (a.2.trans b.2.symm)
      rw [← this, hinv u hul]

/-! ## Dominance in the graph is dominance in the expression -/

theorem dom_iff {root : Expr O V A} {po : PostOrder O V A} {T : Tree O V A} (h : postOrder root = some po)
    (hb : Built root po T) {i j : Nat} {a n : Expr O V A} (hi : po.nodes[i]? = some a) (hj : po.nodes[j]? = some n) :
    Cfg.Dom T.g (toCfgId po.nodes.length i) (toCfgId po.nodes.length j) ↔ OnlyIn root a n := by
  obtain ⟨po', h', hnd, hsub, hlast, hdeps, hidx⟩ := post_order root
  rw [h] at h'; cases h'
  have hil := (List.getElem?_eq_some_iff.1 hi).1
  have hjl := (List.getElem?_eq_some_iff.1 hj).1
  have hlast' : po.nodes[po.nodes.length - 1]? = some root := by rw [← List.getLast?_eq_getElem?]; exact hlast
  have hpos : 0 < po.nodes.length := by omega
  have hinv : ∀ i, i < po.nodes.length → toCfgId po.nodes.length (toCfgId po.nodes.length i) = i := by
    intro i hi; unfold toCfgId; omega
  -- the node of an id
  have huniq : ∀ (x y : Nat) m, po.nodes[x]? = some m → po.nodes[y]? = some m → x = y := by
    intro x y m hx hy
    have a := List.getElem?_eq_some_iff.1 hx
    have b := List.getElem?_eq_some_iff.1 hy
    exact (List.Nodup.getElem_inj_iff hnd).1 (a.2.trans b.2.symm)
  have up : ∀ m l, Walk root m l → ∃ x l', po.nodes[x]? = some m ∧ Cfg.Path T.g (toCfgId po.nodes.length x) l' ∧
      ∀ y, y ∈ l' → ∃ z q, y = toCfgId po.nodes.length z ∧ po.nodes[z]? = some q ∧ q ∈ l := by
    intro m l hw
    induction hw with
    | root =>
      refine ⟨po.nodes.length - 1, [0], hlast', ?_, ?_⟩
      · rw [show toCfgId po.nodes.length (po.nodes.length - 1) = 0 by unfold toCfgId; omega]; exact .start
      · intro y hy
        rw [List.mem_singleton] at hy; subst hy
        exact ⟨po.nodes.length - 1, root, by unfold toCfgId; omega, hlast', by simp⟩
    | @step m d l _ hd ih =>
      obtain ⟨x, l', hx, hp, hl⟩ := ih
      have hdn : d ∈ po.nodes := (hsub d).2 (sub_dep ((hsub m).1 (List.mem_of_getElem? hx)) hd)
      obtain ⟨z, hz⟩ := List.getElem?_of_mem hdn
      have hxl := (List.getElem?_eq_some_iff.1 hx).1
      have hzl := (List.getElem?_eq_some_iff.1 hz).1
      refine ⟨z, _, hz, .step hp ((hb.edge x z hxl hzl).2 ⟨m, d, hx, hz, hd⟩), ?_⟩
      intro y hy
      rcases List.mem_cons.1 hy with rfl | hy
      · exact ⟨z, d, rfl, hz, by simp⟩
      · obtain ⟨z', q, e1, e2, e3⟩ := hl y hy
        exact ⟨z', q, e1, e2, by simp [e3]⟩
  have down : ∀ v l', Cfg.Path T.g v l' → ∃ x m l, v = toCfgId po.nodes.length x ∧ po.nodes[x]? = some m ∧ Walk root m l ∧
      ∀ q, q ∈ l → ∃ z, po.nodes[z]? = some q ∧ toCfgId po.nodes.length z ∈ l' := by
    intro v l' hp
    induction hp with
    | start =>
      refine ⟨po.nodes.length - 1, root, [root], by unfold toCfgId; omega, hlast', .root, ?_⟩
      intro q hq
      rw [List.mem_singleton] at hq; subst hq
      refine ⟨po.nodes.length - 1, hlast', ?_⟩
      rw [show toCfgId po.nodes.length (po.nodes.length - 1) = 0 by unfold toCfgId; omega]; simp
    | @step u v l' _ he ih =>
      obtain ⟨x, m, l, rfl, hx, hw, hl⟩ := ih
      have hv := (hb.ok.lt _ _ he).2
      rw [hb.num] at hv
      have hvl : toCfgId po.nodes.length v < po.nodes.length := by unfold toCfgId; omega
      rw [← hinv v hv] at he
      have hxl := (List.getElem?_eq_some_iff.1 hx).1
      obtain ⟨m', d, e1, e2, e3⟩ := (hb.edge x _ hxl hvl).1 he
      rw [hx] at e1; cases e1
      refine ⟨toCfgId po.nodes.length v, d, d :: l, (hinv v hv).symm, e2, .step hw e3, ?_⟩
      intro q hq
      rcases List.mem_cons.1 hq with rfl | hq
      · exact ⟨_, e2, by rw [hinv v hv]; simp⟩
      · obtain ⟨z, z1, z2⟩ := hl q hq
        exact ⟨z, z1, by simp [z2]⟩
  constructor
  · intro hd l hw
    obtain ⟨x, l', hx, hp, hl⟩ := up n l hw
    have := huniq x j n hx hj; subst this
    obtain ⟨z, q, e1, e2, e3⟩ := hl _ (hd l' hp)
    have hzl := (List.getElem?_eq_some_iff.1 e2).1
    have : z = i := by rw [← hinv z hzl, ← e1, hinv i hil]
    subst this
    rw [hi] at e2; cases e2; exact e3
  · intro hd l' hp
    obtain ⟨x, m, l, hx, hm, hw, hl⟩ := down _ l' hp
    have hxl := (List.getElem?_eq_some_iff.1 hm).1
    have : x = j := by rw [← hinv x hxl, ← hx, hinv j hjl]
    subst this
    rw [hj] at hm; cases hm
    obtain ⟨z, z1, z2⟩ := hl _ (hd l hw)
    have := huniq z i a z1 hi; subst this
    exact z2

end Verif.Where
