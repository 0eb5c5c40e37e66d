import Verif.Startup.StartupSpec

/-!
# Building the digraph and executing it
-/

namespace Verif.Startup
open Relation

/-! ## Building the digraph -/

theorem getNode_spec (g : Graph) (name : String) :
    (getNode g name).1.init = g.init ∧ (getNode g name).1.deps = g.deps ∧
    g.keys ⊆ (getNode g name).1.keys ∧ (getNode g name).2 ∈ (getNode g name).1.keys ∧
    (name ≠ "" → (getNode g name).2 = .named name ∧ (getNode g name).1.anons = g.anons) ∧
    (name = "" → (getNode g name).2 = .anon g.anons ∧ (getNode g name).1.anons = g.anons + 1) := by
  unfold getNode
  by_cases h : name = ""
  · simp [h]
  · by_cases h2 : Key.named name ∈ g.keys
    · simp [h, h2]
    · simp [h, h2]

theorem depsLoop_spec (completed : List String) (k : Key) : ∀ (ds : List String) (g : Graph),
    let g' := depsLoop completed k ds g
    g'.init = g.init ∧ g.anons ≤ g'.anons ∧ g.keys ⊆ g'.keys ∧
    (∀ q d, d ∈ g'.deps q ↔ d ∈ g.deps q ∨ (q = k ∧
      ((∃ n ∈ ds, n ∉ completed ∧ n ≠ "" ∧ d = .named n) ∨
        (∃ a, d = .anon a ∧ g.anons ≤ a ∧ a < g'.anons)))) ∧
    (∀ q, ∀ d ∈ g'.deps q, d ∈ g.deps q ∨ d ∈ g'.keys) ∧
    (g.anons < g'.anons ↔ "" ∈ ds ∧ "" ∉ completed) := by
  intro ds
  induction ds with
  | nil =>
    intro g
    refine ⟨rfl, Nat.le_refl _, List.Subset.refl _, ?_, ?_, by simp [depsLoop]⟩
    · intro q d
      simp only [depsLoop, List.not_mem_nil, false_and, exists_false, false_or]
      constructor
      · exact Or.inl
      · rintro (h | ⟨_, a, _, h1, h2⟩)
        · exact h
        · omega
    · intro q d hd; exact Or.inl hd
  | cons n ds ih =>
    intro g
    simp only [depsLoop]
    by_cases hc : n ∈ completed
    · rw [if_pos hc]
      obtain ⟨h1, h2, h3, h4, h5, h6⟩ := ih g
      refine ⟨h1, h2, h3, ?_, h5, ?_⟩
      · intro q d
        rw [h4]
        simp only [List.mem_cons, exists_eq_or_imp, hc, not_true_eq_false, false_and, false_or]
      · rw [h6]
        constructor
        · rintro ⟨a, b⟩; exact ⟨List.mem_cons_of_mem _ a, b⟩
        · rintro ⟨a, b⟩
          refine ⟨?_, b⟩
          rcases List.mem_cons.1 a with rfl | a
          · exact absurd hc b
          · exact a
    · rw [if_neg hc]
      obtain ⟨g1, g2, g3, g4, g5, g6⟩ := getNode_spec g n
      generalize hgn : getNode g n = r at g1 g2 g3 g4 g5 g6
      obtain ⟨gn, nk⟩ := r
      dsimp only at g1 g2 g3 g4 g5 g6 ⊢
      obtain ⟨h1, h2, h3, h4, h5, h6⟩ := ih (addDep gn k nk)
      have hdep : ∀ q d, d ∈ (addDep gn k nk).deps q ↔ d ∈ g.deps q ∨ (q = k ∧ d = nk) := by
        intro q d
        simp only [addDep, g2]
        split
        · rename_i h; simp [h]
        · rename_i h; simp [h]
      refine ⟨h1.trans g1, ?_, ?_, ?_, ?_, ?_⟩
      · have : gn.anons ≤ (depsLoop completed k ds (addDep gn k nk)).anons := h2
        by_cases hn : n = ""
        · have := (g6 hn).2; omega
        · have := (g5 hn).2; omega
      · exact fun y hy => h3 (g3 hy)
      · intro q d
        rw [h4, hdep]
        have ha : (addDep gn k nk).anons = gn.anons := rfl
        rw [ha] at h2 ⊢
        by_cases hn : n = ""
        · obtain ⟨e1, e2⟩ := g6 hn
          constructor
          · rintro ((h | ⟨h, h'⟩) | ⟨h, h' | ⟨a, h', hl, hu⟩⟩)
            · exact Or.inl h
            · exact Or.inr ⟨h, Or.inr ⟨g.anons, h'.trans e1, Nat.le_refl _, by omega⟩⟩
            · obtain ⟨m, hm, hm'⟩ := h'
              exact Or.inr ⟨h, Or.inl ⟨m, List.mem_cons_of_mem _ hm, hm'⟩⟩
            · exact Or.inr ⟨h, Or.inr ⟨a, h', by omega, hu⟩⟩
          · rintro (h | ⟨h, ⟨m, hm, hm1, hm2, hm3⟩ | ⟨a, h', hl, hu⟩⟩)
            · exact Or.inl (Or.inl h)
            · rcases List.mem_cons.1 hm with rfl | hm
              · exact absurd hn hm2
              · exact Or.inr ⟨h, Or.inl ⟨m, hm, hm1, hm2, hm3⟩⟩
            · by_cases hag : a = g.anons
              · exact Or.inl (Or.inr ⟨h, by rw [h', e1, hag]⟩)
              · exact Or.inr ⟨h, Or.inr ⟨a, h', by omega, hu⟩⟩
        · obtain ⟨e1, e2⟩ := g5 hn
          rw [e2]
          constructor
          · rintro ((h | ⟨h, h'⟩) | ⟨h, h' | h'⟩)
            · exact Or.inl h
            · exact Or.inr ⟨h, Or.inl ⟨n, by simp, hc, hn, h'.trans e1⟩⟩
            · obtain ⟨m, hm, hm'⟩ := h'
              exact Or.inr ⟨h, Or.inl ⟨m, List.mem_cons_of_mem _ hm, hm'⟩⟩
            · exact Or.inr ⟨h, Or.inr h'⟩
          · rintro (h | ⟨h, ⟨m, hm, hm1, hm2, hm3⟩ | h'⟩)
            · exact Or.inl (Or.inl h)
            · rcases List.mem_cons.1 hm with rfl | hm
              · exact Or.inl (Or.inr ⟨h, hm3.trans e1.symm⟩)
              · exact Or.inr ⟨h, Or.inl ⟨m, hm, hm1, hm2, hm3⟩⟩
            · exact Or.inr ⟨h, Or.inr h'⟩
      · intro q d hd
        rcases h5 q d hd with h | h
        · rcases (hdep q d).1 h with h | ⟨_, rfl⟩
          · exact Or.inl h
          · exact Or.inr (h3 g4)
        · exact Or.inr h
      · have ha : (addDep gn k nk).anons = gn.anons := rfl
        rw [ha] at h2 h6
        by_cases hn : n = ""
        · obtain ⟨e1, e2⟩ := g6 hn
          subst hn
          exact ⟨fun _ => ⟨by simp, hc⟩, fun _ => by omega⟩
        · obtain ⟨e1, e2⟩ := g5 hn
          rw [← e2, h6]
          simp [Ne.symm hn]

theorem rdepsLoop_spec (completed : List String) (i : Nat) (k : Key) : ∀ (rs : List String) (g : Graph),
    match rdepsLoop completed i k rs g with
    | .error e => ∃ r ∈ rs, r ∈ completed ∧ e = .reverseCompleted i r
    | .ok g' => (∀ r ∈ rs, r ∉ completed) ∧ g'.init = g.init ∧ g.anons ≤ g'.anons ∧ g.keys ⊆ g'.keys ∧
      (∀ q d, d ∈ g'.deps q ↔ d ∈ g.deps q ∨ (d = k ∧
        ((∃ r ∈ rs, r ≠ "" ∧ q = .named r) ∨ (∃ a, q = .anon a ∧ g.anons ≤ a ∧ a < g'.anons)))) := by
  intro rs
  induction rs with
  | nil =>
    intro g
    refine ⟨by simp, rfl, Nat.le_refl _, List.Subset.refl _, ?_⟩
    intro q d
    simp only [List.not_mem_nil, false_and, exists_false, false_or]
    constructor
    · exact Or.inl
    · rintro (h | ⟨_, a, _, h1, h2⟩)
      · exact h
      · omega
  | cons r rs ih =>
    intro g
    simp only [rdepsLoop]
    by_cases hc : r ∈ completed
    · rw [if_pos hc]
      exact ⟨r, by simp, hc, rfl⟩
    · rw [if_neg hc]
      obtain ⟨g1, g2, g3, g4, g5, g6⟩ := getNode_spec g r
      generalize hgn : getNode g r = p at g1 g2 g3 g4 g5 g6
      obtain ⟨gn, nk⟩ := p
      dsimp only at g1 g2 g3 g4 g5 g6 ⊢
      have hdep : ∀ q d, d ∈ (addDep gn nk k).deps q ↔ d ∈ g.deps q ∨ (q = nk ∧ d = k) := by
        intro q d
        simp only [addDep, g2]
        split
        · rename_i h; simp [h]
        · rename_i h; simp [h]
      have key := ih (addDep gn nk k)
      revert key
      cases rdepsLoop completed i k rs (addDep gn nk k) with
      | error e =>
        rintro ⟨r', h1, h2⟩
        exact ⟨r', List.mem_cons_of_mem _ h1, h2⟩
      | ok g' =>
        rintro ⟨h0, h1, h2, h3, h4⟩
        have ha : (addDep gn nk k).anons = gn.anons := rfl
        rw [ha] at h2 h4
        refine ⟨?_, h1.trans g1, ?_, fun y hy => h3 (g3 hy), ?_⟩
        · intro r' hr'
          rcases List.mem_cons.1 hr' with rfl | hr'
          · exact hc
          · exact h0 r' hr'
        · by_cases hn : r = ""
          · have := (g6 hn).2; omega
          · have := (g5 hn).2; omega
        · intro q d
          rw [h4, hdep]
          by_cases hn : r = ""
          · obtain ⟨e1, e2⟩ := g6 hn
            constructor
            · rintro ((h | ⟨h, h'⟩) | ⟨h, h' | ⟨a, h', hl, hu⟩⟩)
              · exact Or.inl h
              · exact Or.inr ⟨h', Or.inr ⟨g.anons, h.trans e1, Nat.le_refl _, by omega⟩⟩
              · obtain ⟨m, hm, hm'⟩ := h'
                exact Or.inr ⟨h, Or.inl ⟨m, List.mem_cons_of_mem _ hm, hm'⟩⟩
              · exact Or.inr ⟨h, Or.inr ⟨a, h', by omega, hu⟩⟩
            · rintro (h | ⟨h, ⟨m, hm, hm2, hm3⟩ | ⟨a, h', hl, hu⟩⟩)
              · exact Or.inl (Or.inl h)
              · rcases List.mem_cons.1 hm with rfl | hm
                · exact absurd hn hm2
                · exact Or.inr ⟨h, Or.inl ⟨m, hm, hm2, hm3⟩⟩
              · by_cases hag : a = g.anons
                · exact Or.inl (Or.inr ⟨by rw [h', e1, hag], h⟩)
                · exact Or.inr ⟨h, Or.inr ⟨a, h', by omega, hu⟩⟩
          · obtain ⟨e1, e2⟩ := g5 hn
            rw [e2]
            constructor
            · rintro ((h | ⟨h, h'⟩) | ⟨h, h' | h'⟩)
              · exact Or.inl h
              · exact Or.inr ⟨h', Or.inl ⟨r, by simp, hn, h.trans e1⟩⟩
              · obtain ⟨m, hm, hm'⟩ := h'
                exact Or.inr ⟨h, Or.inl ⟨m, List.mem_cons_of_mem _ hm, hm'⟩⟩
              · exact Or.inr ⟨h, Or.inr h'⟩
            · rintro (h | ⟨h, ⟨m, hm, hm2, hm3⟩ | h'⟩)
              · exact Or.inl (Or.inl h)
              · rcases List.mem_cons.1 hm with rfl | hm
                · exact Or.inl (Or.inr ⟨hm3.trans e1.symm, h⟩)
                · exact Or.inr ⟨h, Or.inl ⟨m, hm, hm2, hm3⟩⟩
              · exact Or.inr ⟨h, Or.inr h'⟩

/-- The digraph of the initializers processed so far. -/
structure GInv (completed : List String) (inits : List Init) (ks : List Key) (g : Graph) : Prop where
  len : ks.length = inits.length
  key : ∀ (j : Nat) (x : Init) (k : Key), inits[j]? = some x → ks[j]? = some k →
    (x.name ≠ "" → k = .named x.name) ∧ (x.name = "" → ∃ a, k = .anon a ∧ a < g.anons)
  init : ∀ (k : Key) (j : Nat), g.init k = some j ↔ ks[j]? = some k
  fresh : ∀ a, g.anons ≤ a → g.init (.anon a) = none ∧ g.deps (.anon a) = [] ∧
    ∀ k, Key.anon a ∉ g.deps k
  inKeys : (∀ k ∈ ks, k ∈ g.keys) ∧ ∀ k, ∀ d ∈ g.deps k, d ∈ g.keys
  sound : ∀ k d, d ∈ g.deps k →
    (∃ (j : Nat) (x : Init), inits[j]? = some x ∧ ks[j]? = some k ∧
      ((∃ n ∈ x.deps, n ∉ completed ∧ n ≠ "" ∧ d = .named n) ∨
        ("" ∈ x.deps ∧ ∃ a, d = .anon a ∧ g.init d = none ∧ g.deps d = []))) ∨
    (∃ (j : Nat) (x : Init), inits[j]? = some x ∧ ks[j]? = some d ∧
      ((∃ r ∈ x.rdeps, r ≠ "" ∧ k = .named r) ∨ (∃ a, k = .anon a ∧ g.init k = none)))
  complete : ∀ (j : Nat) (x : Init) (k : Key), inits[j]? = some x → ks[j]? = some k →
    (∀ n ∈ x.deps, n ∉ completed → n ≠ "" → Key.named n ∈ g.deps k) ∧
    ("" ∈ x.deps → ∃ a, Key.anon a ∈ g.deps k ∧ g.init (.anon a) = none) ∧
    (∀ r ∈ x.rdeps, r ∉ completed ∧ (r ≠ "" → k ∈ g.deps (.named r)))
  names : ∀ x ∈ inits, isPhony x.name = false ∧ x.name ∉ completed

theorem ginv_empty (completed : List String) : GInv completed [] [] Graph.empty := by
  refine ⟨rfl, by simp, by simp [Graph.empty], by simp [Graph.empty], by simp [Graph.empty],
    by simp [Graph.empty], by simp, by simp⟩

theorem initNode_spec {completed : List String} (hc : "" ∉ completed) {pre : List Init} {ks : List Key}
    {g : Graph} (h : GInv completed pre ks g) (x : Init) :
    match initNode completed g pre.length x with
    | .error e => (isPhony x.name = true ∨ x.name ∈ completed ∨ (x.name ≠ "" ∧ ∃ y ∈ pre, y.name = x.name) ∨
        ∃ r ∈ x.rdeps, r ∈ completed) ∧ ∀ i, e ≠ .initFailed i
    | .ok (g', k) => GInv completed (pre ++ [x]) (ks ++ [k]) g' := by
  unfold initNode
  by_cases hp : isPhony x.name = true
  · rw [if_pos hp]
    exact ⟨Or.inl hp, by simp⟩
  rw [if_neg hp]
  obtain ⟨g1, g2, g3, g4, g5, g6⟩ := getNode_spec g x.name
  generalize hgn : getNode g x.name = p at g1 g2 g3 g4 g5 g6
  obtain ⟨gn, k⟩ := p
  dsimp only at g1 g2 g3 g4 g5 g6 ⊢
  by_cases hcol : gn.init k ≠ none ∨ x.name ∈ completed
  · rw [if_pos hcol]
    refine ⟨?_, by simp⟩
    rcases hcol with hcol | hcol
    · right; right; left
      rw [g1] at hcol
      obtain ⟨j, hj⟩ := Option.ne_none_iff_exists'.1 hcol
      have hkj := (h.init k j).1 hj
      have hjl : j < ks.length := (List.getElem?_eq_some_iff.1 hkj).1
      by_cases hn : x.name = ""
      · rw [(g6 hn).1] at hj
        rw [(h.fresh g.anons (Nat.le_refl _)).1] at hj
        simp at hj
      · refine ⟨hn, ?_⟩
        obtain ⟨y, hy⟩ : ∃ y, pre[j]? = some y := ⟨pre[j]'(by rw [← h.len]; exact hjl), List.getElem?_eq_getElem _⟩
        have hk := h.key j y k hy hkj
        refine ⟨y, List.mem_of_getElem? hy, ?_⟩
        rw [(g5 hn).1] at hk
        by_cases hyn : y.name = ""
        · obtain ⟨a, ha, _⟩ := hk.2 hyn
          simp at ha
        · have := hk.1 hyn
          simpa using this.symm
    · exact Or.inr (Or.inl hcol)
  rw [if_neg hcol]
  push Not at hcol
  obtain ⟨hk0, hxc⟩ := hcol
  rw [g1] at hk0
  -- the digraph with the initializer set
  obtain ⟨ga, hga⟩ : ∃ ga : Graph, ga = { gn with init := fun q => if q = k then some pre.length else gn.init q } := ⟨_, rfl⟩
  have hgai : ga.init = fun q => if q = k then some pre.length else g.init q := by rw [hga, g1]
  have hgad : ga.deps = g.deps := by rw [hga]; exact g2
  have hgaa : ga.anons = gn.anons := by rw [hga]
  have hgak : ga.keys = gn.keys := by rw [hga]
  rw [← hga]
  obtain ⟨d1, d2, d3, d4, d5, d6⟩ := depsLoop_spec completed k x.deps ga
  generalize depsLoop completed k x.deps ga = gb at d1 d2 d3 d4 d5 d6 ⊢
  have r := rdepsLoop_spec completed pre.length k x.rdeps gb
  revert r
  cases rdepsLoop completed pre.length k x.rdeps gb with
  | error e =>
    rintro ⟨r, h1, h2, h3⟩
    exact ⟨Or.inr (Or.inr (Or.inr ⟨r, h1, h2⟩)), by simp [h3]⟩
  | ok gc =>
    rintro ⟨r0, r1, r2, r3, r4⟩
    show GInv completed (pre ++ [x]) (ks ++ [k]) gc
    have hci : gc.init = fun q => if q = k then some pre.length else g.init q := by rw [r1, d1, hgai]
    have hmem : ∀ q d, d ∈ gc.deps q ↔ d ∈ g.deps q ∨
        (q = k ∧ ((∃ n ∈ x.deps, n ∉ completed ∧ n ≠ "" ∧ d = .named n) ∨
          (∃ a, d = .anon a ∧ gn.anons ≤ a ∧ a < gb.anons))) ∨
        (d = k ∧ ((∃ r ∈ x.rdeps, r ≠ "" ∧ q = .named r) ∨
          (∃ a, q = .anon a ∧ gb.anons ≤ a ∧ a < gc.anons))) := by
      intro q d
      rw [r4, d4, hgad, hgaa, or_assoc]
    have ha01 : g.anons ≤ gn.anons := by
      by_cases hn : x.name = ""
      · have := (g6 hn).2; omega
      · have := (g5 hn).2; omega
    rw [hgaa] at d2 d6
    have hkanon : ∀ a, gn.anons ≤ a → Key.anon a ≠ k := by
      intro a hal he
      by_cases hn : x.name = ""
      · rw [(g6 hn).1] at he
        have := (g6 hn).2
        have : a = g.anons := by simpa using he
        omega
      · rw [(g5 hn).1] at he; simp at he
    have hkl : k ∉ ks := by
      intro hm
      obtain ⟨j, hj⟩ := List.mem_iff_getElem?.1 hm
      rw [(h.init k j).2 hj] at hk0
      simp at hk0
    have hiks : ∀ (j : Nat) q, ks[j]? = some q → (ks ++ [k])[j]? = some q := by
      intro j q hj
      rw [List.getElem?_append_left (List.getElem?_eq_some_iff.1 hj).1]; exact hj
    have hipre : ∀ (j : Nat) y, pre[j]? = some y → (pre ++ [x])[j]? = some y := by
      intro j q hj
      rw [List.getElem?_append_left (List.getElem?_eq_some_iff.1 hj).1]; exact hj
    have hlast : (pre ++ [x])[pre.length]? = some x := by simp
    have hlastk : (ks ++ [k])[pre.length]? = some k := by rw [← h.len]; simp
    have hsplit : ∀ (j : Nat) y q, (pre ++ [x])[j]? = some y → (ks ++ [k])[j]? = some q →
        (pre[j]? = some y ∧ ks[j]? = some q) ∨ (j = pre.length ∧ y = x ∧ q = k) := by
      intro j y q hy hq
      by_cases hj : j < pre.length
      · left
        rw [List.getElem?_append_left hj] at hy
        rw [List.getElem?_append_left (by rw [h.len]; exact hj)] at hq
        exact ⟨hy, hq⟩
      · right
        have hj' : j = pre.length := by
          have := (List.getElem?_eq_some_iff.1 hy).1
          simp at this; omega
        subst hj'
        rw [hlast] at hy
        rw [hlastk] at hq
        simp only [Option.some.injEq] at hy hq
        exact ⟨rfl, hy.symm, hq.symm⟩
    -- anonymous nodes of the digraph so far stay without initializer
    have hanon : ∀ a, g.init (.anon a) = none → Key.anon a ≠ k → gc.init (.anon a) = none := by
      intro a h1 h2
      rw [hci]; simp [h2, h1]
    refine ⟨by simp [h.len], ?_, ?_, ?_, ?_, ?_, ?_, ?_⟩
    · intro j y q hy hq
      rcases hsplit j y q hy hq with ⟨h1, h2⟩ | ⟨_, rfl, rfl⟩
      · have := h.key j y q h1 h2
        exact ⟨this.1, fun hn => by obtain ⟨a, e1, e2⟩ := this.2 hn; exact ⟨a, e1, by omega⟩⟩
      · refine ⟨fun hn => (g5 hn).1, fun hn => ⟨g.anons, (g6 hn).1, ?_⟩⟩
        have := (g6 hn).2; omega
    · intro q j
      rw [hci]
      beta_reduce
      by_cases hq : q = k
      · subst hq
        rw [if_pos rfl]
        constructor
        · intro he
          have : pre.length = j := by simpa using he
          rw [← this]; exact hlastk
        · intro hj
          by_cases hjl : j < ks.length
          · rw [List.getElem?_append_left hjl] at hj
            exact absurd (List.mem_of_getElem? hj) hkl
          · have := (List.getElem?_eq_some_iff.1 hj).1
            simp at this
            have hl := h.len
            congr 1; omega
      · rw [if_neg hq, h.init]
        constructor
        · exact hiks j q
        · intro hj
          by_cases hjl : j < ks.length
          · rw [List.getElem?_append_left hjl] at hj; exact hj
          · have := (List.getElem?_eq_some_iff.1 hj).1
            simp at this
            have hje : j = ks.length := by omega
            subst hje
            simp at hj
            exact absurd hj.symm hq
    · intro a hal
      have hf := h.fresh a (by omega)
      refine ⟨hanon a hf.1 (hkanon a (by omega)), ?_, ?_⟩
      · apply List.eq_nil_iff_forall_not_mem.2
        intro d hd
        rw [hmem] at hd
        rcases hd with hd | ⟨hd, _⟩ | ⟨_, ⟨r, _, _, hd⟩ | ⟨b, hd, _, hb⟩⟩
        · rw [hf.2.1] at hd; simp at hd
        · exact hkanon a (by omega) hd
        · simp at hd
        · have : a = b := by simpa using hd
          omega
      · intro q hd
        rw [hmem] at hd
        rcases hd with hd | ⟨_, ⟨n, _, _, _, hd⟩ | ⟨b, hd, _, hb⟩⟩ | ⟨hd, _⟩
        · exact hf.2.2 q hd
        · simp at hd
        · have : a = b := by simpa using hd
          omega
        · exact hkanon a (by omega) hd
    · have hkin : k ∈ gb.keys := d3 (by rw [hgak]; exact g4)
      constructor
      · intro q hq
        rcases List.mem_append.1 hq with hq | hq
        · exact r3 (d3 (by rw [hgak]; exact g3 (h.inKeys.1 q hq)))
        · have : q = k := by simpa using hq
          subst this
          exact r3 hkin
      · intro q d hd
        rcases (r4 q d).1 hd with hd | ⟨hd, _⟩
        · rcases d5 q d hd with hd | hd
          · rw [hgad] at hd
            exact r3 (d3 (by rw [hgak]; exact g3 (h.inKeys.2 q d hd)))
          · exact r3 hd
        · rw [hd]; exact r3 hkin
    · intro q d hd
      rcases (hmem q d).1 hd with hd | ⟨hq, hd⟩ | ⟨hd, hq⟩
      · rcases h.sound q d hd with ⟨j, y, h1, h2, h3⟩ | ⟨j, y, h1, h2, h3⟩
        · left
          refine ⟨j, y, hipre j y h1, hiks j q h2, ?_⟩
          rcases h3 with h3 | ⟨h3, a, h4, h5, h6⟩
          · exact Or.inl h3
          · refine Or.inr ⟨h3, a, h4, ?_, ?_⟩
            · subst h4
              refine hanon a h5 ?_
              intro he
              by_cases hn : x.name = ""
              · have e := (g6 hn).1
                rw [e] at he
                have : a = g.anons := by simpa using he
                subst this
                exact (h.fresh g.anons (Nat.le_refl _)).2.2 q hd
              · have e := (g5 hn).1
                rw [e] at he; simp at he
            · subst h4
              apply List.eq_nil_iff_forall_not_mem.2
              intro d' hd'
              have hlt : a < g.anons := by
                by_contra hge
                exact (h.fresh a (by omega)).2.2 q hd
              rcases (hmem _ _).1 hd' with hd' | ⟨hd', _⟩ | ⟨_, ⟨r, _, _, hd'⟩ | ⟨b, hd', hb, _⟩⟩
              · rw [h6] at hd'; simp at hd'
              · by_cases hn : x.name = ""
                · rw [(g6 hn).1] at hd'
                  have : a = g.anons := by simpa using hd'
                  omega
                · rw [(g5 hn).1] at hd'; simp at hd'
              · simp at hd'
              · have : a = b := by simpa using hd'
                omega
        · right
          refine ⟨j, y, hipre j y h1, hiks j d h2, ?_⟩
          rcases h3 with h3 | ⟨a, h4, h5⟩
          · exact Or.inl h3
          · refine Or.inr ⟨a, h4, ?_⟩
            subst h4
            refine hanon a h5 ?_
            intro he
            by_cases hn : x.name = ""
            · rw [(g6 hn).1] at he
              have : a = g.anons := by simpa using he
              subst this
              rw [(h.fresh g.anons (Nat.le_refl _)).2.1] at hd
              simp at hd
            · rw [(g5 hn).1] at he; simp at he
      · left
        refine ⟨pre.length, x, hlast, by rw [hq]; exact hlastk, ?_⟩
        rcases hd with hd | ⟨a, hd, hal, hau⟩
        · exact Or.inl hd
        · right
          refine ⟨(d6.1 (by omega)).1, a, hd, ?_, ?_⟩
          · rw [hd]
            exact hanon a (h.fresh a (by omega)).1 (hkanon a hal)
          · rw [hd]
            apply List.eq_nil_iff_forall_not_mem.2
            intro d' hd'
            rcases (hmem _ _).1 hd' with hd' | ⟨hd', _⟩ | ⟨_, ⟨r, _, _, hd'⟩ | ⟨b, hd', hb, _⟩⟩
            · rw [(h.fresh a (by omega)).2.1] at hd'; simp at hd'
            · exact hkanon a hal hd'
            · simp at hd'
            · have : a = b := by simpa using hd'
              omega
      · right
        refine ⟨pre.length, x, hlast, by rw [hd]; exact hlastk, ?_⟩
        rcases hq with hq | ⟨a, hq, hal, _⟩
        · exact Or.inl hq
        · exact Or.inr ⟨a, hq, by rw [hq]; exact hanon a (h.fresh a (by omega)).1 (hkanon a (by omega))⟩
    · intro j y q hy hq
      rcases hsplit j y q hy hq with ⟨h1, h2⟩ | ⟨_, rfl, rfl⟩
      · obtain ⟨c1, c2, c3⟩ := h.complete j y q h1 h2
        refine ⟨fun n hn hn1 hn2 => (hmem _ _).2 (Or.inl (c1 n hn hn1 hn2)), ?_, ?_⟩
        · intro he
          obtain ⟨a, e1, e2⟩ := c2 he
          refine ⟨a, (hmem _ _).2 (Or.inl e1), hanon a e2 ?_⟩
          intro hk
          by_cases hn : x.name = ""
          · rw [(g6 hn).1] at hk
            have : a = g.anons := by simpa using hk
            subst this
            exact (h.fresh g.anons (Nat.le_refl _)).2.2 q e1
          · rw [(g5 hn).1] at hk; simp at hk
        · intro r hr
          exact ⟨(c3 r hr).1, fun hn => (hmem _ _).2 (Or.inl ((c3 r hr).2 hn))⟩
      · refine ⟨fun n hn hn1 hn2 => (hmem _ _).2 (Or.inr (Or.inl ⟨rfl, Or.inl ⟨n, hn, hn1, hn2, rfl⟩⟩)), ?_, ?_⟩
        · intro he
          have hlt := d6.2 ⟨he, hc⟩
          exact ⟨gn.anons, (hmem _ _).2 (Or.inr (Or.inl ⟨rfl, Or.inr ⟨gn.anons, rfl, Nat.le_refl _, hlt⟩⟩)),
            hanon _ (h.fresh _ ha01).1 (hkanon _ (Nat.le_refl _))⟩
        · intro r hr
          exact ⟨r0 r hr, fun hn => (hmem _ _).2 (Or.inr (Or.inr ⟨rfl, Or.inl ⟨r, hr, hn, rfl⟩⟩))⟩
    · intro y hy
      rcases List.mem_append.1 hy with hy | hy
      · exact h.names y hy
      · have : y = x := by simpa using hy
        subst this
        exact ⟨by simpa using hp, hxc⟩

theorem initNodes_spec {completed : List String} (hc : "" ∉ completed) : ∀ (xs pre : List Init)
    (ks : List Key) (g : Graph), GInv completed pre ks g →
    match initNodes completed pre.length xs g with
    | .error e => ¬ Acceptable completed (pre ++ xs) ∧ ∀ i, e ≠ .initFailed i
    | .ok (g', ks') => GInv completed (pre ++ xs) (ks ++ ks') g' := by
  intro xs
  induction xs with
  | nil => intro pre ks g h; simpa [initNodes] using h
  | cons x xs ih =>
    intro pre ks g h
    rw [initNodes]
    have h1 := initNode_spec hc h x
    revert h1
    cases he : initNode completed g pre.length x with
    | error e =>
      rintro ⟨h1, h1'⟩
      refine ⟨?_, h1'⟩
      intro hacc
      have hx : x ∈ pre ++ x :: xs := by simp
      rcases h1 with h1 | h1 | ⟨h1, y, hy, hyn⟩ | ⟨r, hr, hrc⟩
      · have := hacc.notPhony x hx
        rw [h1] at this; simp at this
      · exact hacc.isNew x hx h1
      · obtain ⟨j, hj⟩ := List.mem_iff_getElem?.1 hy
        have hjl := (List.getElem?_eq_some_iff.1 hj).1
        have := hacc.unique j pre.length y x (by rw [List.getElem?_append_left hjl]; exact hj)
          (by simp) hyn (by rw [hyn]; exact h1)
        omega
      · exact hacc.reverse x hx r hr hrc
    | ok p =>
      obtain ⟨g', k⟩ := p
      intro h1
      have h2 := ih (pre ++ [x]) (ks ++ [k]) g' h1
      rw [List.length_append, List.length_singleton] at h2
      simp only [bind, Except.bind]
      revert h2
      cases initNodes completed (pre.length + 1) xs g' with
      | error e => simp
      | ok p2 =>
        obtain ⟨g2, ks2⟩ := p2
        simp

end Verif.Startup
