import Verif.Startup.ExecLemmas

/-!
# C75: initializers run once and in dependency order
-/

namespace Verif.Startup
open Relation

section Bridge
variable {completed : List String} {inits : List Init} {ks : List Key} {g : Graph}

theorem GInv.inj (h : GInv completed inits ks g) : ∀ k k' i, g.init k = some i → g.init k' = some i → k = k' := by
  intro k k' i h1 h2
  rw [h.init] at h1 h2
  rw [h1] at h2
  simpa using h2

theorem GInv.getInit (h : GInv completed inits ks g) {k : Key} {i : Nat} (hk : g.init k = some i) :
    ∃ x, inits[i]? = some x ∧ ks[i]? = some k := by
  rw [h.init] at hk
  have hl := (List.getElem?_eq_some_iff.1 hk).1
  exact ⟨inits[i]'(by rw [← h.len]; exact hl), List.getElem?_eq_getElem _, hk⟩

theorem GInv.getKey (h : GInv completed inits ks g) {i : Nat} {x : Init} (hx : inits[i]? = some x) :
    ∃ k, ks[i]? = some k ∧ g.init k = some i := by
  have hl := (List.getElem?_eq_some_iff.1 hx).1
  have hk : ks[i]? = some (ks[i]'(by rw [h.len]; exact hl)) := List.getElem?_eq_getElem _
  exact ⟨_, hk, (h.init _ _).2 hk⟩

theorem GInv.named (h : GInv completed inits ks g) {i : Nat} {n : String} (hk : g.init (.named n) = some i) :
    ∃ x, inits[i]? = some x ∧ x.name = n ∧ n ≠ "" := by
  obtain ⟨x, hx, hki⟩ := h.getInit hk
  have hkey := h.key i x _ hx hki
  refine ⟨x, hx, ?_⟩
  by_cases hn : x.name = ""
  · obtain ⟨a, ha, _⟩ := hkey.2 hn
    simp at ha
  · have := hkey.1 hn
    simp at this
    exact ⟨this.symm, by rw [this]; exact hn⟩

theorem GInv.ofName (h : GInv completed inits ks g) {i : Nat} {x : Init} (hx : inits[i]? = some x)
    (hn : x.name ≠ "") : g.init (.named x.name) = some i := by
  obtain ⟨k, hk, hki⟩ := h.getKey hx
  rw [← (h.key i x k hx hk).1 hn]
  exact hki

/-- The order of the initializers is implied by the dependencies of the nodes. -/
theorem GInv.before_dep (hc : CompletedOk completed) (h : GInv completed inits ks g) {i j : Nat}
    (hb : Before inits i j) : ∃ k d, g.init k = some j ∧ g.init d = some i ∧ TransGen g.Dep k d := by
  obtain ⟨x, y, hx, hy, hb⟩ := hb
  obtain ⟨kj, hkj, hkji⟩ := h.getKey hy
  obtain ⟨ki, hki, hkii⟩ := h.getKey hx
  refine ⟨kj, ki, hkji, hkii, ?_⟩
  have cj := h.complete j y kj hy hkj
  have ci := h.complete i x ki hx hki
  rcases hb with ⟨h1, h2⟩ | ⟨h1, h2⟩ | ⟨p, h0, h1, h2⟩
  · have hn := (h.names x (List.mem_of_getElem? hx)).2
    have := cj.1 x.name h2 hn h1
    rw [(h.key i x ki hx hki).1 h1]
    exact TransGen.single this
  · have := (ci.2.2 y.name h2).2 h1
    rw [← (h.key j y kj hy hkj).1 h1] at this
    exact TransGen.single this
  · obtain ⟨e1, e2⟩ := ci.2.2 p h2
    exact TransGen.tail (TransGen.single (cj.1 p h1 e1 h0)) (e2 h0)

/-- A path of dependencies between nodes with initializers is explained by the order. -/
theorem GInv.dep_before (h : GInv completed inits ks g) {k : Key} {j : Nat} (hk : g.init k = some j)
    {d : Key} (hp : TransGen g.Dep k d) :
    (∀ i, g.init d = some i → TransGen (Before inits) i j) ∧
    (g.init d = none → g.deps d = [] ∨ ∃ p i x, d = .named p ∧ p ≠ "" ∧
      (i = j ∨ TransGen (Before inits) i j) ∧ inits[i]? = some x ∧ p ∈ x.deps) := by
  -- one step from a node with an initializer
  have step1 : ∀ (q d : Key) (i : Nat), g.init q = some i → g.Dep q d →
      (∀ i', g.init d = some i' → Before inits i' i) ∧
      (g.init d = none → g.deps d = [] ∨ ∃ p x, d = .named p ∧ p ≠ "" ∧ inits[i]? = some x ∧ p ∈ x.deps) := by
    intro q d i hq hd
    rcases h.sound q d hd with ⟨j', x, h1, h2, h3⟩ | ⟨j', x, h1, h2, h3⟩
    · have hj : j' = i := by
        have := (h.init q j').2 h2
        rw [hq] at this; simpa using this.symm
      subst hj
      rcases h3 with ⟨n, hn, _, hn0, rfl⟩ | ⟨_, a, rfl, h4, h5⟩
      · refine ⟨fun i' hi' => ?_, fun _ => Or.inr ⟨n, x, rfl, hn0, h1, hn⟩⟩
        obtain ⟨y, hy, hyn, _⟩ := h.named hi'
        exact ⟨y, x, hy, h1, Or.inl (by rw [hyn]; exact ⟨hn0, hn⟩)⟩
      · exact ⟨fun i' hi' => by rw [h4] at hi'; simp at hi', fun _ => Or.inl h5⟩
    · have hdi := (h.init d j').2 h2
      refine ⟨fun i' hi' => ?_, fun hn => by rw [hdi] at hn; simp at hn⟩
      have : j' = i' := by rw [hdi] at hi'; simpa using hi'
      subst this
      rcases h3 with ⟨r, hr, hr0, rfl⟩ | ⟨a, rfl, h4⟩
      · obtain ⟨y, hy, hyn, _⟩ := h.named hq
        exact ⟨x, y, h1, hy, Or.inr (Or.inl (by rw [hyn]; exact ⟨hr0, hr⟩))⟩
      · rw [hq] at h4; simp at h4
  induction hp with
  | single hd =>
    obtain ⟨s1, s2⟩ := step1 _ _ j hk hd
    refine ⟨fun i hi => TransGen.single (s1 i hi), fun hn => ?_⟩
    rcases s2 hn with s | ⟨p, x, e1, e2, e3, e4⟩
    · exact Or.inl s
    · exact Or.inr ⟨p, j, x, e1, e2, Or.inl rfl, e3, e4⟩
  | @tail b c _ hd ih =>
    cases hb : g.init b with
    | some i =>
      have hij := ih.1 i hb
      obtain ⟨s1, s2⟩ := step1 b c i hb hd
      refine ⟨fun i' hi' => TransGen.head (s1 i' hi') hij, fun hn => ?_⟩
      rcases s2 hn with s | ⟨p, x, e1, e2, e3, e4⟩
      · exact Or.inl s
      · exact Or.inr ⟨p, i, x, e1, e2, Or.inr hij, e3, e4⟩
    | none =>
      rcases ih.2 hb with h0 | ⟨p, i, x, rfl, e2, e3, e4, e5⟩
      · have : c ∈ g.deps b := hd
        rw [h0] at this; simp at this
      · rcases h.sound _ c hd with ⟨j', y, h1, h2, h3⟩ | ⟨j', y, h1, h2, h3⟩
        · rw [(h.init _ j').2 h2] at hb; simp at hb
        · have hci := (h.init c j').2 h2
          refine ⟨fun i' hi' => ?_, fun hn => by rw [hci] at hn; simp at hn⟩
          have : j' = i' := by rw [hci] at hi'; simpa using hi'
          subst this
          rcases h3 with ⟨r, hr, hr0, hpr⟩ | ⟨a, hpr, _⟩
          · have hpr' : p = r := by simpa using hpr
            subst hpr'
            have hbf : Before inits j' i := ⟨y, x, h1, e4, Or.inr (Or.inr ⟨p, e2, e5, hr⟩)⟩
            rcases e3 with rfl | e3
            · exact TransGen.single hbf
            · exact TransGen.head hbf e3
          · simp at hpr

theorem GInv.cycle (h : GInv completed inits ks g) {k : Key} (hp : TransGen g.Dep k k) :
    ∃ i, TransGen (Before inits) i i := by
  cases hk : g.init k with
  | some j => exact ⟨j, (h.dep_before hk hp).1 j hk⟩
  | none =>
    obtain ⟨d, hd, hr⟩ := TransGen.head'_iff.1 hp
    rcases h.sound k d hd with ⟨j', y, h1, h2, h3⟩ | ⟨j', y, h1, h2, h3⟩
    · rw [(h.init _ j').2 h2] at hk; simp at hk
    · have hdi := (h.init d j').2 h2
      exact ⟨j', (h.dep_before hdi (TransGen.tail' hr hd)).1 j' hdi⟩

end Bridge

theorem isPhony_empty : isPhony "" = false := by decide +kernel

theorem xinv_start (g : Graph) (succeeds : List Nat → Nat → Bool) :
    XInv g succeeds ⟨fun _ => .pending, [], []⟩ := by
  refine ⟨by simp, by simp, by simp, by simp, by simp, by simp, ?_, by simp⟩
  intro t1 i t2 h
  simp at h

theorem GInv.keyNames {completed : List String} {inits : List Init} {ks : List Key} {g : Graph}
    (h : GInv completed inits ks g) : ks.map Key.name = inits.map Init.name := by
  apply List.ext_getElem?
  intro i
  rw [List.getElem?_map, List.getElem?_map]
  cases hx : inits[i]? with
  | none =>
    have : ks[i]? = none := by
      rw [List.getElem?_eq_none_iff] at hx ⊢
      rw [h.len]; exact hx
    rw [this]; rfl
  | some x =>
    obtain ⟨k, hk, _⟩ := h.getKey hx
    rw [hk]
    have hkey := h.key i x k hx hk
    simp only [Option.map_some, Option.some.injEq]
    by_cases hn : x.name = ""
    · obtain ⟨a, ha, _⟩ := hkey.2 hn
      rw [ha, hn]; rfl
    · rw [hkey.1 hn]; rfl

/-- What `Run` did, in terms of the digraph. -/
theorem run_graph {completed : List String} (hc : CompletedOk completed)
    (succeeds : List Nat → Nat → Bool) (inits : List Init) :
    (∃ e, run completed succeeds inits = some ([], completed, .error e) ∧ ¬ Acceptable completed inits ∧
      ∀ i, e ≠ .initFailed i) ∨
    ∃ g ks t c s, run completed succeeds inits = some (t, c, s) ∧ GInv completed inits ks g ∧
      TInv g succeeds t ∧ completed <+: c ∧
      match s with
      | .ok () => (∀ t1 i t2, t = t1 ++ i :: t2 → succeeds t1 i = true) ∧ (∀ i, i < inits.length → i ∈ t) ∧
          (∀ k d, g.init k ≠ none → g.Dep k d → g.init d ≠ none ∨ isPhony d.name = true) ∧
          c.Perm (completed ++ (inits.map Init.name).filter (fun n => n ≠ ""))
      | .error e => Cause g succeeds t e ∧ (∀ n ∈ c, n ∈ completed ∨ (n ≠ "" ∧
          ∃ (i : Nat) (x : Init), inits[i]? = some x ∧ x.name = n ∧ i ∈ t ∧ e ≠ .initFailed i)) := by
  have h0 := initNodes_spec hc.1 inits [] [] Graph.empty (ginv_empty completed)
  simp only [List.length_nil, List.nil_append] at h0
  unfold run
  revert h0
  cases initNodes completed 0 inits Graph.empty with
  | error e =>
    rintro ⟨h0, h1⟩
    exact Or.inl ⟨e, rfl, h0, h1⟩
  | ok p =>
    obtain ⟨g, ks⟩ := p
    intro h0
    have h : GInv completed inits ks g := h0
    right
    have hks : ∀ k ∈ sortKeys ks, k ∈ g.keys ∧ g.init k ≠ none := by
      intro k hk
      have hk' := mem_sortKeys.1 hk
      obtain ⟨j, hj⟩ := List.mem_iff_getElem?.1 hk'
      exact ⟨h.inKeys.1 k hk', by rw [(h.init k j).2 hj]; simp⟩
    have hpc : pendCount g ⟨fun _ => .pending, [], []⟩ < g.keys.length + 1 :=
      Nat.lt_succ_of_le (List.length_filter_le _ _)
    obtain ⟨y, c', s, hy, _, hs⟩ := runLoop_spec h.inj h.inKeys.2 (g.keys.length + 1) (sortKeys ks)
      ⟨fun _ => .pending, [], []⟩ completed hks hpc (xinv_start g succeeds) rfl
    refine ⟨g, ks, y.trace, c', s, by simp [hy], h, ?_⟩
    cases s with
    | ok u =>
      obtain ⟨e1, e2, _, e4⟩ := hs
      refine ⟨e1.toT, by rw [e4]; exact List.prefix_append _ _, e1.succ, ?_, ?_, ?_⟩
      · intro i hi
        obtain ⟨k, hk, hki⟩ := h.getKey (List.getElem?_eq_getElem hi)
        exact (e1.tr i).2 ⟨k, e2 k (mem_sortKeys.2 (List.mem_of_getElem? hk)), hki⟩
      · intro k d hk hd
        obtain ⟨i, hi⟩ := Option.ne_none_iff_exists'.1 hk
        have hkd := e2 k (mem_sortKeys.2 (List.mem_of_getElem? ((h.init k i).1 hi)))
        exact e1.defined d (e1.closed k hkd d hd)
      · rw [e4]
        apply List.Perm.append_left
        have hp : ((sortKeys ks).map Key.name).Perm (inits.map Init.name) := by
          rw [← h.keyNames]
          exact (List.perm_insertionSort _ ks).map _
        refine (hp.filter _).trans ?_
        rw [List.filter_congr]
        intro n hn
        obtain ⟨x, hx, rfl⟩ := List.mem_map.1 hn
        simp [(h.names x hx).1]
    | error e =>
      obtain ⟨e1, e2, ks1, ks2, e3, e4, e5⟩ := hs
      refine ⟨e1, by rw [e5]; exact List.prefix_append _ _, e2, ?_⟩
      intro n hn
      rw [e5] at hn
      rcases List.mem_append.1 hn with hn | hn
      · exact Or.inl hn
      · right
        rw [List.mem_filter] at hn
        obtain ⟨hn1, hn2⟩ := hn
        simp only [decide_eq_true_eq] at hn2
        refine ⟨hn2.1, ?_⟩
        obtain ⟨k, hk, rfl⟩ := List.mem_map.1 hn1
        have hk' : k ∈ ks := mem_sortKeys.1 (by rw [e3]; exact List.mem_append_left _ hk)
        obtain ⟨j, hj⟩ := List.mem_iff_getElem?.1 hk'
        have hji := (h.init k j).2 hj
        obtain ⟨x, hx, _⟩ := h.getInit hji
        refine ⟨j, x, hx, ?_, e4 k hk j hji⟩
        have := congrArg (fun l : List String => l[j]?) h.keyNames
        simp only [List.getElem?_map, hj, hx, Option.map_some, Option.some.injEq] at this
        exact this.symm

/-- **C75.** `Run` always finishes.  Whatever its outcome, every initializer is called at most once, and
only after everything that has to precede it: the initializers it names as dependencies, the ones that
name it as a reverse dependency, the ones connected through a phony name, and their predecessors; its
other dependencies were completed by an earlier run.  Nothing is called after a failure. -/
theorem run_order {completed : List String} (hc : CompletedOk completed)
    (succeeds : List Nat → Nat → Bool) (inits : List Init) :
    ∃ t c s, run completed succeeds inits = some (t, c, s) ∧ t.Nodup ∧ (∀ i ∈ t, i < inits.length) ∧
      (∀ t1 j t2, t = t1 ++ j :: t2 →
        (∀ i, TransGen (Before inits) i j → i ∈ t1) ∧
        (∀ (x : Init), inits[j]? = some x → ∀ d ∈ x.deps, d ∈ completed ∨ isPhony d = true ∨
          ∃ (i : Nat) (y : Init), inits[i]? = some y ∧ y.name = d ∧ i ∈ t1) ∧
        (t2 ≠ [] → succeeds t1 j = true)) := by
  rcases run_graph hc succeeds inits with ⟨e, h1, _, _⟩ | ⟨g, ks, t, c, s, h1, h, ht, _, _⟩
  · exact ⟨[], completed, .error e, h1, by simp, by simp, by simp⟩
  · refine ⟨t, c, s, h1, ht.nodup, ?_, ?_⟩
    · intro i hi
      obtain ⟨k, hk⟩ := ht.ids i hi
      obtain ⟨x, hx, _⟩ := h.getInit hk
      exact (List.getElem?_eq_some_iff.1 hx).1
    · intro t1 j t2 hsp
      refine ⟨?_, ?_, ht.succ t1 j t2 hsp⟩
      · intro i hij
        obtain ⟨k, d, hk, hd, hp⟩ : ∃ k d, g.init k = some j ∧ g.init d = some i ∧ TransGen g.Dep k d := by
          clear hsp
          induction hij using TransGen.head_induction_on with
          | single hb => exact h.before_dep hc hb
          | head hb _ ih =>
            obtain ⟨k, d, h1, h2, h3⟩ := ih
            obtain ⟨k', d', h1', h2', h3'⟩ := h.before_dep hc hb
            rw [h.inj k' d _ h1' h2] at h3'
            exact ⟨k, d', h1, h2', h3.trans h3'⟩
        exact (ht.order t1 j t2 hsp k hk d hp).1 i hd
      · intro x hx d hd
        by_cases hdc : d ∈ completed
        · exact Or.inl hdc
        right
        obtain ⟨k, hk, hki⟩ := h.getKey hx
        have hcm := h.complete j x k hx hk
        by_cases hd0 : d = ""
        · subst hd0
          obtain ⟨a, ha, hai⟩ := hcm.2.1 hd
          have := (ht.order t1 j t2 hsp k hki _ (TransGen.single ha)).2 hai
          exact Or.inl this
        · have hdep := hcm.1 d hd hdc hd0
          have ho := ht.order t1 j t2 hsp k hki _ (TransGen.single hdep)
          cases hdi : g.init (.named d) with
          | none => exact Or.inl (ho.2 hdi)
          | some i =>
            obtain ⟨y, hy, hyn, _⟩ := h.named hdi
            exact Or.inr ⟨i, y, hy, hyn, ho.1 i hdi⟩

/-- **C75.** If `Run` succeeds then every initializer was called exactly once and succeeded, and exactly
their names are remembered. -/
theorem run_ok {completed : List String} (hc : CompletedOk completed)
    {succeeds : List Nat → Nat → Bool} {inits : List Init} {t : List Nat} {c : List String}
    (h : run completed succeeds inits = some (t, c, .ok ())) :
    t.Perm (List.range inits.length) ∧ (∀ t1 i t2, t = t1 ++ i :: t2 → succeeds t1 i = true) ∧
      c.Perm (completed ++ (inits.map Init.name).filter (fun n => n ≠ "")) ∧ CompletedOk c := by
  rcases run_graph hc succeeds inits with ⟨e, h1, _, _⟩ | ⟨g, ks, t', c', s, h1, hg, ht, _, hs⟩
  · rw [h] at h1; simp at h1
  · rw [h] at h1
    simp only [Option.some.injEq, Prod.mk.injEq] at h1
    obtain ⟨rfl, rfl, rfl⟩ := h1
    obtain ⟨e1, e2, _, e4⟩ := hs
    refine ⟨?_, e1, e4, ?_⟩
    · rw [List.perm_ext_iff_of_nodup ht.nodup List.nodup_range]
      intro i
      rw [List.mem_range]
      refine ⟨fun hi => ?_, e2 i⟩
      obtain ⟨k, hk⟩ := ht.ids i hi
      obtain ⟨x, hx, _⟩ := hg.getInit hk
      exact (List.getElem?_eq_some_iff.1 hx).1
    · constructor
      · intro hm
        rcases List.mem_append.1 (e4.mem_iff.1 hm) with hm | hm
        · exact hc.1 hm
        · simp at hm
      · intro n hn
        rcases List.mem_append.1 (e4.mem_iff.1 hn) with hn | hn
        · exact hc.2 n hn
        · obtain ⟨x, hx, rfl⟩ := List.mem_map.1 (List.mem_filter.1 hn).1
          exact (hg.names x hx).1

/-- **C75.** Also after an error exactly initializers that succeeded are remembered. -/
theorem run_error {completed : List String} (hc : CompletedOk completed)
    {succeeds : List Nat → Nat → Bool} {inits : List Init} {t : List Nat} {c : List String} {e : Err}
    (h : run completed succeeds inits = some (t, c, .error e)) :
    completed <+: c ∧ CompletedOk c ∧ (∀ n ∈ c, n ∈ completed ∨
      ∃ (i : Nat) (x : Init), inits[i]? = some x ∧ x.name = n ∧ i ∈ t ∧ e ≠ .initFailed i) ∧
    (∀ i, e = .initFailed i → ∃ t1, t = t1 ++ [i] ∧ succeeds t1 i = false) := by
  rcases run_graph hc succeeds inits with ⟨e, h1, _, h3⟩ | ⟨g, ks, t', c', s, h1, hg, ht, h2, hs⟩
  · rw [h] at h1
    simp only [Option.some.injEq, Prod.mk.injEq, Except.error.injEq] at h1
    obtain ⟨rfl, rfl, rfl⟩ := h1
    exact ⟨List.prefix_rfl, hc, fun n hn => Or.inl hn, fun i hi => absurd hi (h3 i)⟩
  · rw [h] at h1
    simp only [Option.some.injEq, Prod.mk.injEq] at h1
    obtain ⟨rfl, rfl, rfl⟩ := h1
    obtain ⟨hcause, hm⟩ := hs
    refine ⟨h2, ⟨?_, ?_⟩, ?_, ?_⟩
    · intro h0
      rcases hm _ h0 with h0 | ⟨h0, _⟩
      · exact hc.1 h0
      · exact h0 rfl
    · intro n hn
      rcases hm n hn with h0 | ⟨_, i, x, hx, rfl, _⟩
      · exact hc.2 n h0
      · exact (hg.names x (List.mem_of_getElem? hx)).1
    · intro n hn
      rcases hm n hn with h0 | ⟨_, h0⟩
      · exact Or.inl h0
      · exact Or.inr h0
    · rintro i rfl
      exact hcause

/-- **C75.** `Run` fails for one reason only besides a failing initializer: the initializers are not
acceptable. -/
theorem run_succeeds_iff {completed : List String} (hc : CompletedOk completed)
    {succeeds : List Nat → Nat → Bool} {inits : List Init} {t : List Nat} {c : List String}
    {s : Except Err Unit} (h : run completed succeeds inits = some (t, c, s)) :
    (s = .ok () → Acceptable completed inits) ∧
    (Acceptable completed inits → s = .ok () ∨ ∃ i, s = .error (.initFailed i)) := by
  rcases run_graph hc succeeds inits with ⟨e, h1, h2, h3⟩ | ⟨g, ks, t', c', s', h1, hg, ht, h2, hs⟩
  · rw [h] at h1
    simp only [Option.some.injEq, Prod.mk.injEq] at h1
    obtain ⟨rfl, rfl, rfl⟩ := h1
    exact ⟨fun he => by simp at he, fun ha => absurd ha h2⟩
  · rw [h] at h1
    simp only [Option.some.injEq, Prod.mk.injEq] at h1
    obtain ⟨rfl, rfl, rfl⟩ := h1
    constructor
    · rintro rfl
      obtain ⟨e1, e2, e3, e4⟩ := hs
      obtain ⟨t', c', s', hr, _, _, hord⟩ := run_order hc succeeds inits
      rw [h] at hr
      simp only [Option.some.injEq, Prod.mk.injEq] at hr
      obtain ⟨rfl, rfl, rfl⟩ := hr
      refine ⟨fun x hx => (hg.names x hx).1, fun x hx => (hg.names x hx).2, ?_, ?_, ?_, ?_⟩
      · intro i j x y hx hy hxy hn
        have a := hg.ofName hx hn
        have b := hg.ofName hy (by rw [← hxy]; exact hn)
        rw [← hxy, a] at b
        simpa using b
      · intro x hx r hr
        obtain ⟨j, hj⟩ := List.mem_iff_getElem?.1 hx
        obtain ⟨k, hk, _⟩ := hg.getKey hj
        exact ((hg.complete j x k hj hk).2.2 r hr).1
      · intro x hx d hd
        obtain ⟨j, hj⟩ := List.mem_iff_getElem?.1 hx
        have hjt := e2 j (List.getElem?_eq_some_iff.1 hj).1
        obtain ⟨t1, t2, hsp⟩ := List.append_of_mem hjt
        rcases (hord t1 j t2 hsp).2.1 x hj d hd with h | h | ⟨i, y, hy, hyn, _⟩
        · exact Or.inl h
        · exact Or.inr (Or.inl h)
        · by_cases hd0 : d = ""
          · subst hd0
            obtain ⟨k, hk, hki⟩ := hg.getKey hj
            obtain ⟨a, ha, hai⟩ := (hg.complete j x k hj hk).2.1 hd
            rcases e3 k _ (by rw [hki]; simp) ha with h | h
            · exact absurd hai h
            · exact Or.inr (Or.inl h)
          · exact Or.inr (Or.inr ⟨hd0, y, List.mem_of_getElem? hy, hyn⟩)
      · intro i hi
        have hil : i < inits.length := by
          obtain ⟨b, hb, _⟩ := TransGen.head'_iff.1 hi
          obtain ⟨x, _, hx, _⟩ := hb
          exact (List.getElem?_eq_some_iff.1 hx).1
        obtain ⟨t1, t2, hsp⟩ := List.append_of_mem (e2 i hil)
        have hmem := (hord t1 i t2 hsp).1 i hi
        have hnd := ht.nodup
        rw [hsp, List.nodup_append] at hnd
        exact hnd.2.2 i hmem i (by simp) rfl
    · intro ha
      cases s with
      | ok u => exact Or.inl rfl
      | error e =>
        right
        obtain ⟨hcause, _⟩ := hs
        cases e with
        | initFailed i => exact ⟨i, rfl⟩
        | circular names =>
          obtain ⟨k, hk⟩ := hcause
          obtain ⟨i, hi⟩ := hg.cycle hk
          exact absurd hi (ha.acyclic i)
        | notDefined u m =>
          obtain ⟨q, k, hd, hkn, hki, hph⟩ := hcause
          rcases hg.sound q k hd with ⟨j, x, h1, h2, h3⟩ | ⟨j, x, h1, h2, h3⟩
          · rcases h3 with ⟨n, hn, hnc, hn0, rfl⟩ | ⟨hn, a, rfl, _⟩
            · have hkn' : n = m := hkn
              subst hkn'
              rcases ha.defined x (List.mem_of_getElem? h1) n hn with h | h | ⟨_, y, hy, hyn⟩
              · exact absurd h hnc
              · rw [hph] at h; simp at h
              · obtain ⟨i, hi⟩ := List.mem_iff_getElem?.1 hy
                have := hg.ofName hi (by rw [hyn]; exact hn0)
                rw [hyn, hki] at this
                simp at this
            · rcases ha.defined x (List.mem_of_getElem? h1) "" hn with h | h | ⟨h, _⟩
              · exact absurd h hc.1
              · rw [isPhony_empty] at h; simp at h
              · exact absurd rfl h
          · rw [(hg.init k j).2 h2] at hki
            simp at hki
        | phonyName i => exact absurd hcause (by simp [Cause])
        | collision i => exact absurd hcause (by simp [Cause])
        | reverseCompleted i r => exact absurd hcause (by simp [Cause])

/-! ## Cases -/

/-- `b` needs `a` and everything in `@phony/x`; `c` belongs to `@phony/x`; an anonymous initializer needs
`c` and the already completed `z`. -/
def exInits : List Init :=
  [⟨"b", ["a", "@phony/x"], []⟩, ⟨"", ["c", "z"], []⟩, ⟨"c", [], ["@phony/x"]⟩, ⟨"a", [], []⟩]

example : CompletedOk ["z"] := ⟨by decide, by decide +kernel⟩

example : (run ["z"] (fun _ _ => true) exInits).map (fun r => (r.1, r.2.1)) =
    some ([2, 1, 3, 0], ["z", "a", "b", "c"]) := by decide +kernel

example : Before exInits 2 0 := ⟨_, _, rfl, rfl, Or.inr (Or.inr ⟨"@phony/x", by decide, by decide, by decide⟩)⟩

/-- An error keeps what was completed before. -/
example : (run [] (fun _ i => decide (i ≠ 0)) [⟨"b", ["a"], []⟩, ⟨"a", [], []⟩, ⟨"c", [], []⟩]).map
    (fun r => (r.1, r.2.1)) = some ([1, 0], ["a"]) := by decide +kernel

/-- A circular dependency through a phony name. -/
example : ¬ Acceptable [] [⟨"a", ["@phony/x"], ["@phony/x"]⟩] := fun h =>
  h.acyclic 0 (.single ⟨_, _, rfl, rfl, Or.inr (Or.inr ⟨"@phony/x", by decide, by decide, by decide⟩)⟩)

end Verif.Startup
