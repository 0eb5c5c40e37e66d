import Verif.Opt.PatternLemmas

/-!
# `MatchPattern` finds exactly the instances of the pattern
-/

namespace Verif.Opt
open Verif.Expr
variable {O V A E N : Type} [DecidableEq O] [DecidableEq V] [DecidableEq A] [DecidableEq N]

theorem wf_deps {G : Lang O V A E} {n : Expr O V A} (h : WF G n) (hd : n.deps ≠ []) : ∃ o, n.label = .op o := by
  cases h with
  | op o => exact ⟨o, rfl⟩
  | _ => exact absurd rfl hd

theorem initMem (root : Expr O V A) {k : Nat} (h : 0 < k) :
    ∃ mem, writeDeps [root] 0 (List.replicate k none) = some mem ∧ mem.length = k ∧ mem[0]? = some (some root) := by
  obtain ⟨mem, h1, h2, h3⟩ := writeDeps_eq [root] 0 (List.replicate k none) (by simp; omega)
  refine ⟨mem, h1, by simpa using h2, ?_⟩
  rw [h3, if_pos (by simp)]
  rfl

theorem readMem_map {M : List (Expr O V A)} {φ : Expr O V A → Expr O V A} {j : Nat} {n : Expr O V A} (h : M[j]? = some n) :
    readMem (M.map (fun n => some (φ n))) j = some (φ n) := by
  unfold readMem
  rw [List.getElem?_map, h]; rfl

theorem match_complete {G : Lang O V A E} {name : O → N} {ms : Matchers O V A} {src root : Expr O V A} {c : Comp O V A N}
    (h : CInv name ms src c.memory.length c) {φ : Expr O V A → Expr O V A}
    (hφ : Matches name (findMatcher ms) src root φ) :
    matchPattern name { c.plan with capacity := c.memory.length } root =
      some (some (c.memory.map (fun n => some (φ n)))) := by
  obtain ⟨hi, hp, rfl⟩ := hφ
  have hpos : 0 < c.memory.length := (List.getElem?_eq_some_iff.1 h.root).1
  obtain ⟨mem, h1, h2, h3⟩ := initMem (φ src) hpos
  unfold matchPattern
  dsimp only
  rw [h1]
  dsimp only
  rw [unfoldLoop_complete hi h.sub _ 1 mem h.lay h2 (by
    intro j hj
    have : j = 0 := by omega
    subst this
    rw [h3, h.root]; rfl)]
  dsimp only
  have c1 : checkAll (fun a : Nat × Expr O V A => (readMem (c.memory.map (fun n => some (φ n))) a.1).map (fun n => decide (n = a.2)))
      c.plan.fixed = some true := by
    have key : ∀ a ∈ c.plan.fixed, (readMem (c.memory.map (fun n => some (φ n))) a.1).map (fun n => decide (n = a.2)) = some true := by
      intro a ha
      obtain ⟨q1, v, q2⟩ := h.fixed a ha
      rw [readMem_map q1]
      have := hi a.2 (h.sub _ (List.mem_of_getElem? q1))
      rw [q2] at this
      dsimp only at this
      simp [this]
    rcases checkAll_eq (l := c.plan.fixed) (fun a ha => ⟨true, key a ha⟩) with q | ⟨_, a, ha, q⟩
    · exact q.1
    · rw [key a ha] at q; cases q
  have c2 : checkAll (fun a : Nat × Nat => (readMem (c.memory.map (fun n => some (φ n))) a.1).bind
      (fun n => (readMem (c.memory.map (fun n => some (φ n))) a.2).map (fun m => decide (n = m)))) c.plan.same = some true := by
    have key : ∀ a ∈ c.plan.same, (readMem (c.memory.map (fun n => some (φ n))) a.1).bind
      (fun n => (readMem (c.memory.map (fun n => some (φ n))) a.2).map (fun m => decide (n = m))) = some true := by
      intro a ha
      obtain ⟨n, q1, q2⟩ := h.same a ha
      rw [readMem_map q1, readMem_map q2]
      simp
    rcases checkAll_eq (l := c.plan.same) (fun a ha => ⟨true, key a ha⟩) with q | ⟨_, a, ha, q⟩
    · exact q.1
    · rw [key a ha] at q; cases q
  have c3 : checkAll (fun a : Nat × (Expr O V A → Bool) => (readMem (c.memory.map (fun n => some (φ n))) a.1).map a.2)
      c.plan.preds = some true := by
    have key : ∀ a ∈ c.plan.preds, (readMem (c.memory.map (fun n => some (φ n))) a.1).map a.2 = some true := by
      intro a ha
      obtain ⟨n, k, q1, q2, q3⟩ := h.preds a ha
      rw [readMem_map q1]
      have := hp n k a.2 (h.sub _ (List.mem_of_getElem? q1)) q2 q3
      simp [this]
    rcases checkAll_eq (l := c.plan.preds) (fun a ha => ⟨true, key a ha⟩) with q | ⟨_, a, ha, q⟩
    · exact q.1
    · rw [key a ha] at q; cases q
  rw [c1]
  dsimp only
  rw [c2]
  dsimp only
  rw [c3]

theorem match_sound {G : Lang O V A E} {name : O → N} {ms : Matchers O V A} {src root : Expr O V A} {c : Comp O V A N}
    (h : CInv name ms src c.memory.length c) (hwf : ∀ n, Sub n src → WF G n) :
    matchPattern name { c.plan with capacity := c.memory.length } root = some none ∨
    ∃ φ, Matches name (findMatcher ms) src root φ := by
  have hpos : 0 < c.memory.length := (List.getElem?_eq_some_iff.1 h.root).1
  obtain ⟨mem, h1, h2, h3⟩ := initMem root hpos
  unfold matchPattern
  dsimp only
  rw [h1]
  dsimp only
  rcases unfoldLoop_sound _ 1 mem h.lay h2 (by
    intro j hj
    have : j = 0 := by omega
    subst this
    exact ⟨root, h3⟩) with hu | ⟨R, u1, u2, u3, u4, u5⟩
  · rw [hu]; exact Or.inl rfl
  rw [u1]
  dsimp only
  have read : ∀ (j : Nat) n, c.memory[j]? = some n → ∃ r, readMem R j = some r ∧ R[j]? = some (some r) := by
    intro j n hj
    obtain ⟨r, hr⟩ := u4 j (List.getElem?_eq_some_iff.1 hj).1
    exact ⟨r, by unfold readMem; rw [hr]; rfl, hr⟩
  rcases checkAll_eq (check := fun a : Nat × Expr O V A => (readMem R a.1).map (fun n => decide (n = a.2))) (l := c.plan.fixed)
    (by
      intro a ha
      obtain ⟨r, hr, _⟩ := read a.1 _ (h.fixed a ha).1
      rw [hr]; exact ⟨_, rfl⟩) with ⟨e1, f1⟩ | ⟨e1, _⟩
  swap
  · rw [e1]; exact Or.inl rfl
  rw [e1]
  dsimp only
  rcases checkAll_eq (check := fun a : Nat × Nat => (readMem R a.1).bind (fun n => (readMem R a.2).map (fun m => decide (n = m))))
    (l := c.plan.same)
    (by
      intro a ha
      obtain ⟨n, q1, q2⟩ := h.same a ha
      obtain ⟨r, hr, _⟩ := read a.1 _ q1
      obtain ⟨r', hr', _⟩ := read a.2 _ q2
      rw [hr, hr']; exact ⟨_, rfl⟩) with ⟨e2, f2⟩ | ⟨e2, _⟩
  swap
  · rw [e2]; exact Or.inl rfl
  rw [e2]
  dsimp only
  rcases checkAll_eq (check := fun a : Nat × (Expr O V A → Bool) => (readMem R a.1).map a.2) (l := c.plan.preds)
    (by
      intro a ha
      obtain ⟨n, k, q1, _⟩ := h.preds a ha
      obtain ⟨r, hr, _⟩ := read a.1 _ q1
      rw [hr]; exact ⟨_, rfl⟩) with ⟨e3, f3⟩ | ⟨e3, _⟩
  swap
  · rw [e3]; exact Or.inl rfl
  right
  -- the image of a node is what its first position holds
  have hmem : ∀ s, Sub s src → s ∈ c.memory := fun s hs =>
    sub_mem h (fun n hn hd => wf_deps (hwf n (h.sub n hn)) hd) hs
  have hφ : ∃ φ : Expr O V A → Expr O V A, ∀ (j : Nat) n, c.memory[j]? = some n → R[j]? = some (some (φ n)) := by
    refine ⟨fun n => ((lookup c.seen n).bind (readMem R)).getD n, ?_⟩
    intro j n hj
    obtain ⟨s, q1, q2⟩ := h.seen j n (List.getElem?_eq_some_iff.1 hj).1 hj
    obtain ⟨r, hr, hr'⟩ := read s n (h.first n s q1).1
    dsimp only
    rw [q1, Option.bind_some, hr, Option.getD_some]
    rcases q2 with rfl | q2
    · exact hr'
    · have := f2 _ q2
      dsimp only at this
      obtain ⟨r2, hr2, hr2'⟩ := read j n hj
      rw [hr, hr2] at this
      simp at this
      rw [hr2', this]
  obtain ⟨φ, hφ⟩ := hφ
  refine ⟨φ, ?_, ?_, ?_⟩
  · intro s hs
    obtain ⟨j, hj⟩ := List.mem_iff_getElem?.1 (hmem s hs)
    obtain ⟨t, q1, _⟩ := h.seen j s (List.getElem?_eq_some_iff.1 hj).1 hj
    obtain ⟨q2, _, q3⟩ := h.first s t q1
    have hr := hφ t s q2
    have hread : readMem R t = some (φ s) := by unfold readMem; rw [hr]; rfl
    cases hlab : s.label with
    | leaf k => trivial
    | placeholder k => trivial
    | literal v =>
      rw [hlab] at q3
      have := f1 _ q3
      dsimp only at this
      rw [hread] at this
      simpa using this
    | op o =>
      rw [hlab] at q3
      obtain ⟨node, r, o', off, g1, g2, g3, g4, g5, g6, g7⟩ := u5 _ q3.1
      dsimp only at g1 g2 g4 g5 g6 g7
      rw [q2] at g1
      cases g1
      rw [hr] at g2
      cases g2
      refine ⟨o', g3, g4, ?_⟩
      apply List.ext_getElem?
      intro i
      rw [List.getElem?_map]
      by_cases hi : i < s.deps.length
      · obtain ⟨w1, w2⟩ := g7 i hi
        rw [List.getElem?_eq_getElem hi] at w1 ⊢
        rw [hφ _ _ w1] at w2
        rw [List.getElem?_eq_getElem (by omega)] at w2 ⊢
        simpa using w2.symm
      · rw [List.getElem?_eq_none (by omega), List.getElem?_eq_none (by omega)]; rfl
  · intro s k p hs hlab hm
    obtain ⟨j, hj⟩ := List.mem_iff_getElem?.1 (hmem s hs)
    obtain ⟨t, q1, _⟩ := h.seen j s (List.getElem?_eq_some_iff.1 hj).1 hj
    obtain ⟨q2, _, q3⟩ := h.first s t q1
    rw [hlab] at q3
    have := f3 _ (q3 p hm)
    dsimp only at this
    have hread : readMem R t = some (φ s) := by unfold readMem; rw [hφ t s q2]; rfl
    rw [hread] at this
    simpa using this
  · have := hφ 0 src h.root
    rw [u3 0 (by omega), h3] at this
    simpa using this.symm

end Verif.Opt
