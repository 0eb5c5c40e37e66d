import Verif.Forest.BitmaskEvalLemmas
import Verif.Forest.ObliviousProps
import Mathlib.Algebra.BigOperators.Group.List.Basic
import Mathlib.Data.List.Forall2

/-!
# Lemmas about the bitmask builder: placed trees, groups, sums
-/

namespace Verif.Forest

variable {w : Nat} {M : Type}

/-- A tree placed into the evaluator. -/
structure PT (M : Type) where
  splits : List MaskedSplit
  adj : List M

def maskedPT (t : MaskedTree M) : PT M := ⟨t.splits, t.adjustments⟩
def oblPT (w : Nat) (t : OblTree M) : PT M :=
  ⟨layerSplits (BitVec.ofNat w t.tree.adjustments.length) t.tree.layers, t.tree.adjustments⟩

/-- Bit `i` of the mask of a tree. -/
def PT.Hits (w : Nat) (p : PT M) (env : Env) (i : Nat) : Prop :=
  ∃ x ∈ p.splits, x.cond.eval env = true ∧ (x.mask.setWidth w).getLsbD i = true

def PT.Supported (p : PT M) : Prop := ∀ s ∈ p.splits, s.cond.supported = true ∧ s.cond.NoNan

structure BStateOk (s : BState w M) (T : List (PT M)) : Prop where
  trees : s.trees.length = T.length
  good : s.building.Good T.length
  hits : ∀ env j i, s.building.Hits env j i ↔ ∃ p, T[j]? = some p ∧ p.Hits w env i
  adj : ∀ (j : Nat) (p : PT M), T[j]? = some p → ∃ off, s.trees[j]? = some off ∧ ∀ l a, p.adj[l]? = some a → s.adjustments[off + l]? = some a

theorem bstateOk_empty : BStateOk (w := w) (M := M) {} [] :=
  ⟨rfl, ⟨by simp, by simp⟩, by simp [Building.Hits], by simp⟩

theorem place_ok {s : BState w M} {T : List (PT M)} (h : BStateOk s T) {p : PT M} (hp : p.Supported) :
    ∃ b, addSplits' s.trees.length p.splits s.building = some b ∧ BStateOk (s.place b p.adj) (T ++ [p]) := by
  obtain ⟨b, e, g, hh⟩ := addSplits'_spec (n := T.length + 1) (tree := s.trees.length) (by rw [h.trees]; omega) p.splits
    s.building (h.good.mono (by omega)) hp
  refine ⟨b, e, ⟨by simp [BState.place, h.trees], by simpa [BState.place] using g, fun env j i => ?_, fun j q hq => ?_⟩⟩
  · simp only [BState.place]
    rw [hh, h.hits, h.trees]
    by_cases hj : j < T.length
    · rw [List.getElem?_append_left hj]
      have : T.length ≠ j := by omega
      simp [this]
    · rw [List.getElem?_append_right (by omega), List.getElem?_eq_none (by omega : T.length ≤ j)]
      by_cases he : T.length = j
      · subst he; simp [PT.Hits]
      · simp only [he, false_and, or_false]
        rw [List.getElem?_singleton, if_neg (by omega)]
  · simp only [BState.place]
    by_cases hj : j < T.length
    · rw [List.getElem?_append_left hj] at hq
      obtain ⟨off, h1, h2⟩ := h.adj j q hq
      refine ⟨off, ?_, fun l a hl => ?_⟩
      · rw [List.getElem?_append_left (by rw [h.trees]; exact hj)]; exact h1
      · have := h2 l a hl
        rw [List.getElem?_append_left (List.getElem?_eq_some_iff.1 this).1]
        exact this
    · rw [List.getElem?_append_right (by omega), List.getElem?_singleton] at hq
      split at hq
      · rename_i he
        cases hq
        refine ⟨s.adjustments.length, ?_, fun l a hl => ?_⟩
        · rw [List.getElem?_append_right (by rw [h.trees]; omega), h.trees, he]; rfl
        · rw [List.getElem?_append_right (by omega), Nat.add_sub_cancel_left]; exact hl
      · cases hq

theorem buildMasked_ok {s : BState w M} {T : List (PT M)} (h : BStateOk s T) {t : MaskedTree M}
    (hp : (maskedPT t).Supported) : ∃ s', buildMasked s t = some s' ∧ BStateOk s' (T ++ [maskedPT t]) := by
  obtain ⟨b, e, hb⟩ := place_ok h hp
  exact ⟨_, by simp only [maskedPT] at e; simp [buildMasked, e, maskedPT], hb⟩

theorem buildOblivious_ok {s : BState w M} {T : List (PT M)} (h : BStateOk s T) {t : OblTree M}
    (hp : (oblPT w t).Supported) : ∃ s', buildOblivious s t = some s' ∧ BStateOk s' (T ++ [oblPT w t]) := by
  obtain ⟨b, e, hb⟩ := place_ok h hp
  exact ⟨_, by simp only [oblPT] at e; simp [buildOblivious, e, oblPT], hb⟩

/-- A `while` loop of `BuildImpl` on a sorted list takes exactly the trees of the group. -/
theorem whileGroup_ok {α : Type} {key : α → Nat × Int} {build : BState w M → α → Option (BState w M)} {toPT : α → PT M}
    {g : Nat} : ∀ (L : List α) (s : BState w M) (T : List (PT M)), BStateOk s T →
      (∀ x ∈ L, ∀ s T, BStateOk s T → ∃ s', build s x = some s' ∧ BStateOk s' (T ++ [toPT x])) →
      L.Pairwise (fun a b => (key a).1 ≤ (key b).1) → (∀ x ∈ L, g ≤ (key x).1) →
      ∃ s', whileGroup key build g L s = some (L.filter (fun x => decide ((key x).1 ≠ g)), s') ∧
        BStateOk s' (T ++ (L.filter fun x => decide ((key x).1 = g)).map toPT) := by
  intro L
  induction L with
  | nil => intro s T h _ _ _; exact ⟨s, rfl, by simpa using h⟩
  | cons x L ih =>
    intro s T h hb hp hg
    obtain ⟨hp1, hp2⟩ := List.pairwise_cons.1 hp
    by_cases hx : (key x).1 = g
    · obtain ⟨s1, e1, h1⟩ := hb x (by simp) s T h
      obtain ⟨s2, e2, h2⟩ := ih s1 _ h1 (fun y hy => hb y (by simp [hy])) hp2 (fun y hy => hg y (by simp [hy]))
      refine ⟨s2, ?_, ?_⟩
      · simp only [whileGroup, hx, if_true, e1, Option.bind_eq_bind, Option.bind_some, e2]
        simp [hx]
      · simp only [List.filter_cons, hx, decide_true, if_true, List.map_cons]
        simpa using h2
    · have hgt : ∀ y ∈ x :: L, (key y).1 ≠ g := by
        intro y hy
        have := hg x (by simp)
        rcases List.mem_cons.1 hy with rfl | hy
        · exact hx
        · have := hp1 y hy; omega
      have f1 : (x :: L).filter (fun x => decide ((key x).1 ≠ g)) = x :: L := by
        rw [List.filter_eq_self]
        intro y hy
        simpa using hgt y hy
      have f2 : (x :: L).filter (fun x => decide ((key x).1 = g)) = [] := by
        rw [List.filter_eq_nil_iff]
        intro y hy
        simpa using hgt y hy
      refine ⟨s, ?_, ?_⟩
      · rw [f1]; simp [whileGroup, hx]
      · rw [f2]; simpa using h

/-- The trees in the range are those of the list. -/
def Slice {α : Type} (T : List α) (r : Nat × Nat) (L : List α) : Prop :=
  ∃ pre post, T = pre ++ L ++ post ∧ r.1 = pre.length ∧ r.2 = pre.length + L.length

theorem buildGroups_ok : ∀ (n g : Nat) (masked : List (MaskedTree M)) (obl : List (OblTree M)) (s : BState w M)
    (T : List (PT M)), BStateOk s T → (∀ t ∈ masked, (maskedPT t).Supported) → (∀ t ∈ obl, (oblPT w t).Supported) →
    masked.Pairwise (fun a b => (maskedKey a).1 ≤ (maskedKey b).1) → obl.Pairwise (fun a b => (oblKey a).1 ≤ (oblKey b).1) →
    (∀ t ∈ masked, g ≤ t.group) → (∀ t ∈ obl, g ≤ t.group) →
    ∃ s' gs Tf, buildGroups n g masked obl s = some (s', gs) ∧ gs.length = n ∧ BStateOk s' Tf ∧ T <+: Tf ∧
      ∀ k grp, gs[k]? = some grp →
        Slice Tf grp.reg ((masked.filter fun t => decide (t.group = g + k)).map maskedPT) ∧
        Slice Tf grp.obl ((obl.filter fun t => decide (t.group = g + k)).map (oblPT w)) := by
  intro n
  induction n with
  | zero => intro g masked obl s T h _ _ _ _ _ _; exact ⟨s, [], T, rfl, rfl, h, List.prefix_refl _, by simp⟩
  | succ n ih =>
    intro g masked obl s T h hm ho pm po gm go
    obtain ⟨s1, e1, h1⟩ := whileGroup_ok (key := maskedKey) (build := buildMasked) (toPT := maskedPT) (g := g) masked s T h
      (fun x hx s T hs => buildMasked_ok hs (hm x hx)) pm gm
    obtain ⟨s2, e2, h2⟩ := whileGroup_ok (key := oblKey) (build := buildOblivious) (toPT := oblPT w) (g := g) obl s1 _ h1
      (fun x hx s T hs => buildOblivious_ok hs (ho x hx)) po go
    obtain ⟨s', gs, Tf, e3, hl, h3, hpre, hgs⟩ := ih (g + 1) _ _ s2 _ h2
      (fun t ht => hm t (List.mem_of_mem_filter ht)) (fun t ht => ho t (List.mem_of_mem_filter ht))
      (List.Pairwise.filter (fun x => decide ((maskedKey x).1 ≠ g)) pm)
      (List.Pairwise.filter (fun x => decide ((oblKey x).1 ≠ g)) po)
      (by
        intro t ht
        obtain ⟨a, b⟩ := List.mem_filter.1 ht
        have b' : t.group ≠ g := of_decide_eq_true b
        have := gm t a
        omega)
      (by
        intro t ht
        obtain ⟨a, b⟩ := List.mem_filter.1 ht
        have b' : t.group ≠ g := of_decide_eq_true b
        have := go t a
        omega)
    obtain ⟨post, hpost⟩ := hpre
    refine ⟨s', ⟨(s.trees.length, s1.trees.length), (s1.trees.length, s2.trees.length)⟩ :: gs, Tf, ?_, ?_, h3, ?_, ?_⟩
    · simp only [buildGroups, e1, e2, e3, Option.bind_eq_bind, Option.bind_some, Option.pure_def]
    · simp [hl]
    · exact ⟨_, by rw [← hpost, List.append_assoc, List.append_assoc]⟩
    · intro k grp hk
      cases k with
      | zero =>
        simp only [List.getElem?_cons_zero, Option.some.injEq] at hk
        subst hk
        simp only [Nat.add_zero]
        refine ⟨⟨T, (obl.filter fun x => decide ((oblKey x).1 = g)).map (oblPT w) ++ post, ?_, h.trees, ?_⟩,
          ⟨T ++ (masked.filter fun x => decide ((maskedKey x).1 = g)).map maskedPT, post, hpost.symm, ?_, ?_⟩⟩
        · rw [← hpost]
          simp only [List.append_assoc]
          rfl
        · rw [h1.trees, List.length_append]; rfl
        · exact h1.trees
        · rw [h2.trees, List.length_append]; rfl
      | succ k =>
        simp only [List.getElem?_cons_succ] at hk
        obtain ⟨q1, q2⟩ := hgs k grp hk
        have f1 : ∀ {α : Type} (gr : α → Nat) (L : List α),
            (L.filter fun x => decide (gr x ≠ g)).filter (fun t => decide (gr t = g + 1 + k)) =
              L.filter fun t => decide (gr t = g + (k + 1)) := by
          intro α gr L
          rw [List.filter_filter]
          apply List.filter_congr
          intro x _
          rw [Bool.eq_iff_iff]
          simp only [ne_eq, decide_not, Bool.and_eq_true, decide_eq_true_eq, Bool.not_eq_eq_eq_not, Bool.not_true,
            decide_eq_false_iff_not]
          omega
        have g1 := f1 (fun t : MaskedTree M => t.group) masked
        have g2 := f1 (fun t : OblTree M => t.group) obl
        refine ⟨?_, ?_⟩
        · rw [← g1]; exact q1
        · rw [← g2]; exact q2

/-! ### Sorting by group -/

theorem groupLt_weak {α : Type} (key : α → Nat × Int) (l : List α) : StrictWeak (groupLt key) l := by
  have h : ∀ a b, groupLt key a b = true ↔ (key a).1 < (key b).1 ∨ ((key a).1 = (key b).1 ∧ (key a).2 < (key b).2) := by
    intro a b
    unfold groupLt
    split
    · simp_all
    · rename_i hn
      simp [hn]
  have h' : ∀ a b, groupLt key a b = false ↔
      ¬ ((key a).1 < (key b).1 ∨ ((key a).1 = (key b).1 ∧ (key a).2 < (key b).2)) := by
    intro a b
    rw [← h]; simp
  constructor
  · intro a _
    rw [h']; omega
  · intro a _ b _ c _
    rw [h, h, h]; omega
  · intro a _ b _ c _
    rw [h', h', h']; omega

theorem group_sorted {α : Type} {o : Oracles} (ho : o.Ok) (key : α → Nat × Int) (l : List α) :
    (o.sort (groupLt key) l).Pairwise (fun a b => (key a).1 ≤ (key b).1) := by
  refine List.Pairwise.imp ?_ (ho.sort_sorted _ l (groupLt_weak key l))
  intro a b h
  by_contra hc
  simp only [groupLt, Bool.ite_eq_false_distrib] at h
  split at h
  · omega
  · simp at h; omega

/-! ### Sums -/

/-- The value of a placed tree. -/
def PT.value (w : Nat) (leaf : BitVec w → Option Nat) (env : Env) (p : PT M) (v : M) : Prop :=
  ∀ mask : BitVec w, (∀ i, mask.getLsbD i = true ↔ p.Hits w env i) → ∃ l, leaf mask = some l ∧ p.adj[l]? = some v

theorem loopIter_ok [Add M] {e : BitmaskEval w M} {masks : List (BitVec w)} {leaf : BitVec w → Option Nat} {T : List (PT M)}
    {env : Env} (htr : ∀ (j : Nat) (p : PT M), T[j]? = some p → ∃ off, e.trees[j]? = some off ∧
      ∀ l a, p.adj[l]? = some a → e.adjustments[off + l]? = some a) (hlen : masks.length = T.length)
    (hm : ∀ j i, Bit masks j i ↔ ∃ p, T[j]? = some p ∧ p.Hits w env i) {j : Nat} {p : PT M} (hj : T[j]? = some p) {v : M}
    (hv : p.value w leaf env v) (acc : M) : loopIter (· + ·) e masks leaf j acc = some (acc + v) := by
  obtain ⟨off, h1, h2⟩ := htr j p hj
  have hjl : j < masks.length := by rw [hlen]; exact (List.getElem?_eq_some_iff.1 hj).1
  obtain ⟨l, hl, hl2⟩ := hv masks[j] (fun i => by
    have := hm j i
    simp only [Bit, List.getElem?_eq_getElem hjl, Option.some.injEq, exists_eq_left', hj] at this
    exact this)
  simp [loopIter, h1, List.getElem?_eq_getElem hjl, hl, h2 l v hl2]

theorem pairLoop_ok [AddCommMonoid M] {e : BitmaskEval w M} {masks : List (BitVec w)} {leaf : BitVec w → Option Nat}
    {T : List (PT M)} {env : Env} (hit : ∀ j p v, T[j]? = some p → p.value w leaf env v → ∀ acc : M,
      loopIter (· + ·) e masks leaf j acc = some (acc + v)) : ∀ (L : List (PT M)) (vs : List M) (fuel id last : Nat) (a b : M),
    List.Forall₂ (fun p v => p.value w leaf env v) L vs → (∀ k, L[k]? = if k < L.length then T[id + k]? else none) →
    last = id + L.length → L.length % 2 = 0 → L.length ≤ fuel →
    pairLoop (· + ·) e masks leaf fuel id last a b = some (a + b + vs.sum)
  | [], vs, fuel, id, last, a, b, hf, hT, hl, hev, hfu => by
    cases hf
    have : id = last := by simp [hl]
    cases fuel <;> simp [pairLoop, this]
  | [_], vs, fuel, id, last, a, b, hf, hT, hl, hev, hfu => by simp at hev
  | p :: q :: L, vs, fuel, id, last, a, b, hf, hT, hl, hev, hfu => by
    cases hf with
    | @cons _ v _ vs hp hf =>
      cases hf with
      | @cons _ v2 _ vs hq hf =>
        simp only [List.length_cons] at hl hev hfu hT
        obtain ⟨fuel, rfl⟩ : ∃ x, fuel = x + 1 := ⟨fuel - 1, by omega⟩
        have t0 := hT 0
        have t1 := hT 1
        simp at t0 t1
        simp only [pairLoop]
        rw [if_neg (by omega), hit id p v t0.symm hp, Option.bind_eq_bind, Option.bind_some, hit (id + 1) q v2 t1.symm hq,
          Option.bind_some,
          pairLoop_ok hit L vs fuel (id + 2) last (a + v) (b + v2) hf (fun k => by
            have := hT (k + 2)
            simp only [List.getElem?_cons_succ] at this
            rw [this]
            by_cases hk : k < L.length
            · rw [if_pos hk, if_pos (by omega)]
              congr 1
              omega
            · rw [if_neg hk, if_neg (by omega)]) (by omega) (by omega) (by omega)]
        rw [List.sum_cons, List.sum_cons, add_add_add_comm a v b v2, add_assoc (a + b), add_assoc v]

theorem processRangeOfTrees_ok [AddCommMonoid M] {e : BitmaskEval w M} {masks : List (BitVec w)}
    {leaf : BitVec w → Option Nat} {T : List (PT M)} {env : Env}
    (hit : ∀ j p v, T[j]? = some p → p.value w leaf env v → ∀ acc : M,
      loopIter (· + ·) e masks leaf j acc = some (acc + v)) {r : Nat × Nat} {L : List (PT M)} {vs : List M}
    (hs : Slice T r L) (hf : List.Forall₂ (fun p v => p.value w leaf env v) L vs) :
    processRangeOfTrees 0 (· + ·) e masks leaf r = some vs.sum := by
  obtain ⟨pre, post, rfl, h1, h2⟩ := hs
  have hT : ∀ k, L[k]? = if k < L.length then (pre ++ L ++ post)[r.1 + k]? else none := by
    intro k
    split
    · rw [List.append_assoc, h1, List.getElem?_append_right (by omega), Nat.add_sub_cancel_left,
        List.getElem?_append_left (by assumption)]
    · exact List.getElem?_eq_none (by omega)
  have hd : r.2 - r.1 = L.length := by omega
  unfold processRangeOfTrees
  rw [hd]
  by_cases hev : L.length % 2 = 1
  · rw [if_pos hev]
    cases hf with
    | nil => simp at hev
    | @cons p v L vs hp hf =>
      have t0 := hT 0
      simp at t0
      rw [hit r.1 p v (by rw [List.append_assoc]; exact t0.symm) hp, Option.bind_eq_bind, Option.bind_some,
        pairLoop_ok hit L vs r.2 (r.1 + 1) r.2 0 _ hf (fun k => by
          have := hT (k + 1)
          simp only [List.getElem?_cons_succ, List.length_cons] at this
          rw [this]
          by_cases hk : k < L.length
          · rw [if_pos hk, if_pos (by omega)]
            congr 1
            omega
          · rw [if_neg hk, if_neg (by omega)]) (by simp only [List.length_cons] at h2; omega)
          (by simp only [List.length_cons] at hev; omega) (by simp only [List.length_cons] at h2; omega)]
      simp
  · rw [if_neg hev, pairLoop_ok hit L vs r.2 r.1 r.2 0 0 hf hT (by omega) (by omega) (by omega)]
    simp

theorem evalGroups_ok [AddCommMonoid M] {e : BitmaskEval w M} {masks : List (BitVec w)} : ∀ (gs : List Group)
    (outs : List M) (val : Nat → M) (g : Nat), gs.length = outs.length →
    (∀ k grp, gs[k]? = some grp → ∃ a b, processRangeOfTrees 0 (· + ·) e masks regularLeaf grp.reg = some a ∧
      processRangeOfTrees 0 (· + ·) e masks obliviousLeaf grp.obl = some b ∧ a + b = val (g + k)) →
    evalGroups 0 (· + ·) e masks gs outs = some ((List.range' g outs.length).zipWith (fun k x => x + val k) outs) := by
  intro gs
  induction gs with
  | nil =>
    intro outs val g hl _
    cases outs with
    | nil => rfl
    | cons => simp at hl
  | cons grp gs ih =>
    intro outs val g hl h
    cases outs with
    | nil => simp at hl
    | cons out outs =>
      obtain ⟨a, b, ha, hb, hab⟩ := h 0 grp rfl
      have := ih outs val (g + 1) (by simpa using hl) (fun k grp hk => by
        obtain ⟨a, b, h1, h2, h3⟩ := h (k + 1) grp hk
        exact ⟨a, b, h1, h2, by rw [h3]; congr 1; omega⟩)
      simp only [evalGroups, ha, hb, this, Option.bind_eq_bind, Option.bind_some, Option.pure_def, List.length_cons,
        List.range'_succ, List.zipWith_cons_cons, hab, Nat.add_zero]

end Verif.Forest
