import Verif.Agg.AccBufProps
import Mathlib.Data.List.Range

/-!
# `array.ordinal_rank`, `array.dense_rank` and `edge.group_by`
-/

namespace Verif.Agg

/-! ## Ranks stored at positions -/

theorem storeRanks_length (k : Nat) (l ranks : List Nat) : (storeRanks k l ranks).length = ranks.length := by
  induction l generalizing k ranks with
  | nil => rfl
  | cons p rest ih => rw [storeRanks, ih, List.length_set]

theorem storeRanks_other (k : Nat) (l ranks : List Nat) (p : Nat) (h : p ∉ l) : (storeRanks k l ranks)[p]? = ranks[p]? := by
  induction l generalizing k ranks with
  | nil => rfl
  | cons q rest ih =>
    rw [storeRanks, ih _ _ (fun hm => h (by simp [hm])), List.getElem?_set_ne (fun he => h (by simp [he]))]

theorem storeRanks_get (k : Nat) (l ranks : List Nat) (hn : l.Nodup) (hb : ∀ p ∈ l, p < ranks.length) (j p : Nat)
    (hj : l[j]? = some p) : (storeRanks k l ranks)[p]? = some (k + j) := by
  induction l generalizing k ranks j with
  | nil => simp at hj
  | cons q rest ih =>
    rw [storeRanks]
    cases j with
    | zero =>
      simp at hj
      subst hj
      rw [storeRanks_other _ _ _ _ (List.nodup_cons.1 hn).1, List.getElem?_set_self (hb q (by simp))]
      rfl
    | succ j =>
      rw [ih (k + 1) _ (List.nodup_cons.1 hn).2 (by intro p hp; rw [List.length_set]; exact hb p (by simp [hp])) j
        (by simpa using hj)]
      congr 1; omega

theorem resize_length (n : Nat) (l : List Nat) : (resize n l).length = n := by
  simp [resize]

/-- The elements which `OrdinalRankAccumulator` collects. -/
def ordinalElems (xs : List (T × Int)) : List (Elem T) := xs.zipIdx.map fun e => ⟨e.1.1, e.1.2, e.2⟩

theorem ordinal_after (c : Cmp T) (d : Bool) (sort : List (Elem T) → List (Elem T)) (xs : List (T × Int))
    (s : RankState (Elem T)) :
    (ordinalRank c d sort).after () xs s = ⟨0, ordinalElems xs, s.ranks⟩ := by
  induction xs using List.reverseRecOn with
  | nil => rfl
  | append_singleton xs a ih =>
    rw [Acc.after_concat, ih]
    simp [ordinalRank, ordinalElems, List.zipIdx_append]

theorem rank_results (acc : Acc P A (Option Nat) E (RankState X))
    (hget : ∀ s, acc.get s = (s.ranks[s.returnId]?, { s with returnId := s.returnId + 1 })) (n : Nat) (s : RankState X) :
    acc.fullResults n s = (List.range' s.returnId n).map fun k => s.ranks[k]? := by
  induction n generalizing s with
  | zero => rfl
  | succ n ih =>
    have : acc.fullResults (n + 1) s = (acc.get s).1 :: acc.fullResults n (acc.get s).2 := rfl
    rw [this, hget, ih, List.range'_succ, List.map_cons]

theorem ordinalElems_get (xs : List (T × Int)) (j : Nat) (e : Elem T) :
    (ordinalElems xs)[j]? = some e ↔ e.pos = j ∧ xs[j]? = some (e.value, e.tie) := by
  simp only [ordinalElems, List.getElem?_map, List.getElem?_zipIdx, Option.map_eq_some_iff]
  constructor
  · rintro ⟨⟨⟨v, t⟩, k⟩, ⟨x, hx, h⟩, rfl⟩
    simp at h
    obtain ⟨rfl, rfl⟩ := h
    exact ⟨rfl, hx⟩
  · rintro ⟨rfl, h⟩
    exact ⟨((e.value, e.tie), e.pos), ⟨_, h, by simp⟩, rfl⟩

theorem ordinalElems_mem (xs : List (T × Int)) (e : Elem T) :
    e ∈ ordinalElems xs ↔ xs[e.pos]? = some (e.value, e.tie) := by
  rw [List.mem_iff_getElem?]
  constructor
  · rintro ⟨j, hj⟩
    obtain ⟨rfl, h⟩ := (ordinalElems_get xs j e).1 hj
    exact h
  · intro h
    exact ⟨e.pos, (ordinalElems_get xs _ e).2 ⟨rfl, h⟩⟩

theorem ordinalElems_pos (xs : List (T × Int)) : (ordinalElems xs).map Elem.pos = List.range xs.length := by
  apply List.ext_getElem?
  intro j
  simp only [ordinalElems, List.getElem?_map, List.getElem?_zipIdx]
  by_cases h : j < xs.length
  · rw [List.getElem?_eq_getElem h, List.getElem?_range h]; simp
  · rw [List.getElem?_eq_none (by omega), List.getElem?_eq_none (by simp; omega)]; rfl

theorem filter_split_perm (p : X → Bool) (l : List X) :
    (l.filter (fun x => !p x) ++ l.filter p).Perm l := by
  have := List.filter_append_perm p l
  exact List.perm_append_comm.trans this

/-- How the ranks are ordered: values which are not NaN by (value, tie breaker, position) — the value in the opposite
direction if `descending` —, then NaNs by position. -/
def ordinalBefore (c : Cmp T) (descending : Bool) (a b : Elem T) : Prop :=
  if c.nan a.value = true then c.nan b.value = true ∧ a.pos < b.pos
  else c.nan b.value = true ∨
    (if descending then c.lt b.value a.value = true else c.lt a.value b.value = true) ∨
    (c.eq a.value b.value = true ∧ (a.tie < b.tie ∨ (a.tie = b.tie ∧ a.pos < b.pos)))

theorem Elem.less_iff (c : Cmp T) (hc : c.Ok) (d : Bool) (a b : Elem T) (ha : c.nan a.value = false)
    (hb : c.nan b.value = false) : a.less c d b = true ↔ ordinalBefore c d a b := by
  have h1 := hc.eq_iff a.value b.value ha hb
  simp only [ordinalBefore, ha, hb, Elem.less]
  cases d with
  | false =>
    simp only [Bool.false_eq_true, if_false, false_or, h1]
    cases hlt : c.lt a.value b.value <;> cases hgt : c.lt b.value a.value <;> simp <;> omega
  | true =>
    simp only [Bool.false_eq_true, if_false, false_or, if_true, h1]
    cases hlt : c.lt a.value b.value <;> cases hgt : c.lt b.value a.value <;> simp <;> omega

theorem ordinalBefore_total (c : Cmp T) (hc : c.Ok) (d : Bool) (a b : Elem T) (h : a.pos ≠ b.pos) :
    ordinalBefore c d a b ∨ ordinalBefore c d b a := by
  simp only [ordinalBefore]
  cases ha : c.nan a.value <;> cases hb : c.nan b.value <;> simp
  · have h1 := hc.eq_iff a.value b.value ha hb
    have h2 := hc.eq_iff b.value a.value hb ha
    rw [h1, h2]
    cases d <;> cases hlt : c.lt a.value b.value <;> cases hgt : c.lt b.value a.value <;> simp <;> omega
  · omega

theorem ordinalBefore_asymm (c : Cmp T) (hc : c.Ok) (d : Bool) (a b : Elem T) (h : ordinalBefore c d a b) :
    ¬ ordinalBefore c d b a := by
  simp only [ordinalBefore] at *
  have h3 := hc.trans a.value b.value a.value
  have h4 := hc.irrefl a.value
  cases ha : c.nan a.value <;> cases hb : c.nan b.value <;> rw [ha, hb] at h
  · have h1 := hc.eq_iff a.value b.value ha hb
    have h2 := hc.eq_iff b.value a.value hb ha
    rw [h1] at h
    rw [h2]
    cases d <;> cases hlt : c.lt a.value b.value <;> cases hgt : c.lt b.value a.value <;> simp_all <;> omega
  all_goals simp_all
  omega

theorem ordinalBefore_irrefl (c : Cmp T) (hc : c.Ok) (d : Bool) (a : Elem T) : ¬ ordinalBefore c d a a :=
  fun h => ordinalBefore_asymm c hc d a a h h

/-- The ranks are `0 … n-1` in the documented order — except that NaNs are ordered by position only. -/
theorem ordinalRank_result_partial (c : Cmp T) (hc : c.Ok) (d : Bool) (sort : List (Elem T) → List (Elem T))
    (hsort : SortOk (Elem.less c d) (fun e => c.nan e.value) sort) (xs : List (T × Int)) (s : RankState (Elem T)) :
    let s' := (ordinalRank c d sort).finalize ((ordinalRank c d sort).after () xs s)
    ∃ ranks : List Nat, (ordinalRank c d sort).fullResults xs.length s' = ranks.map some ∧ ranks.Perm (List.range xs.length) ∧
      ∀ (i j : Nat) vi ti vj tj ri rj, xs[i]? = some (vi, ti) → xs[j]? = some (vj, tj) →
        ranks[i]? = some ri → ranks[j]? = some rj →
        (ri < rj ↔ ordinalBefore c d ⟨vi, ti, i⟩ ⟨vj, tj, j⟩) := by
  intro s'
  let E := ordinalElems xs
  let L := sort (E.filter fun e => !c.nan e.value) ++ E.filter fun e => c.nan e.value
  have hfront : ∀ e ∈ E.filter (fun e => !c.nan e.value), c.nan e.value = false := by
    intro e he; simpa using (List.mem_filter.1 he).2
  obtain ⟨hp, hpw⟩ := hsort _ hfront
  have hL : L.Perm E := (hp.append_right _).trans (filter_split_perm (fun e => c.nan e.value) E)
  have hpos : (L.map Elem.pos).Perm (List.range xs.length) := by
    have := hL.map Elem.pos
    rwa [ordinalElems_pos] at this
  have hnd : (L.map Elem.pos).Nodup := hpos.nodup_iff.2 List.nodup_range
  have hs' : s' = ⟨0, L, storeRanks 0 (L.map Elem.pos) (resize xs.length s.ranks)⟩ := by
    simp only [s', ordinal_after]
    have hl : (ordinalElems xs).length = xs.length := by simp [ordinalElems]
    simp only [ordinalRank, hl]
    rfl
  have hlen : (storeRanks 0 (L.map Elem.pos) (resize xs.length s.ranks)).length = xs.length := by
    rw [storeRanks_length, resize_length]
  have hLlen : L.length = xs.length := by
    have := hpos.length_eq; simpa using this
  have hget : ∀ (j : Nat) (e : Elem T), L[j]? = some e →
      (storeRanks 0 (L.map Elem.pos) (resize xs.length s.ranks))[e.pos]? = some j := by
    intro j e he
    have := storeRanks_get 0 (L.map Elem.pos) (resize xs.length s.ranks) hnd (by
      intro p hp'
      rw [resize_length]
      exact List.mem_range.1 (hpos.mem_iff.1 hp')) j e.pos (by rw [List.getElem?_map, he]; rfl)
    simpa using this
  -- the order of `L`
  have hord : L.Pairwise (ordinalBefore c d) := by
    have hposne : L.Pairwise fun a b => a.pos ≠ b.pos := List.pairwise_map.1 hnd
    rw [List.pairwise_append] at hposne
    rw [List.pairwise_append]
    refine ⟨?_, ?_, ?_⟩
    · have := hpw.and hposne.1
      refine List.Pairwise.imp_of_mem ?_ this
      intro a b ha hb hab
      have hna := hfront a (hp.mem_iff.1 ha)
      have hnb := hfront b (hp.mem_iff.1 hb)
      rcases ordinalBefore_total c hc d a b hab.2 with h | h
      · exact h
      · rw [← Elem.less_iff c hc d b a hnb hna] at h
        rw [hab.1] at h; cases h
    · have hE : E.Pairwise fun a b => a.pos < b.pos := by
        have := List.pairwise_lt_range (n := xs.length)
        rw [← ordinalElems_pos xs] at this
        exact List.pairwise_map.1 this
      refine List.Pairwise.imp_of_mem ?_ (hE.filter _)
      intro a b ha hb hab
      have hna : c.nan a.value = true := by simpa using (List.mem_filter.1 ha).2
      have hnb : c.nan b.value = true := by simpa using (List.mem_filter.1 hb).2
      simp [ordinalBefore, hna, hnb, hab]
    · intro a ha b hb
      have hna := hfront a (hp.mem_iff.1 ha)
      have hnb : c.nan b.value = true := by simpa using (List.mem_filter.1 hb).2
      simp [ordinalBefore, hna, hnb]
  -- index of each element in `L`
  have hidx : ∀ (i : Nat) vi ti ri, xs[i]? = some (vi, ti) →
      (storeRanks 0 (L.map Elem.pos) (resize xs.length s.ranks))[i]? = some ri → L[ri]? = some ⟨vi, ti, i⟩ := by
    intro i vi ti ri hx hr
    have hm : (⟨vi, ti, i⟩ : Elem T) ∈ L := hL.mem_iff.2 ((ordinalElems_mem xs _).2 hx)
    obtain ⟨j, hj⟩ := List.mem_iff_getElem?.1 hm
    have := hget j _ hj
    rw [hr] at this
    cases this
    exact hj
  refine ⟨storeRanks 0 (L.map Elem.pos) (resize xs.length s.ranks), ?_, ?_, ?_⟩
  · rw [rank_results _ (fun _ => rfl), hs']
    apply List.ext_getElem?
    intro k
    simp only [List.getElem?_map]
    by_cases hk : k < xs.length
    · rw [List.getElem?_range' hk]
      simp only [Option.map_some, Nat.zero_add, Nat.one_mul]
      rw [List.getElem?_eq_getElem (by omega)]
      rfl
    · rw [List.getElem?_eq_none (by simp; omega), List.getElem?_eq_none (by omega)]
      rfl
  · -- a list of length `n` which contains all of `0 … n-1`
    apply List.Perm.symm
    apply List.Subperm.perm_of_length_le
    · apply List.subperm_of_subset List.nodup_range
      intro j hj
      have hj := List.mem_range.1 hj
      have : L[j]? = some L[j] := List.getElem?_eq_getElem (by omega)
      exact List.mem_of_getElem? (hget j _ this)
    · rw [hlen, List.length_range]
  · intro i j vi ti vj tj ri rj hxi hxj hri hrj
    have h1 := hidx i vi ti ri hxi hri
    have h2 := hidx j vj tj rj hxj hrj
    have hl1 := (List.getElem?_eq_some_iff.1 h1)
    have hl2 := (List.getElem?_eq_some_iff.1 h2)
    obtain ⟨hl1, he1⟩ := hl1
    obtain ⟨hl2, he2⟩ := hl2
    rw [List.pairwise_iff_getElem] at hord
    constructor
    · intro hlt
      have := hord ri rj hl1 hl2 hlt
      rwa [he1, he2] at this
    · intro hb
      rcases Nat.lt_trichotomy ri rj with h | h | h
      · exact h
      · subst h
        rw [he1] at he2
        rw [he2] at hb
        exact absurd hb (ordinalBefore_irrefl c hc d _)
      · have := hord rj ri hl2 hl1 h
        rw [he1, he2] at this
        exact absurd this (ordinalBefore_asymm c hc d _ _ hb)

/-- The documentation promises that equal elements are ordered by the tie breaker.  It is ignored for NaNs. -/
theorem ordinalRank_nan_counterexample (sort : List (Elem (Option Int)) → List (Elem (Option Int)))
    (hsort : SortOk (Elem.less nanCmp false) (fun e => nanCmp.nan e.value) sort) :
    (ordinalRank nanCmp false sort).fullResults 2 ((ordinalRank nanCmp false sort).finalize
      ((ordinalRank nanCmp false sort).after () [(none, 1), (none, 0)] ⟨0, [], []⟩)) = [some 0, some 1] := by
  have h : sort [] = [] := by
    have := (hsort [] (by simp)).1
    exact List.Perm.eq_nil this
  simp [ordinalRank, Acc.after, Acc.fullResults, nanCmp, h, storeRanks, resize]

example : SortOk (Elem.less intCmp false) (fun e => intCmp.nan e.value)
    (fun l => l.mergeSort fun a b => !Elem.less intCmp false b a) := by
  intro l _
  refine ⟨List.mergeSort_perm _ _, ?_⟩
  have := List.pairwise_mergeSort (le := fun a b => !Elem.less intCmp false b a) (by
    intro a b d h1 h2
    simp [Elem.less, intCmp] at *
    omega) (by
    intro a b
    simp [Elem.less, intCmp]
    omega) l
  exact this.imp (by intro a b h; simpa using h)

end Verif.Agg
