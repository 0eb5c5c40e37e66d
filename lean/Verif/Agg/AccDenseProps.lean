import Verif.Agg.AccRankProps

/-!
# `array.dense_rank` and `edge.group_by`
-/

namespace Verif.Agg

/-- The ranks which the loop computes, in the order of the loop. -/
def denseVals (c : Cmp T) : T → Nat → List T → List Nat
  | _, _, [] => []
  | prev, rank, v :: rest =>
    let rank := if !c.eq v prev then rank + 1 else rank
    rank :: denseVals c v rank rest

def storeAt : List (Nat × Nat) → List Nat → List Nat
  | [], ranks => ranks
  | (pos, r) :: rest, ranks => storeAt rest (ranks.set pos r)

theorem denseLoop_eq (c : Cmp T) (prev : T) (rank : Nat) (l : List (T × Nat)) (ranks : List Nat) :
    denseLoop c prev rank l ranks = storeAt ((l.map Prod.snd).zip (denseVals c prev rank (l.map Prod.fst))) ranks := by
  induction l generalizing prev rank ranks with
  | nil => rfl
  | cons e rest ih =>
    obtain ⟨v, pos⟩ := e
    simp only [denseLoop, ih, List.map_cons, denseVals, List.zip_cons_cons, storeAt]

theorem storeAt_length (l : List (Nat × Nat)) (ranks : List Nat) : (storeAt l ranks).length = ranks.length := by
  induction l generalizing ranks with
  | nil => rfl
  | cons e rest ih => obtain ⟨p, r⟩ := e; rw [storeAt, ih, List.length_set]

theorem storeAt_other (l : List (Nat × Nat)) (ranks : List Nat) (p : Nat) (h : p ∉ l.map Prod.fst) :
    (storeAt l ranks)[p]? = ranks[p]? := by
  induction l generalizing ranks with
  | nil => rfl
  | cons e rest ih =>
    obtain ⟨q, r⟩ := e
    rw [storeAt, ih _ (fun hm => h (by simp [List.mem_map.1 hm])), List.getElem?_set_ne (fun he => h (by simp [he]))]

theorem storeAt_get (l : List (Nat × Nat)) (ranks : List Nat) (hn : (l.map Prod.fst).Nodup)
    (hb : ∀ e ∈ l, e.1 < ranks.length) (p r : Nat) (h : (p, r) ∈ l) : (storeAt l ranks)[p]? = some r := by
  induction l generalizing ranks with
  | nil => simp at h
  | cons e rest ih =>
    obtain ⟨q, r'⟩ := e
    rw [storeAt]
    simp only [List.map_cons, List.nodup_cons] at hn
    rcases List.mem_cons.1 h with h | h
    · cases h
      rw [storeAt_other _ _ _ hn.1, List.getElem?_set_self (hb (p, r) (by simp))]
    · exact ih _ hn.2 (by intro e he; rw [List.length_set]; exact hb e (by simp [he])) h

/-- `std::sort` order with NaNs at the end. -/
def sortedBefore (c : Cmp T) (a b : T) : Prop :=
  c.nan b = true ∨ (c.nan a = false ∧ c.lt b a = false)

theorem denseVals_length (c : Cmp T) (prev : T) (rank : Nat) (l : List T) : (denseVals c prev rank l).length = l.length := by
  induction l generalizing prev rank with
  | nil => rfl
  | cons v rest ih => simp [denseVals, ih]

theorem eq_trans' (c : Cmp T) (hc : c.Ok) (a b d : T) (h1 : c.eq a b = true) (h2 : c.eq b d = true) : c.eq a d = true := by
  have hn : ∀ x y, c.eq x y = true → c.nan x = false ∧ c.nan y = false := by
    intro x y h
    constructor <;> (by_contra h'; have h' := (Bool.not_eq_false _).mp h'; rw [hc.nan_eq x y (by simp [h'])] at h; cases h)
  obtain ⟨ha, hb⟩ := hn _ _ h1
  obtain ⟨_, hd⟩ := hn _ _ h2
  rw [hc.eq_iff _ _ ha hb] at h1
  rw [hc.eq_iff _ _ hb hd] at h2
  rw [hc.eq_iff _ _ ha hd]
  have t1 := hc.total a b d hb
  have t2 := hc.total d b a hb
  cases h3 : c.lt a d <;> cases h4 : c.lt d a <;> simp_all

theorem eq_symm' (c : Cmp T) (hc : c.Ok) (a b : T) : c.eq a b = c.eq b a := by
  cases ha : c.nan a
  · cases hb : c.nan b
    · have h1 := hc.eq_iff a b ha hb
      have h2 := hc.eq_iff b a hb ha
      cases h3 : c.eq a b <;> cases h4 : c.eq b a <;> simp_all
    · rw [hc.nan_eq a b (by simp [hb]), hc.nan_eq b a (by simp [hb])]
  · rw [hc.nan_eq a b (by simp [ha]), hc.nan_eq b a (by simp [ha])]

theorem denseVals_head (c : Cmp T) (hc : c.Ok) (rest : List T) : ∀ (v : T) (r : Nat),
    (v :: rest).Pairwise (sortedBefore c) → ∀ b rb, (b, rb) ∈ rest.zip (denseVals c v r rest) →
      r ≤ rb ∧ (r = rb ↔ c.eq b v = true) := by
  induction rest with
  | nil => intro v r _ b rb h; simp at h
  | cons w rest ih =>
    intro v r hp b rb hb
    simp only [denseVals, List.zip_cons_cons, List.mem_cons] at hb
    rw [List.pairwise_cons] at hp
    rcases hb with hb | hb
    · cases hb
      cases h : c.eq w v <;> simp
    · obtain ⟨h1, h2⟩ := ih w _ hp.2 b rb hb
      cases h : c.eq w v
      · simp only [h, Bool.not_false, if_true] at h1 h2
        refine ⟨by omega, ?_⟩
        constructor
        · intro he; omega
        · intro he
          exfalso
          have hbm := List.of_mem_zip hb
          have hvw := hp.1 w (by simp)
          have hwb := (List.pairwise_cons.1 hp.2).1 b hbm.1
          have hnb : c.nan b = false := by
            by_contra h'; rw [hc.nan_eq b v (by simp [(Bool.not_eq_false _).mp h'])] at he; cases he
          have hnv : c.nan v = false := by
            by_contra h'; rw [hc.nan_eq b v (by simp [(Bool.not_eq_false _).mp h'])] at he; cases he
          simp only [sortedBefore, hnb, Bool.false_eq_true, false_or] at hwb
          simp only [sortedBefore, hwb.1, Bool.false_eq_true, false_or] at hvw
          rw [hc.eq_iff b v hnb hnv] at he
          have hne : ¬ c.eq w v = true := by rw [h]; simp
          rw [hc.eq_iff w v hwb.1 hnv] at hne
          have hvw2 : c.lt v w = true := by
            cases h5 : c.lt v w
            · exact absurd ⟨hvw.2, h5⟩ hne
            · rfl
          rcases hc.total v b w hnb hvw2 with h6 | h6
          · rw [he.2] at h6; cases h6
          · rw [hwb.2] at h6; cases h6
      · simp only [h, Bool.not_true, Bool.false_eq_true, if_false] at h1 h2
        refine ⟨h1, h2.trans ?_⟩
        constructor
        · intro he; exact eq_trans' c hc b w v he h
        · intro he; exact eq_trans' c hc b v w he (by rw [eq_symm' c hc]; exact h)

theorem denseVals_pairwise (c : Cmp T) (hc : c.Ok) (rest : List T) : ∀ (v : T) (r : Nat),
    (v :: rest).Pairwise (sortedBefore c) →
    ((v, r) :: rest.zip (denseVals c v r rest)).Pairwise fun a b => a.2 ≤ b.2 ∧ (a.2 = b.2 ↔ c.eq b.1 a.1 = true) := by
  induction rest with
  | nil => intro v r _; simp [denseVals]
  | cons w rest ih =>
    intro v r hp
    rw [List.pairwise_cons]
    refine ⟨fun b hb => denseVals_head c hc _ v r hp b.1 b.2 hb, ?_⟩
    simp only [denseVals, List.zip_cons_cons]
    exact ih w _ (List.pairwise_cons.1 hp).2

theorem denseVals_dense (c : Cmp T) (rest : List T) : ∀ (v : T) (r : Nat), ∀ x ∈ denseVals c v r rest, ∀ y, r ≤ y → y ≤ x →
    y = r ∨ y ∈ denseVals c v r rest := by
  induction rest with
  | nil => intro v r x hx; simp [denseVals] at hx
  | cons w rest ih =>
    intro v r x hx y hy1 hy2
    simp only [denseVals, List.mem_cons] at hx ⊢
    rcases hx with rfl | hx
    · cases h : c.eq w v <;> simp [h] at hy2 ⊢ <;> omega
    · cases h : c.eq w v
      · simp only [h, Bool.not_false, if_true] at hx ⊢
        rcases Nat.eq_or_lt_of_le hy1 with h1 | h1
        · exact Or.inl h1.symm
        · rcases ih w (r + 1) x hx y h1 hy2 with h2 | h2
          · exact Or.inr (Or.inl h2)
          · exact Or.inr (Or.inr h2)
      · simp only [h, Bool.not_true, Bool.false_eq_true, if_false] at hx ⊢
        rcases ih w r x hx y hy1 hy2 with h2 | h2
        · exact Or.inl h2
        · exact Or.inr (Or.inr h2)

theorem dense_after (c : Cmp T) (part) (xs : List T) (s : RankState (T × Nat)) :
    (denseRank c part).after () xs s = ⟨0, xs.zipIdx, s.ranks⟩ := by
  induction xs using List.reverseRecOn with
  | nil => rfl
  | append_singleton xs a ih =>
    rw [Acc.after_concat, ih]
    simp [denseRank, List.zipIdx_append]

/-- Elements with equal values share a rank, smaller values have smaller ranks, NaNs come last and each has its own rank,
and the ranks are consecutive numbers from zero. -/
theorem denseRank_result (c : Cmp T) (hc : c.Ok) (part : List (T × Nat) → List (T × Nat) × List (T × Nat))
    (hpart : PartitionOk c part) (xs : List T) (s : RankState (T × Nat)) :
    let s' := (denseRank c part).finalize ((denseRank c part).after () xs s)
    ∃ ranks : List Nat, (denseRank c part).fullResults xs.length s' = ranks.map some ∧ ranks.length = xs.length ∧
      (∀ r ∈ ranks, ∀ r' ≤ r, r' ∈ ranks) ∧
      ∀ (i j : Nat) vi vj ri rj, xs[i]? = some vi → xs[j]? = some vj → ranks[i]? = some ri → ranks[j]? = some rj →
        (c.nan vi = false → c.nan vj = false → (ri < rj ↔ c.lt vi vj = true)) ∧
        (c.nan vi = false → c.nan vj = true → ri < rj) ∧
        (c.nan vi = true → c.nan vj = true → i ≠ j → ri ≠ rj) := by
  intro s'
  obtain ⟨hperm, hfront, hback, hsorted⟩ := hpart xs.zipIdx
  generalize hL : (part xs.zipIdx).1 ++ (part xs.zipIdx).2 = L at hperm
  have hmem : ∀ v p, (v, p) ∈ L ↔ xs[p]? = some v := by
    intro v p
    rw [hperm.mem_iff, List.mk_mem_zipIdx_iff_getElem?]
  have hposeq : xs.zipIdx.map Prod.snd = List.range xs.length := by
    rw [List.zipIdx_map_snd, List.range_eq_range']
  have hpos : (L.map Prod.snd).Perm (List.range xs.length) := hposeq ▸ hperm.map Prod.snd
  have hnd : (L.map Prod.snd).Nodup := hpos.nodup_iff.2 List.nodup_range
  have hLlen : L.length = xs.length := by have := hpos.length_eq; simpa using this
  have hpw : (L.map Prod.fst).Pairwise (sortedBefore c) := by
    rw [List.pairwise_map, ← hL, List.pairwise_append]
    refine ⟨?_, ?_, ?_⟩
    · refine List.Pairwise.imp_of_mem ?_ hsorted
      intro a b ha hb h
      exact Or.inr ⟨hfront a ha, h⟩
    · rw [List.pairwise_iff_forall_sublist]
      intro a b hab
      exact Or.inl (hback b (hab.subset (by simp)))
    · intro a ha b hb
      exact Or.inl (hback b hb)
  have hfin : s' = (denseRank c part).finalize ⟨0, xs.zipIdx, s.ranks⟩ := by simp only [s', dense_after]
  have hlen' : xs.zipIdx.length = xs.length := by simp
  cases hLc : L with
  | nil =>
    have h0 : xs = [] := by
      rw [hLc] at hLlen; exact List.length_eq_zero_iff.1 (by simpa using hLlen.symm)
    subst h0
    exact ⟨[], rfl, rfl, by simp, by intro i j vi vj ri rj h; simp at h⟩
  | cons e rest =>
    obtain ⟨v, pos⟩ := e
    have hs' : s' = ⟨0, L, storeAt ((pos, 0) :: (rest.map Prod.snd).zip (denseVals c v 0 (rest.map Prod.fst)))
        (resize xs.length s.ranks)⟩ := by
      rw [hfin]
      have hL' : (part xs.zipIdx).1 ++ (part xs.zipIdx).2 = (v, pos) :: rest := hL.trans hLc
      simp only [denseRank, hlen', hL', denseLoop_eq, storeAt, hLc]
    let vals := 0 :: denseVals c v 0 (rest.map Prod.fst)
    let Z := (pos, 0) :: (rest.map Prod.snd).zip (denseVals c v 0 (rest.map Prod.fst))
    have hZ : Z = (L.map Prod.snd).zip vals := by simp [Z, vals, hLc]
    have hvl : vals.length = L.length := by simp [vals, denseVals_length, hLc]
    have hZ1 : Z.map Prod.fst = L.map Prod.snd := by
      rw [hZ]; exact List.map_fst_zip (by simp [hvl])
    have hb : ∀ e ∈ Z, e.1 < (resize xs.length s.ranks).length := by
      intro e he
      rw [resize_length]
      have : e.1 ∈ L.map Prod.snd := by rw [← hZ1]; exact List.mem_map_of_mem he
      exact List.mem_range.1 (hpos.mem_iff.1 this)
    have hlenR : (storeAt Z (resize xs.length s.ranks)).length = xs.length := by rw [storeAt_length, resize_length]
    have hget : ∀ (k : Nat) w p r, L[k]? = some (w, p) → vals[k]? = some r →
        (storeAt Z (resize xs.length s.ranks))[p]? = some r := by
      intro k w p r h1 h2
      apply storeAt_get Z _ (by rw [hZ1]; exact hnd) hb
      rw [hZ]
      apply List.mem_of_getElem? (i := k)
      rw [List.getElem?_zip_eq_some]
      exact ⟨by rw [List.getElem?_map, h1]; rfl, h2⟩
    have hidx : ∀ (i : Nat) vi ri, xs[i]? = some vi → (storeAt Z (resize xs.length s.ranks))[i]? = some ri →
        ∃ k : Nat, L[k]? = some (vi, i) ∧ vals[k]? = some ri := by
      intro i vi ri hx hr
      obtain ⟨k, hk⟩ := List.mem_iff_getElem?.1 ((hmem vi i).2 hx)
      have hkl := (List.getElem?_eq_some_iff.1 hk).1
      have hv : vals[k]? = some vals[k] := List.getElem?_eq_getElem (by omega)
      have := hget k vi i _ hk hv
      rw [hr] at this
      cases this
      exact ⟨k, hk, hv⟩
    have hord : ((L.map Prod.fst).zip vals).Pairwise fun a b => a.2 ≤ b.2 ∧ (a.2 = b.2 ↔ c.eq b.1 a.1 = true) := by
      have h1 : (v :: rest.map Prod.fst).Pairwise (sortedBefore c) := by rw [hLc] at hpw; exact hpw
      have := denseVals_pairwise c hc (rest.map Prod.fst) v 0 h1
      have h2 : (L.map Prod.fst).zip vals = (v, 0) :: (rest.map Prod.fst).zip (denseVals c v 0 (rest.map Prod.fst)) := by
        simp [vals, hLc]
      rw [h2]
      exact this
    have hlt : ∀ (k l : Nat) a pa ra b pb rb, k < l → L[k]? = some (a, pa) → L[l]? = some (b, pb) →
        vals[k]? = some ra → vals[l]? = some rb → ra ≤ rb ∧ (ra = rb ↔ c.eq b a = true) ∧ sortedBefore c a b := by
      intro k l a pa ra b pb rb hkl h1 h2 h3 h4
      have e1 : ((L.map Prod.fst).zip vals)[k]? = some (a, ra) := by
        rw [List.getElem?_zip_eq_some]; exact ⟨by rw [List.getElem?_map, h1]; rfl, h3⟩
      have e2 : ((L.map Prod.fst).zip vals)[l]? = some (b, rb) := by
        rw [List.getElem?_zip_eq_some]; exact ⟨by rw [List.getElem?_map, h2]; rfl, h4⟩
      obtain ⟨l1, e1⟩ := List.getElem?_eq_some_iff.1 e1
      obtain ⟨l2, e2⟩ := List.getElem?_eq_some_iff.1 e2
      have := List.pairwise_iff_getElem.1 hord k l l1 l2 hkl
      rw [e1, e2] at this
      have e3 : (L.map Prod.fst)[k]? = some a := by rw [List.getElem?_map, h1]; rfl
      have e4 : (L.map Prod.fst)[l]? = some b := by rw [List.getElem?_map, h2]; rfl
      obtain ⟨l3, e3⟩ := List.getElem?_eq_some_iff.1 e3
      obtain ⟨l4, e4⟩ := List.getElem?_eq_some_iff.1 e4
      have h5 := List.pairwise_iff_getElem.1 hpw k l l3 l4 hkl
      rw [e3, e4] at h5
      exact ⟨this.1, this.2, h5⟩
    have hmemR : ∀ r, r ∈ storeAt Z (resize xs.length s.ranks) ↔ r ∈ vals := by
      intro r
      constructor
      · intro h
        obtain ⟨i, hi⟩ := List.mem_iff_getElem?.1 h
        have hil := (List.getElem?_eq_some_iff.1 hi).1
        obtain ⟨k, _, hk⟩ := hidx i xs[i] r (List.getElem?_eq_getElem (by omega)) hi
        exact List.mem_of_getElem? hk
      · intro h
        obtain ⟨k, hk⟩ := List.mem_iff_getElem?.1 h
        have hkl := (List.getElem?_eq_some_iff.1 hk).1
        have hl : L[k]? = some L[k] := List.getElem?_eq_getElem (by omega)
        exact List.mem_of_getElem? (hget k L[k].1 L[k].2 r hl hk)
    refine ⟨storeAt Z (resize xs.length s.ranks), ?_, hlenR, ?_, ?_⟩
    · rw [rank_results _ (fun _ => rfl), hs']
      apply List.ext_getElem?
      intro k
      simp only [List.getElem?_map]
      by_cases hk : k < xs.length
      · rw [List.getElem?_range' hk]
        simp only [Option.map_some, Nat.zero_add, Nat.one_mul]
        rw [List.getElem?_eq_getElem (show k < (storeAt Z (resize xs.length s.ranks)).length by omega)]
        rfl
      · rw [List.getElem?_eq_none (by simp; omega),
          List.getElem?_eq_none (show (storeAt Z (resize xs.length s.ranks)).length ≤ k by omega)]
        rfl
    · intro r hr r' hr'
      rw [hmemR] at hr ⊢
      rcases List.mem_cons.1 hr with rfl | hr
      · have : r' = 0 := by omega
        simp [vals, this]
      · rcases denseVals_dense c (rest.map Prod.fst) v 0 r hr r' (by omega) hr' with h | h
        · simp [vals, h]
        · simp [vals, h]
    · intro i j vi vj ri rj hxi hxj hri hrj
      obtain ⟨k, hk1, hk2⟩ := hidx i vi ri hxi hri
      obtain ⟨l, hl1, hl2⟩ := hidx j vj rj hxj hrj
      have hirr := hc.irrefl vi
      rcases Nat.lt_trichotomy k l with hkl | hkl | hkl
      · obtain ⟨h1, h2, h3⟩ := hlt k l vi i ri vj j rj hkl hk1 hl1 hk2 hl2
        refine ⟨?_, ?_, ?_⟩
        · intro hni hnj
          simp only [sortedBefore, hnj, hni, Bool.false_eq_true, false_or, true_and] at h3
          have h4 := hc.eq_iff vj vi hnj hni
          rw [h4] at h2
          constructor
          · intro h; cases h5 : c.lt vi vj
            · have := h2.2 ⟨h3, h5⟩; omega
            · rfl
          · intro h
            have : ri ≠ rj := fun he => by have := (h2.1 he).2; rw [h] at this; cases this
            omega
        · intro hni hnj
          have : ri ≠ rj := fun he => by have := h2.1 he; rw [hc.nan_eq vj vi (by simp [hnj])] at this; cases this
          omega
        · intro hni hnj _ he
          have := h2.1 he; rw [hc.nan_eq vj vi (by simp [hnj])] at this; cases this
      · subst hkl
        rw [hk1] at hl1
        cases hl1
        rw [hk2] at hl2
        cases hl2
        exact ⟨fun _ _ => (by simp [hirr]), fun h1 h2 => (by rw [h1] at h2; cases h2), fun _ _ h => absurd rfl h⟩
      · obtain ⟨h1, h2, h3⟩ := hlt l k vj j rj vi i ri hkl hl1 hk1 hl2 hk2
        refine ⟨?_, ?_, ?_⟩
        · intro hni hnj
          simp only [sortedBefore, hnj, hni, Bool.false_eq_true, false_or, true_and] at h3
          constructor
          · intro h; omega
          · intro h; rw [h3] at h; cases h
        · intro hni hnj
          simp only [sortedBefore, hnj, hni, Bool.false_eq_true, false_or, Bool.true_eq_false, false_and] at h3
        · intro hni hnj _ he
          have := h2.1 he.symm; rw [hc.nan_eq vi vj (by simp [hnj])] at this; cases this

example : PartitionOk intCmp (fun l => (l.mergeSort fun a b => decide (a.1 ≤ b.1), [])) := by
  intro l
  refine ⟨by simpa using List.mergeSort_perm _ _, by simp [intCmp], by simp, ?_⟩
  have := List.pairwise_mergeSort (le := fun (a b : Int × Nat) => decide (a.1 ≤ b.1)) (by
    intro a b d h1 h2; simp at *; omega) (by intro a b; simp; omega) l
  exact this.imp (by intro a b h; simp [intCmp] at *; omega)

/-! ## `edge.group_by` -/

/-- `GroupByAccumulator`s of several groups which share the counter, as `DenseGroupOps` and `ArrayGroupOp` use them: the
keys arrive with the number of their group. -/
def groupByRun (c : Cmp T) : List (Nat × T) → (Nat → List (T × Int)) → Int → List Int
  | [], _, _ => []
  | (g, x) :: rest, index, counter =>
    let s := (groupBy c).add x ⟨index g, counter, 0, none⟩
    ((groupBy c).get s).1 :: groupByRun c rest (fun h => if h = g then s.index else index h) s.counter

/-- What was emitted so far. -/
structure GroupInv (c : Cmp T) (hist : List ((Nat × T) × Int)) (index : Nat → List (T × Int)) (k : Int) : Prop where
  nonneg : 0 ≤ k
  emitted : ∀ e ∈ hist, c.nan e.1.2 = false ∧ 0 ≤ e.2 ∧ e.2 < k ∧ ∃ q ∈ index e.1.1, q.2 = e.2 ∧ c.eq q.1 e.1.2 = true
  indexed : ∀ g, ∀ q ∈ index g, ((g, q.1), q.2) ∈ hist
  same : ∀ e ∈ hist, ∀ f ∈ hist, (e.2 = f.2 ↔ e.1.1 = f.1.1 ∧ c.eq e.1.2 f.1.2 = true)
  all : ∀ r, 0 ≤ r → r < k → ∃ e ∈ hist, e.2 = r

theorem GroupInv.step {c : Cmp T} (hc : c.Ok) {hist index k} (h : GroupInv c hist index k) (g : Nat) (x : T)
    (hx : c.nan x = false) :
    GroupInv c (hist ++ [((g, x), ((groupBy c).add x ⟨index g, k, 0, none⟩).next)])
      (fun h => if h = g then ((groupBy c).add x ⟨index g, k, 0, none⟩).index else index h)
      ((groupBy c).add x ⟨index g, k, 0, none⟩).counter := by
  have hxx : c.eq x x = true := (hc.eq_iff x x hx hx).2 ⟨hc.irrefl x, hc.irrefl x⟩
  have hsym := eq_symm' c hc
  cases hf : (index g).find? fun e => c.eq e.1 x with
  | some q =>
    have hs : (groupBy c).add x ⟨index g, k, 0, none⟩ = ⟨index g, k, q.2, none⟩ := by
      simp [groupBy, groupByAdd, hx, hf]
    rw [hs]
    have hqm := List.mem_of_find?_eq_some hf
    have hqe : c.eq q.1 x = true := by simpa using List.find?_some hf
    have hqh := h.indexed g q hqm
    have hqi := h.emitted _ hqh
    have hindex : (fun h => if h = g then index g else index h) = index := by
      funext h'; split
      · rename_i he; rw [he]
      · rfl
    simp only [hindex]
    refine ⟨h.nonneg, ?_, ?_, ?_, ?_⟩
    · intro e he
      rcases List.mem_append.1 he with he | he
      · exact h.emitted e he
      · simp at he; subst he
        exact ⟨hx, hqi.2.1, hqi.2.2.1, q, hqm, rfl, hqe⟩
    · intro g' q' hq'
      exact List.mem_append_left _ (h.indexed g' q' hq')
    · have hnew : ∀ f ∈ hist, (q.2 = f.2 ↔ g = f.1.1 ∧ c.eq x f.1.2 = true) := by
        intro f hf'
        have := h.same _ hqh f hf'
        simp only at this
        rw [this]
        constructor
        · rintro ⟨h1, h2⟩
          exact ⟨h1, eq_trans' c hc _ _ _ (by rw [hsym]; exact hqe) h2⟩
        · rintro ⟨h1, h2⟩
          exact ⟨h1, eq_trans' c hc _ _ _ hqe h2⟩
      intro e he f hf'
      rcases List.mem_append.1 he with he | he <;> rcases List.mem_append.1 hf' with hf' | hf'
      · exact h.same e he f hf'
      · simp at hf'; subst hf'
        have := hnew e he
        constructor
        · intro h'; have := this.1 h'.symm; exact ⟨this.1.symm, by rw [hsym]; exact this.2⟩
        · intro h'; exact (this.2 ⟨h'.1.symm, by rw [hsym]; exact h'.2⟩).symm
      · simp at he; subst he; exact hnew f hf'
      · simp at he hf'; subst he; subst hf'; simp [hxx]
    · intro r h1 h2
      obtain ⟨e, he, hr⟩ := h.all r h1 h2
      exact ⟨e, List.mem_append_left _ he, hr⟩
  | none =>
    have hs : (groupBy c).add x ⟨index g, k, 0, none⟩ = ⟨index g ++ [(x, k)], k + 1, k, none⟩ := by
      simp [groupBy, groupByAdd, hx, hf]
    rw [hs]
    have hnone : ∀ q ∈ index g, c.eq q.1 x = false := by
      intro q hq
      have := List.find?_eq_none.1 hf q hq
      simpa using this
    refine ⟨by have := h.nonneg; simp only; omega, ?_, ?_, ?_, ?_⟩
    · intro e he
      rcases List.mem_append.1 he with he | he
      · obtain ⟨h1, h2, h3, q, h4, h5⟩ := h.emitted e he
        refine ⟨h1, h2, by simp only; omega, q, ?_, h5⟩
        simp only
        split
        · rename_i heq; rw [heq] at h4; exact List.mem_append_left _ h4
        · exact h4
      · simp at he; subst he
        have := h.nonneg
        exact ⟨hx, this, by simp only; omega, (x, k), by simp, rfl, hxx⟩
    · intro g' q' hq'
      simp only at hq'
      split at hq'
      · rename_i heq
        rcases List.mem_append.1 hq' with hq' | hq'
        · exact List.mem_append_left _ (heq ▸ h.indexed g q' hq')
        · simp at hq'; subst hq'; simp [heq]
      · exact List.mem_append_left _ (h.indexed g' q' hq')
    · have hnew : ∀ f ∈ hist, ¬ (k = f.2) ∧ ¬ (g = f.1.1 ∧ c.eq x f.1.2 = true) := by
        intro f hf'
        obtain ⟨h1, h2, h3, q, h4, h5, h6⟩ := h.emitted f hf'
        refine ⟨by omega, ?_⟩
        rintro ⟨h7, h8⟩
        rw [← h7] at h4
        have := hnone q h4
        have h9 := eq_trans' c hc q.1 f.1.2 x h6 (by rw [hsym]; exact h8)
        rw [this] at h9; cases h9
      intro e he f hf'
      rcases List.mem_append.1 he with he | he <;> rcases List.mem_append.1 hf' with hf' | hf'
      · exact h.same e he f hf'
      · simp at hf'; subst hf'
        have := hnew e he
        constructor
        · intro h'; exact absurd h'.symm this.1
        · intro h'; exact absurd ⟨h'.1.symm, by rw [hsym]; exact h'.2⟩ this.2
      · simp at he; subst he
        have := hnew f hf'
        exact ⟨fun h' => absurd h' this.1, fun h' => absurd h' this.2⟩
      · simp at he hf'; subst he; subst hf'; simp [hxx]
    · intro r h1 h2
      simp only at h2
      rcases Int.lt_or_le r k with h3 | h3
      · obtain ⟨e, he, hr⟩ := h.all r h1 h3
        exact ⟨e, List.mem_append_left _ he, hr⟩
      · exact ⟨((g, x), k), by simp, by simp only; omega⟩

theorem groupByRun_inv (c : Cmp T) (hc : c.Ok) (events : List (Nat × T)) :
    ∀ hist index k, GroupInv c hist index k → (∀ e ∈ events, c.nan e.2 = false) →
    (groupByRun c events index k).length = events.length ∧
    ∃ index' k', GroupInv c (hist ++ events.zip (groupByRun c events index k)) index' k' := by
  induction events with
  | nil => intro hist index k h _; exact ⟨rfl, index, k, by simpa using h⟩
  | cons e rest ih =>
    intro hist index k h hn
    obtain ⟨g, x⟩ := e
    have := h.step hc g x (hn (g, x) (by simp))
    obtain ⟨h1, i', k', h2⟩ := ih _ _ _ this (fun e he => hn e (by simp [he]))
    refine ⟨by simp [groupByRun, h1], i', k', ?_⟩
    have hg : ∀ s : GroupByState T, ((groupBy c).get s).1 = s.next := fun _ => rfl
    simpa [groupByRun, hg] using h2

/-- Two children get the same number exactly if their groups and keys are the same, and the numbers are consecutive from
zero. -/
theorem groupBy_result (c : Cmp T) (hc : c.Ok) (events : List (Nat × T)) (hn : ∀ e ∈ events, c.nan e.2 = false) :
    let rs := groupByRun c events (fun _ => []) 0
    rs.length = events.length ∧
    (∀ (i j : Nat) gi xi gj xj ri rj, events[i]? = some (gi, xi) → events[j]? = some (gj, xj) → rs[i]? = some ri →
      rs[j]? = some rj → (ri = rj ↔ gi = gj ∧ c.eq xi xj = true)) ∧
    (∀ r ∈ rs, 0 ≤ r ∧ ∀ r', 0 ≤ r' → r' ≤ r → r' ∈ rs) := by
  intro rs
  obtain ⟨h1, i', k', h2⟩ := groupByRun_inv c hc events [] (fun _ => []) 0
    ⟨by omega, by simp, by simp, by simp, by intro r h1 h2; omega⟩ hn
  rw [List.nil_append] at h2
  have h1 : rs.length = events.length := h1
  have hz : ∀ (i : Nat) e r, events[i]? = some e → rs[i]? = some r → (e, r) ∈ events.zip rs := by
    intro i e r he hr
    apply List.mem_of_getElem? (i := i)
    rw [List.getElem?_zip_eq_some]; exact ⟨he, hr⟩
  refine ⟨h1, ?_, ?_⟩
  · intro i j gi xi gj xj ri rj hi hj hri hrj
    exact h2.same _ (hz i _ _ hi hri) _ (hz j _ _ hj hrj)
  · intro r hr
    obtain ⟨i, hi⟩ := List.mem_iff_getElem?.1 hr
    have hil := (List.getElem?_eq_some_iff.1 hi).1
    have hm := hz i events[i] r (List.getElem?_eq_getElem (by omega)) hi
    obtain ⟨_, h3, h4, _⟩ := h2.emitted _ hm
    refine ⟨h3, fun r' h5 h6 => ?_⟩
    obtain ⟨e, he, rfl⟩ := h2.all r' h5 (by simp only at h4; omega)
    exact (List.of_mem_zip he).2

/-- A NaN key is reported. -/
theorem groupBy_nan (c : Cmp T) (x : T) (s : GroupByState T) (h : c.nan x = true) :
    (groupBy c).status ((groupBy c).add x s) ≠ none := by
  simp [groupBy, groupByAdd, h]

example : groupByRun intCmp [(0, 5), (1, 5), (0, 7), (0, 5), (1, 5)] (fun _ => []) 0 = [0, 1, 2, 0, 1] := rfl

end Verif.Agg
