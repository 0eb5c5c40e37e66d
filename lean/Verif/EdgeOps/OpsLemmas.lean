import Verif.EdgeOps.ResizeLemmas

/-! Pairs in a group, and the arguments of the resizing operators. -/

namespace Verif.EdgeOps
open Verif.Bits Verif.Bitmap Verif.Dense Verif.Edge

/-! ## Pairs -/

theorem ownersFrom_ge : ∀ (ns : List Nat) (i k p : Nat), (ownersFrom i ns)[k]? = some p → i ≤ p := by
  intro ns
  induction ns with
  | nil => intro i k p h; simp [ownersFrom] at h
  | cons n ns ih =>
    intro i k p h
    rw [ownersFrom, List.getElem?_append, List.length_replicate] at h
    split at h
    · rename_i hk
      rw [List.getElem?_replicate, if_pos hk] at h
      simp at h; omega
    · have := ih (i + 1) _ _ h; omega

theorem mem_groups : ∀ (ns : List Nat) (b i x y : Nat),
    (∃ g ∈ groupsFrom b ns, x ∈ g ∧ y ∈ g) ↔
      b ≤ x ∧ b ≤ y ∧ ∃ p, (ownersFrom i ns)[x - b]? = some p ∧ (ownersFrom i ns)[y - b]? = some p := by
  intro ns
  induction ns with
  | nil => intro b i x y; simp [groupsFrom, ownersFrom]
  | cons n ns ih =>
    intro b i x y
    rw [groupsFrom]
    simp only [List.mem_cons, or_and_right, exists_or, exists_eq_left]
    rw [ih (b + n) (i + 1), List.mem_range'_1, List.mem_range'_1, ownersFrom]
    have hget : ∀ z, b ≤ z → (List.replicate n i ++ ownersFrom (i + 1) ns)[z - b]? =
        if z < b + n then some i else (ownersFrom (i + 1) ns)[z - (b + n)]? := by
      intro z hz
      rw [List.getElem?_append, List.length_replicate]
      by_cases h : z < b + n
      · rw [if_pos (by omega), if_pos h, List.getElem?_replicate, if_pos (by omega)]
      · rw [if_neg (by omega), if_neg h, Nat.sub_sub]
    constructor
    · rintro (⟨h1, h2⟩ | ⟨h1, h2, p, h3, h4⟩)
      · refine ⟨h1.1, h2.1, i, ?_, ?_⟩
        · rw [hget x h1.1, if_pos h1.2]
        · rw [hget y h2.1, if_pos h2.2]
      · refine ⟨by omega, by omega, p, ?_, ?_⟩
        · rw [hget x (by omega), if_neg (by omega)]; exact h3
        · rw [hget y (by omega), if_neg (by omega)]; exact h4
    · rintro ⟨h1, h2, p, h3, h4⟩
      rw [hget x h1] at h3
      rw [hget y h2] at h4
      by_cases hx : x < b + n
      · rw [if_pos hx] at h3
        simp only [Option.some.injEq] at h3
        by_cases hy : y < b + n
        · exact Or.inl ⟨⟨h1, hx⟩, h2, hy⟩
        · rw [if_neg hy] at h4
          have := ownersFrom_ge _ _ _ _ h4
          omega
      · rw [if_neg hx] at h3
        by_cases hy : y < b + n
        · rw [if_pos hy] at h4
          simp only [Option.some.injEq] at h4
          have := ownersFrom_ge _ _ _ _ h3
          omega
        · rw [if_neg hy] at h4
          exact Or.inr ⟨by omega, by omega, p, h3, h4⟩

theorem mem_pairs (ns : List Nat) (x y : Nat) :
    (x, y) ∈ pairs ns ↔ ∃ p, (owners ns)[x]? = some p ∧ (owners ns)[y]? = some p := by
  have h := mem_groups ns 0 0 x y
  simp only [Nat.zero_le, true_and, Nat.sub_zero] at h
  rw [owners, ← h]
  unfold pairs
  constructor
  · intro hm
    rw [List.mem_flatMap] at hm
    obtain ⟨g, hg, hm⟩ := hm
    rw [List.mem_flatMap] at hm
    obtain ⟨a, ha, hm⟩ := hm
    rw [List.mem_map] at hm
    obtain ⟨b, hb, he⟩ := hm
    simp only [Prod.mk.injEq] at he
    obtain ⟨rfl, rfl⟩ := he
    exact ⟨g, hg, ha, hb⟩
  · rintro ⟨g, hg, ha, hb⟩
    exact List.mem_flatMap.2 ⟨g, hg, List.mem_flatMap.2 ⟨x, ha, List.mem_map.2 ⟨y, hb, rfl⟩⟩⟩

theorem groups_ge : ∀ (ns : List Nat) (b : Nat) (g : List Nat), g ∈ groupsFrom b ns → ∀ x ∈ g, b ≤ x := by
  intro ns
  induction ns with
  | nil => intro b g h; simp [groupsFrom] at h
  | cons n ns ih =>
    intro b g h x hx
    rw [groupsFrom, List.mem_cons] at h
    rcases h with rfl | h
    · exact (List.mem_range'_1.1 hx).1
    · have := ih _ _ h x hx; omega

theorem groups_sorted : ∀ (ns : List Nat) (b : Nat),
    (groupsFrom b ns).Pairwise (fun g h => ∀ x ∈ g, ∀ y ∈ h, x < y) := by
  intro ns
  induction ns with
  | nil => intro b; exact List.Pairwise.nil
  | cons n ns ih =>
    intro b
    rw [groupsFrom, List.pairwise_cons]
    refine ⟨?_, ih _⟩
    intro g hg x hx y hy
    have h1 := (List.mem_range'_1.1 hx).2
    have h2 := groups_ge _ _ _ hg y hy
    omega

theorem group_inc : ∀ (ns : List Nat) (b : Nat), ∀ g ∈ groupsFrom b ns, g.Pairwise (· < ·) := by
  intro ns
  induction ns with
  | nil => intro b g h; simp [groupsFrom] at h
  | cons n ns ih =>
    intro b g h
    rw [groupsFrom, List.mem_cons] at h
    rcases h with rfl | h
    · exact List.pairwise_lt_range'
    · exact ih _ _ h

theorem pairs_sorted (ns : List Nat) :
    (pairs ns).Pairwise (fun a b => a.1 < b.1 ∨ a.1 = b.1 ∧ a.2 < b.2) := by
  unfold pairs
  rw [List.pairwise_flatMap]
  constructor
  · intro g hg
    have hi := group_inc ns 0 g hg
    rw [List.pairwise_flatMap]
    constructor
    · intro x _
      rw [List.pairwise_map]
      exact hi.imp (fun h => Or.inr ⟨rfl, h⟩)
    · refine hi.imp ?_
      intro a b hab p hp q hq
      rw [List.mem_map] at hp hq
      obtain ⟨_, _, rfl⟩ := hp
      obtain ⟨_, _, rfl⟩ := hq
      exact Or.inl hab
  · refine (groups_sorted ns 0).imp ?_
    intro g h hgh p hp q hq
    rw [List.mem_flatMap] at hp hq
    obtain ⟨a, ha, hp⟩ := hp
    obtain ⟨b, hb, hq⟩ := hq
    rw [List.mem_map] at hp hq
    obtain ⟨_, _, rfl⟩ := hp
    obtain ⟨_, _, rfl⟩ := hq
    exact Or.inl (hgh a ha b hb)

theorem pairs_length (ns : List Nat) : (pairs ns).length = squares ns := by
  have := congrArg List.length (rightVals_eq ns)
  rw [rightVals_length, List.length_map] at this
  exact this.symm

/-! ## Split points of an edge -/

theorem ctx_replicate {e : Edge} (hw : WF e) (ht : e.typ = .splitPoints) {n : Nat}
    (hm : e.parentSize * n ≤ maxI64) :
    Ctx e.values.values (List.replicate e.parentSize.toNat n) (fun _ => some (n : Int)) := by
  obtain ⟨w1, w2, w3, w4, w5⟩ := (wf_split_iff ht).1 hw
  have hp := (wf_sizes hw).1
  refine ⟨w3, by rw [List.length_replicate]; omega, ?_, ?_⟩
  · intro i k h
    rw [List.getElem?_replicate] at h
    split at h
    · simp at h; subst h; rfl
    · simp at h
  · rw [List.sum_replicate_nat]
    push_cast
    rw [Int.toNat_of_nonneg hp]
    exact hm

theorem ctx_sizes {e : Edge} (hw : WF e) (ht : e.typ = .splitPoints) {a : DArr Int} {ns : List Nat}
    (ha : Holds a ns) (hl : a.size + 1 = e.values.size) (hm : (ns.sum : Int) ≤ maxI64) :
    Ctx e.values.values ns (fun i => a.values[i]?) := by
  obtain ⟨w1, w2, w3, w4, w5⟩ := (wf_split_iff ht).1 hw
  obtain ⟨h1, h2⟩ := holds_iff.1 ha
  have hs : a.size = a.values.length := rfl
  have hs' : e.values.size = e.values.values.length := rfl
  have hl2 := congrArg List.length h2
  rw [List.length_map] at hl2
  refine ⟨w3, by omega, ?_, hm⟩
  intro i k h
  rw [h2, List.getElem?_map, h]
  rfl

/-! ## Empty arrays -/

theorem createEmpty_elems {α : Type} (n : Nat) (mem : Nat → α) :
    (createEmpty ((List.range n).map mem)).Valid ∧
      elems (createEmpty ((List.range n).map mem)) = List.replicate n none := by
  refine ⟨⟨by simp [createEmpty], Or.inr ?_⟩, ?_⟩
  · simp [createEmpty, createEmptyBitmap, DArr.size]
  · apply List.ext_getElem?
    intro i
    rw [elems_get?, List.getElem?_replicate]
    have hl : (createEmpty ((List.range n).map mem)).values.length = n := by simp [createEmpty]
    rw [hl]
    by_cases hi : i < n
    · rw [if_pos hi, if_pos hi, elem_eq]
      have hp : pres (createEmpty ((List.range n).map mem)) i = false := by
        have hne : createEmptyBitmap ((List.range n).map mem).length ≠ [] := by
          intro hz
          have := congrArg List.length hz
          simp [createEmptyBitmap, bitmapSize_eq] at this
          omega
        unfold pres createEmpty
        dsimp only
        rw [decide_eq_false hne, Bool.false_or]
        unfold bitAt wd createEmptyBitmap
        rw [List.getElem?_replicate]
        split <;> simp
      rw [hp]
      rfl
    · rw [if_neg hi, if_neg hi]

end Verif.EdgeOps
