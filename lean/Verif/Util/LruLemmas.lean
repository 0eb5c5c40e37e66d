import Verif.Util.LruModel
import Mathlib.Data.List.Perm.Basic

/-! Helper lemmas for the LRU cache: the representation invariant. -/

namespace Verif.Lru
variable {K V : Type} [DecidableEq K]
set_option linter.unusedSectionVars false

/-- Total weight of a list of entries. -/
def totalWeight (es : List (Entry K V)) : Nat := (es.map Entry.weight).sum

/-- Representation invariant. -/
structure Inv (c : Cache K V) : Prop where
  used : c.used = totalWeight c.entries
  index : c.index.Perm (c.entries.map Entry.key)
  nodup : (c.entries.map Entry.key).Nodup

theorem find_unlink_perm {key : K} {es : List (Entry K V)} {e : Entry K V}
    (h : findEntry key es = some e) : (e :: unlink key es).Perm es := by
  induction es with
  | nil => simp [findEntry] at h
  | cons a t ih =>
    simp only [findEntry, unlink, List.find?_cons, List.eraseP_cons] at *
    by_cases hk : a.key = key
    · simp_all
    · simp only [hk, decide_false] at h ⊢
      exact (List.Perm.swap a e _).trans ((ih h).cons a)

theorem find_key {key : K} {es : List (Entry K V)} {e : Entry K V}
    (h : findEntry key es = some e) : e.key = key := by
  have := List.find?_some h
  simpa using this

theorem find_mem {key : K} {es : List (Entry K V)} (h : key ∈ es.map Entry.key) :
    ∃ e, findEntry key es = some e := by
  cases hf : findEntry key es with
  | some e => exact ⟨e, rfl⟩
  | none =>
    simp only [findEntry, List.find?_eq_none] at hf
    obtain ⟨e, he, rfl⟩ := List.mem_map.1 h
    simpa using hf e he

theorem unlink_eq_filter {key : K} {es : List (Entry K V)}
    (h : (es.map Entry.key).Nodup) :
    unlink key es = es.filter (fun e => e.key ≠ key) := by
  induction es with
  | nil => rfl
  | cons a t ih =>
    simp only [List.map_cons, List.nodup_cons] at h
    simp only [unlink, List.eraseP_cons, List.filter_cons] at *
    by_cases hk : a.key = key
    · subst hk
      simp only [decide_true, cond_true, ne_eq, not_true_eq_false, decide_false]
      symm
      rw [if_neg (by simp), List.filter_eq_self]
      intro b hb
      simp only [decide_eq_true_eq]
      intro hba
      exact h.1 (hba ▸ List.mem_map_of_mem hb)
    · simp [hk, ih h.2]

theorem totalWeight_perm {a b : List (Entry K V)} (h : a.Perm b) :
    totalWeight a = totalWeight b := (h.map _).sum_nat

theorem totalWeight_filter_le (p : Entry K V → Bool) (es : List (Entry K V)) :
    totalWeight (es.filter p) ≤ totalWeight es := by
  induction es with
  | nil => simp
  | cons a t ih =>
    simp only [List.filter_cons, totalWeight] at *
    split <;> simp <;> omega

theorem filter_eq_of_not_mem {key : K} {es : List (Entry K V)}
    (h : key ∉ es.map Entry.key) : es.filter (fun e => e.key ≠ key) = es := by
  rw [List.filter_eq_self]
  intro b hb
  simp only [ne_eq, decide_not, Bool.not_eq_eq_eq_not, Bool.not_true, decide_eq_false_iff_not]
  intro hba
  exact h (hba ▸ List.mem_map_of_mem hb)

/-- What the eviction loop leaves. -/
def evictList (cap : Nat) (es : List (Entry K V)) : List (Entry K V) :=
  if totalWeight es > cap ∧ es.length > 1 then evictList cap es.dropLast else es
termination_by es.length
decreasing_by simp; omega

theorem evictLoop_spec (n : Nat) (c : Cache K V) (h : Inv c) (hn : c.entries.length ≤ n) :
    ∃ c', c.evictLoop (n + 1) = some c' ∧ Inv c' ∧ c'.capacity = c.capacity ∧
      c'.entries = evictList c.capacity c.entries := by
  induction n generalizing c with
  | zero =>
    refine ⟨c, ?_, h, rfl, ?_⟩
    · rw [Cache.evictLoop]; rw [if_neg (by omega)]
    · rw [evictList]; rw [if_neg (by omega)]
  | succ n ih =>
    rw [Cache.evictLoop, evictList, ← h.used]
    split
    · rename_i hc
      obtain ⟨back, hb⟩ : ∃ b, c.entries.getLast? = some b := by
        cases hq : c.entries.getLast? with
        | some b => exact ⟨b, rfl⟩
        | none => simp at hq; simp [hq] at hc
      have hsplit : c.entries = c.entries.dropLast ++ [back] := by
        have hne : c.entries ≠ [] := by intro h0; simp [h0] at hc
        rw [List.getLast?_eq_some_getLast hne] at hb
        rw [← Option.some.inj hb, List.dropLast_append_getLast hne]
      have hw : c.used = totalWeight c.entries.dropLast + back.weight := by
        rw [h.used]; conv_lhs => rw [hsplit]
        simp [totalWeight]
      have hkeys : c.entries.map Entry.key = c.entries.dropLast.map Entry.key ++ [back.key] := by
        conv_lhs => rw [hsplit]
        simp
      simp only [hb]
      rw [if_neg (by omega)]
      have hI : Inv { c with index := c.index.erase back.key, used := c.used - back.weight,
                             entries := c.entries.dropLast } := by
        refine ⟨by simp; omega, ?_, ?_⟩
        · have h1 := (h.index.erase back.key)
          refine h1.trans ?_
          rw [hkeys]
          have : back.key ∉ c.entries.dropLast.map Entry.key := by
            have := h.nodup; rw [hkeys, List.nodup_append] at this
            intro hm
            exact this.2.2 _ hm _ (by simp) rfl
          rw [List.erase_append_right _ this]
          simp
        · have := h.nodup
          rw [hkeys, List.nodup_append] at this
          exact this.1
      exact ih _ hI (by simp; omega)
    · exact ⟨c, rfl, h, rfl, rfl⟩

theorem evict_spec (c : Cache K V) (h : Inv c) :
    ∃ c', c.evict = some c' ∧ Inv c' ∧ c'.capacity = c.capacity ∧
      c'.entries = evictList c.capacity c.entries :=
  evictLoop_spec _ c h (Nat.le_refl _)

theorem evictList_prefix (cap : Nat) (es : List (Entry K V)) : evictList cap es <+: es := by
  fun_induction evictList cap es with
  | case1 es h ih => exact ih.trans (List.dropLast_prefix es)
  | case2 es h => exact List.prefix_refl _

theorem evictList_ne_nil (cap : Nat) (es : List (Entry K V)) (h : es ≠ []) :
    evictList cap es ≠ [] := by
  fun_induction evictList cap es with
  | case1 es h ih =>
    apply ih
    intro h0
    have := congrArg List.length h0
    simp at this; omega
  | case2 es h' => exact h

theorem evictList_bound (cap : Nat) (es : List (Entry K V)) :
    totalWeight (evictList cap es) ≤ cap ∨ (evictList cap es).length ≤ 1 := by
  fun_induction evictList cap es with
  | case1 es h ih => exact ih
  | case2 es h => omega

/-- Nothing more than needed is evicted. -/
theorem evictList_longest (cap : Nat) (es p : List (Entry K V)) (hp : p <+: es)
    (hlen : (evictList cap es).length < p.length) : cap < totalWeight p := by
  fun_induction evictList cap es with
  | case1 es h ih =>
    by_cases hl : p.length = es.length
    · rw [hp.eq_of_length hl]; omega
    · refine ih ?_ hlen
      have h1 := hp.length_le
      rw [List.prefix_iff_eq_take] at hp ⊢
      rw [List.dropLast_eq_take, List.take_take]
      rw [Nat.min_eq_left (by omega)]; exact hp
  | case2 es h => have := hp.length_le; omega

theorem lookup_spec (c : Cache K V) (h : Inv c) (k : K) :
    ∃ c', c.lookup k = some (c', (findEntry k c.entries).map Entry.value) ∧ Inv c' ∧
      c'.capacity = c.capacity ∧
      c'.entries = (match findEntry k c.entries with
        | some e => e :: c.entries.filter (fun e => e.key ≠ k)
        | none => c.entries) := by
  unfold Cache.lookup
  split
  · rename_i hk
    obtain ⟨e, he⟩ := find_mem (h.index.mem_iff.1 hk)
    have hperm := find_unlink_perm he
    refine ⟨{ c with entries := e :: unlink k c.entries }, by rw [he]; rfl, ⟨?_, ?_, ?_⟩, rfl, ?_⟩
    · simp only; rw [totalWeight_perm hperm, h.used]
    · exact h.index.trans (hperm.map _).symm
    · exact (hperm.map _).nodup_iff.2 h.nodup
    · simp only [he]; rw [unlink_eq_filter h.nodup]
  · rename_i hk
    have : findEntry k c.entries = none := by
      simp only [findEntry, List.find?_eq_none]
      intro e he
      simp only [decide_eq_true_eq]
      rintro rfl
      exact hk (h.index.mem_iff.2 (List.mem_map_of_mem he))
    exact ⟨c, by simp [this], h, rfl, by simp [this]⟩

theorem put_spec (c : Cache K V) (h : Inv c) (k : K) (v : V) (w : Nat) :
    ∃ c', c.put k v w = some (c', v) ∧ Inv c' ∧ c'.capacity = c.capacity ∧
      c'.entries = evictList c.capacity
        (⟨k, v, w⟩ :: c.entries.filter (fun e => e.key ≠ k)) := by
  have key : ∃ c1 : Cache K V, c.put k v w = (do
        let c ← c1.evict
        match c.entries.head? with
        | none => none
        | some e => some (c, e.value)) ∧ Inv c1 ∧
      c1.capacity = c.capacity ∧
      c1.entries = ⟨k, v, w⟩ :: c.entries.filter (fun e => e.key ≠ k) := by
    unfold Cache.put
    split
    · rename_i hk
      obtain ⟨e, he⟩ := find_mem (h.index.mem_iff.1 hk)
      have hperm := find_unlink_perm he
      have hek := find_key he
      have hw : totalWeight c.entries = e.weight + totalWeight (unlink k c.entries) := by
        rw [← totalWeight_perm hperm]; simp [totalWeight]
      have hu := h.used
      refine ⟨{ c with used := c.used + w - e.weight,
                       entries := ⟨e.key, v, w⟩ :: unlink k c.entries }, ?_, ⟨?_, ?_, ?_⟩, rfl, ?_⟩
      · simp only [he]
        rw [if_neg (by omega)]
        rfl
      · simp only [totalWeight, List.map_cons, List.sum_cons] at hw hu ⊢; omega
      · exact h.index.trans (hperm.map _).symm
      · exact (hperm.map _).nodup_iff.2 h.nodup
      · simp only [hek]; rw [unlink_eq_filter h.nodup]
    · rename_i hk
      have hk' : k ∉ c.entries.map Entry.key := fun hm => hk (h.index.mem_iff.2 hm)
      refine ⟨_, rfl, ⟨?_, ?_, ?_⟩, rfl, ?_⟩
      · simp only [totalWeight, List.map_cons, List.sum_cons, h.used]; omega
      · exact h.index.cons k
      · exact List.nodup_cons.2 ⟨hk', h.nodup⟩
      · simp only; rw [filter_eq_of_not_mem hk']
  obtain ⟨c1, h1, h2, h3, h4⟩ := key
  obtain ⟨c2, g1, g2, g3, g4⟩ := evict_spec c1 h2
  refine ⟨c2, ?_, g2, g3.trans h3, by rw [g4, h3, h4]⟩
  rw [h1, g1]
  have hne := evictList_ne_nil c.capacity (⟨k, v, w⟩ :: c.entries.filter (fun e => e.key ≠ k))
    (by simp)
  have hpre := evictList_prefix c.capacity (⟨k, v, w⟩ :: c.entries.filter (fun e => e.key ≠ k))
  rw [h3, h4] at g4
  rw [← g4] at hne hpre
  cases hc2 : c2.entries with
  | nil => exact absurd hc2 hne
  | cons a t =>
    rw [hc2] at hpre
    have := (List.cons_prefix_cons.1 hpre).1
    simp [hc2, this]

theorem inv_empty (cap : Nat) : Inv (Cache.empty cap : Cache K V) :=
  ⟨rfl, by simp [Cache.empty], by simp [Cache.empty]⟩

theorem inv_clear (c : Cache K V) : Inv c.clear :=
  ⟨rfl, by simp [Cache.clear], by simp [Cache.clear]⟩

end Verif.Lru
