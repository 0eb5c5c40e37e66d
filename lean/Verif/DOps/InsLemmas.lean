import Verif.DOps.DOpsModel
import Verif.DOps.DOpsSpec
import Verif.Dense.OpsLemmas
import Verif.Group.IterLemmas

/-! Helper lemmas: inserting values one by one, and the operators based on it. -/

namespace Verif.DOps
open Verif.Bits Verif.Bitmap Verif.Dense

variable {α β : Type}

theorem fresh_length (mem : Nat → α) (n : Nat) : (fresh mem n).length = n := by simp [fresh]

theorem ins_all : ∀ (l : List α) (buf : List α) (p : Nat), p + l.length ≤ buf.length →
    l.foldlM insV (buf, p) = some (buf.take p ++ l ++ buf.drop (p + l.length), p + l.length) := by
  intro l
  induction l with
  | nil => intro buf p h; simp
  | cons x xs ih =>
    intro buf p h
    rw [List.length_cons] at h
    rw [List.foldlM_cons]
    have e : insV (buf, p) x = some (buf.set p x, p + 1) := by
      unfold insV wrV
      rw [if_pos (show p < buf.length by omega)]; rfl
    rw [e, Option.bind_eq_bind, Option.bind_some, ih _ _ (by simp; omega)]
    have h1 : (buf.set p x).take (p + 1) = buf.take p ++ [x] := by
      apply List.ext_getElem?
      intro i
      rw [List.getElem?_take, List.getElem?_append, List.length_take, List.getElem?_set]
      rw [List.getElem?_take]
      by_cases h1 : i < p
      · rw [if_pos (by omega), if_neg (by omega), if_pos (by omega), if_pos h1]
      · by_cases h2 : i = p
        · subst h2
          rw [if_pos (by omega), if_pos rfl, if_pos (by omega), if_neg (by omega),
            show i - min i buf.length = 0 by omega]; rfl
        · rw [if_neg (by omega), if_neg (by omega)]
          rw [List.getElem?_eq_none (by simp; omega)]
    have h2 : (buf.set p x).drop (p + 1 + xs.length) = buf.drop (p + (x :: xs).length) := by
      rw [List.drop_set, if_pos (by omega), List.length_cons]; congr 1; omega
    rw [h1, h2, List.length_cons]
    simp only [List.append_assoc, List.cons_append, List.nil_append]
    congr 2; omega

theorem ins_fresh (mem : Nat → α) (l : List α) {n : Nat} (h : l.length ≤ n) :
    ∃ rest, l.foldlM insV (fresh mem n, 0) = some (l ++ rest, l.length) ∧ (l ++ rest).length = n := by
  refine ⟨(fresh mem n).drop l.length, ?_, ?_⟩
  · rw [ins_all l _ 0 (by rw [fresh_length]; omega)]; simp
  · rw [List.length_append, List.length_drop, fresh_length]; omega

theorem fold_filter {S : Type} {f : S → α → Option S} {g : β → Option α} {st : S → β → Option S}
    (h : ∀ s x, st s x = match g x with | some v => f s v | none => some s) :
    ∀ (l : List β) (s : S), l.foldlM st s = (l.filterMap g).foldlM f s := by
  intro l
  induction l with
  | nil => intro s; rfl
  | cons x xs ih =>
    intro s
    rw [List.foldlM_cons, h]
    cases hx : g x with
    | none =>
      rw [List.filterMap_cons_none hx]
      simp only [Option.bind_eq_bind, Option.bind_some]
      exact ih s
    | some v =>
      rw [List.filterMap_cons_some hx, List.foldlM_cons]
      dsimp only
      cases f s v with
      | none => rfl
      | some s' => exact ih s'

theorem elem_full (vs : List α) (i : Nat) : elem (⟨vs, [], 0⟩ : DArr α) i = vs[i]? := by simp [elem]

theorem elems_full (vs : List α) : elems (⟨vs, [], 0⟩ : DArr α) = vs.map some := by
  apply List.ext_getElem?
  intro i
  rw [elems_get?]
  dsimp only
  by_cases h : i < vs.length
  · rw [if_pos h, elem_full, List.getElem?_map, List.getElem?_eq_getElem h]; rfl
  · rw [if_neg h, List.getElem?_eq_none (by simp; omega)]

theorem valid_full (vs : List α) : (⟨vs, [], 0⟩ : DArr α).Valid := ⟨by simp, Or.inl rfl⟩

/-! ## Present indices and values -/

theorem presents_length (xs : List (Option α)) : (presents xs).length = xs.countP Option.isSome := by
  unfold presents
  induction xs with
  | nil => rfl
  | cons x xs ih => cases x <;> simp [← ih] <;> rfl

theorem countP_get (xs : List (Option α)) :
    xs.countP Option.isSome = (List.range xs.length).countP (fun i => (xs[i]?.join).isSome) := by
  have : xs = (List.range xs.length).map (fun i => xs[i]?.join) := by
    apply List.ext_getElem?
    intro i
    rw [List.getElem?_map]
    by_cases h : i < xs.length
    · simp [h]
    · simp [h]
  conv_lhs => rw [this]
  rw [List.countP_map]
  rfl

theorem positions_length (xs : List (Option α)) : (positions xs).length = xs.countP Option.isSome := by
  unfold positions
  rw [← List.countP_eq_length_filter, countP_get]

theorem visits_pairs (a : DArr α) :
    (visits a).filterMap (fun x => if x.2.1 then some (x.1, x.2.2) else none) =
      (List.range (elems a).length).filterMap (fun i => ((elems a)[i]?.join).map (fun v => (i, v))) := by
  have h := congrArg (List.filterMap (fun x : Nat × Option α => x.2.map (fun v => (x.1, v))))
    (visits_elems a)
  rw [List.filterMap_map, List.filterMap_map] at h
  have h1 : ((fun x : Nat × Option α => x.2.map (fun v => (x.1, v))) ∘
      (fun x : Nat × Bool × α => (x.1, if x.2.1 then some x.2.2 else none))) =
      (fun x => if x.2.1 then some (x.1, x.2.2) else none) := by
    funext x
    rcases x with ⟨i, b, v⟩
    cases b <;> rfl
  rw [h1] at h
  rw [h, elems_length]
  apply List.filterMap_congr
  intro i hi
  rw [elems_get?, if_pos (List.mem_range.1 hi)]
  rfl

theorem pairs_fst (xs : List (Option α)) :
    ((List.range xs.length).filterMap (fun i => (xs[i]?.join).map (fun v => (i, v)))).map Prod.fst =
      positions xs := by
  unfold positions
  rw [List.map_filterMap, ← List.filterMap_eq_filter]
  apply List.filterMap_congr
  intro i _
  cases h : xs[i]?.join <;> simp [Option.guard, h]

theorem pairs_snd (xs : List (Option α)) :
    ((List.range xs.length).filterMap (fun i => (xs[i]?.join).map (fun v => (i, v)))).map Prod.snd =
      presents xs := by
  unfold presents
  rw [List.map_filterMap]
  have : xs = (List.range xs.length).map (fun i => xs[i]?.join) := by
    apply List.ext_getElem?
    intro i
    rw [List.getElem?_map]
    by_cases h : i < xs.length
    · simp [h]
    · simp [h]
  conv_rhs => rw [this]
  rw [List.filterMap_map]
  apply List.filterMap_congr
  intro i _
  cases h : xs[i]?.join <;> simp [h]

theorem presentIndices_spec (mem : Nat → Int) {a : DArr Unit} (hv : a.Valid) :
    presentIndices mem a = some ⟨(positions (elems a)).map (fun (n : Nat) => (n : Int)), [], 0⟩ := by
  unfold presentIndices
  have hc := presentCount_spec hv
  unfold DArr.presentCount at hc
  rw [hc, forEach_visits hv]
  simp only [Option.bind_eq_bind, Option.bind_some]
  rw [fold_filter (f := insV) (g := fun x : Nat × Bool × Unit => if x.2.1 then some (x.1 : Int) else none)
    (by intro s x; unfold indexStep; cases x.2.1 <;> rfl)]
  have hl : (visits a).filterMap (fun x => if x.2.1 then some (x.1 : Int) else none) =
      (positions (elems a)).map (fun (n : Nat) => (n : Int)) := by
    rw [← pairs_fst, ← visits_pairs, List.map_map, List.map_filterMap]
    apply List.filterMap_congr
    intro x _
    cases x.2.1 <;> rfl
  rw [hl]
  obtain ⟨rest, h1, h2⟩ := ins_fresh mem ((positions (elems a)).map (fun (n : Nat) => (n : Int)))
    (n := (elems a).countP Option.isSome) (by rw [List.length_map, positions_length])
  rw [h1]
  simp only [Option.bind_some]
  congr 2
  rw [← positions_length, List.take_left']
  simp

theorem presentValues_spec (mem : Nat → α) {a : DArr α} (hv : a.Valid) :
    presentValues mem a = some ⟨presents (elems a), [], 0⟩ := by
  unfold presentValues
  have hc := presentCount_spec hv
  unfold DArr.presentCount at hc
  rw [hc, forEach_visits hv]
  simp only [Option.bind_eq_bind, Option.bind_some]
  rw [fold_filter (f := insV) (g := fun x : Nat × Bool × α => if x.2.1 then some x.2.2 else none)
    (by intro s x; unfold valueStep; cases x.2.1 <;> rfl)]
  have hl : (visits a).filterMap (fun x => if x.2.1 then some x.2.2 else none) = presents (elems a) := by
    rw [← pairs_snd, ← visits_pairs, List.map_filterMap]
    apply List.filterMap_congr
    intro x _
    cases x.2.1 <;> rfl
  rw [hl]
  obtain ⟨rest, h1, h2⟩ := ins_fresh mem (presents (elems a))
    (n := (elems a).countP Option.isSome) (by rw [presents_length])
  rw [h1]
  simp only [Option.bind_some]
  congr 2
  rw [← presents_length, List.take_left']
  rfl

/-! ## Unique -/

/-- The elements a hash set with the comparison `eq` holds after inserting `l` into `s`. -/
def keep (eq : α → α → Bool) : List α → List α → List α
  | s, [] => s
  | s, x :: l => if s.any (fun y => eq y x) then keep eq s l else keep eq (s ++ [x]) l

theorem uniqueFold (eq : α → α → Bool) : ∀ (l : List (Nat × α)) (s buf : List α),
    s.length + l.length ≤ buf.length → buf.take s.length = s →
    ∃ buf', l.foldlM (uniqueStep eq) (s, (buf, s.length)) =
        some (keep eq s (l.map Prod.snd), (buf', (keep eq s (l.map Prod.snd)).length)) ∧
      buf'.take (keep eq s (l.map Prod.snd)).length = keep eq s (l.map Prod.snd) := by
  intro l
  induction l with
  | nil => intro s buf _ ht; exact ⟨buf, rfl, ht⟩
  | cons x xs ih =>
    intro s buf h ht
    rw [List.length_cons] at h
    rw [List.foldlM_cons, List.map_cons, keep]
    unfold uniqueStep
    dsimp only
    by_cases hx : (s.any fun y => eq y x.2) = true
    · rw [if_pos hx, if_pos hx]
      exact ih s buf (by omega) ht
    · rw [if_neg hx, if_neg hx]
      have e : insV (buf, s.length) x.2 = some (buf.set s.length x.2, s.length + 1) := by
        unfold insV wrV
        rw [if_pos (show s.length < buf.length by omega)]; rfl
      rw [e]
      simp only [Option.bind_eq_bind, Option.bind_some]
      have := ih (s ++ [x.2]) (buf.set s.length x.2) (by simp; omega) (by
        apply List.ext_getElem?
        intro i
        rw [List.getElem?_take, List.getElem?_append, List.getElem?_set, List.length_append]
        simp only [List.length_cons, List.length_nil]
        have hti := congrArg (fun l => l[i]?) ht
        simp only [List.getElem?_take] at hti
        by_cases h1 : i < s.length
        · rw [if_pos h1] at hti
          rw [if_pos (by omega), if_neg (by omega), if_pos h1, hti]
        · by_cases h2 : i = s.length
          · subst h2
            rw [if_pos (by omega), if_pos rfl, if_pos (by omega), if_neg (by omega)]; simp
          · rw [if_neg (by omega), if_neg h1, List.getElem?_eq_none (by simp; omega)])
      rwa [List.length_append] at this

theorem uniqueOp_spec (eq : α → α → Bool) (mem : Nat → α) {a : DArr α} (hv : a.Valid) :
    uniqueOp eq mem a = some ⟨keep eq [] (presents (elems a)), [], 0⟩ := by
  unfold uniqueOp DArr.forEachPresent
  rw [forEach_visits hv]
  simp only [Option.bind_eq_bind, Option.bind_some]
  have hl : (visits a).filterMap (fun x => match x with | (i, b, v) => if b = true then some (i, v) else none) =
      (List.range (elems a).length).filterMap (fun i => ((elems a)[i]?.join).map (fun v => (i, v))) := by
    rw [← visits_pairs]
  rw [hl]
  obtain ⟨buf', h1, h2⟩ := uniqueFold eq
    ((List.range (elems a).length).filterMap (fun i => ((elems a)[i]?.join).map (fun v => (i, v))))
    [] (fresh mem a.size) (by
      rw [fresh_length]
      have := List.length_filterMap_le (fun i => ((elems a)[i]?.join).map (fun v => (i, v)))
        (List.range (elems a).length)
      rw [List.length_range, elems_length] at this
      unfold DArr.size
      rw [elems_length, List.length_nil]
      omega) rfl
  rw [List.length_nil] at h1
  rw [h1]
  simp only [Option.bind_some]
  rw [h2, pairs_snd]

theorem keep_prefix (eq : α → α → Bool) : ∀ (l s : List α), ∃ t, keep eq s l = s ++ t ∧ t.Sublist l := by
  intro l
  induction l with
  | nil => intro s; exact ⟨[], by simp [keep], List.Sublist.slnil⟩
  | cons x xs ih =>
    intro s
    rw [keep]
    split
    · obtain ⟨t, h1, h2⟩ := ih s
      exact ⟨t, h1, h2.cons x⟩
    · obtain ⟨t, h1, h2⟩ := ih (s ++ [x])
      refine ⟨x :: t, by rw [h1]; simp, h2.cons_cons x⟩

theorem keep_pairwise (eq : α → α → Bool) : ∀ (l s : List α), s.Pairwise (fun x y => eq x y = false) →
    (keep eq s l).Pairwise (fun x y => eq x y = false) := by
  intro l
  induction l with
  | nil => intro s h; exact h
  | cons x xs ih =>
    intro s h
    rw [keep]
    split
    · exact ih s h
    · rename_i hx
      apply ih
      rw [List.pairwise_append]
      refine ⟨h, by simp, ?_⟩
      intro y hy z hz
      rw [List.mem_singleton] at hz
      subst hz
      simp only [List.any_eq_true, not_exists, not_and, Bool.not_eq_true] at hx
      exact hx y hy

theorem keep_covers (eq : α → α → Bool) : ∀ (l s : List α), ∀ v ∈ l,
    v ∈ keep eq s l ∨ ∃ u ∈ keep eq s l, eq u v = true := by
  intro l
  induction l with
  | nil => intro s v hv; cases hv
  | cons x xs ih =>
    intro s v hv
    rw [keep]
    rw [List.mem_cons] at hv
    split
    · rename_i hx
      rcases hv with rfl | hv
      · right
        obtain ⟨u, hu, hu2⟩ := List.any_eq_true.1 hx
        obtain ⟨t, ht, _⟩ := keep_prefix eq xs s
        exact ⟨u, by rw [ht]; simp [hu], hu2⟩
      · exact ih s v hv
    · rcases hv with rfl | hv
      · left
        obtain ⟨t, ht, _⟩ := keep_prefix eq xs (s ++ [v])
        rw [ht]; simp
      · exact ih _ v hv

/-- The first occurrences: every value kept stands in the list before all equal ones not kept. -/
theorem keep_order [DecidableEq α] : ∀ (l s : List α), s.Nodup →
    (∀ v ∈ keep (fun x y => decide (x = y)) s l, v ∈ s ∨ v ∈ l) ∧
    (keep (fun x y => decide (x = y)) s l).Pairwise (fun x y =>
      List.idxOf x (s ++ l) < List.idxOf y (s ++ l)) := by
  intro l
  induction l with
  | nil =>
    intro s hs
    refine ⟨fun v hv => Or.inl hv, ?_⟩
    rw [keep, List.append_nil, List.pairwise_iff_getElem]
    intro i j hi hj hij
    rw [List.Nodup.idxOf_getElem hs, List.Nodup.idxOf_getElem hs]
    exact hij
  | cons x xs ih =>
    intro s hs
    rw [keep]
    by_cases hx : x ∈ s
    · rw [if_pos (by simp [hx])]
      obtain ⟨h1, h2⟩ := ih s hs
      refine ⟨fun v hv => (h1 v hv).imp id (List.mem_cons_of_mem _), ?_⟩
      -- dropping a repeated value does not change the order of first occurrences
      have key : ∀ v w, v ∈ s ∨ v ∈ xs → w ∈ s ∨ w ∈ xs →
          List.idxOf v (s ++ xs) < List.idxOf w (s ++ xs) →
          List.idxOf v (s ++ x :: xs) < List.idxOf w (s ++ x :: xs) := by
        intro v w hv hw h
        rw [List.idxOf_append, List.idxOf_append] at h ⊢
        by_cases hvs : v ∈ s
        · rw [if_pos hvs] at h ⊢
          by_cases hws : w ∈ s
          · rw [if_pos hws] at h ⊢; exact h
          · rw [if_neg hws] at h ⊢
            have := List.idxOf_lt_length_of_mem hvs
            omega
        · rw [if_neg hvs] at h ⊢
          by_cases hws : w ∈ s
          · rw [if_pos hws] at h
            have := List.idxOf_lt_length_of_mem hws
            omega
          · rw [if_neg hws] at h ⊢
            have nv : x ≠ v := by rintro rfl; exact hvs hx
            have nw : x ≠ w := by rintro rfl; exact hws hx
            rw [List.idxOf_cons_ne _ nv, List.idxOf_cons_ne _ nw]
            omega
      exact h2.imp_of_mem (fun {v w} hv hw h => key v w (h1 v hv) (h1 w hw) h)
    · rw [if_neg (by
        simp only [List.any_eq_true, decide_eq_true_eq, not_exists, not_and]
        rintro y hy rfl; exact hx hy)]
      obtain ⟨h1, h2⟩ := ih (s ++ [x]) (by
        rw [List.nodup_append]
        exact ⟨hs, by simp, by
          intro y hy z hz he
          rw [List.mem_singleton] at hz
          subst hz; subst he; exact hx hy⟩)
      rw [List.append_assoc] at h2
      refine ⟨?_, h2⟩
      intro v hv
      rcases h1 v hv with h | h
      · rw [List.mem_append, List.mem_singleton] at h
        rcases h with h | h
        · exact Or.inl h
        · right; simp [h]
      · right; simp [h]

end Verif.DOps
