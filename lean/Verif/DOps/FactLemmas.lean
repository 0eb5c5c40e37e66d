import Verif.DOps.ArrLemmas
import Mathlib.Tactic.Choose
import Mathlib.Tactic.ByContra

/-! Helper lemmas: builders, selection, arrays from indices, pointwise operations. -/

namespace Verif.DOps
open Verif.Bits Verif.Bitmap Verif.Dense

variable {α β V R : Type}

/-! ## Setting values in order -/

theorem setAll_inv {n : Nat} : ∀ (vs : List (Option α)) (i : Nat) (f : Nat → Option α) (b : DBuilder α),
    DBInv n f b → i + vs.length ≤ n → (∀ k, i ≤ k → f k = none) →
    ∃ b', setAll vs i b = some b' ∧ DBInv n (fun k => if i ≤ k then (vs[k - i]?).join else f k) b' := by
  intro vs
  induction vs with
  | nil =>
    intro i f b h _ hf
    refine ⟨b, rfl, ?_⟩
    have : (fun k => if i ≤ k then (([] : List (Option α))[k - i]?).join else f k) = f := by
      funext k
      by_cases hk : i ≤ k
      · rw [if_pos hk, hf k hk]; rfl
      · rw [if_neg hk]
    rw [this]; exact h
  | cons v vs ih =>
    intro i f b h hl hf
    rw [List.length_cons] at hl
    obtain ⟨b1, e1, e2⟩ := apply_inv h (.set i v) (show i < n by omega)
    have e1' : b.set i v = some b1 := e1
    obtain ⟨b2, g1, g2⟩ := ih (i + 1) _ b1 e2 (by omega) (by
      intro k hk
      cases v with
      | none => exact hf k (by omega)
      | some x =>
        show (if k = i then some x else f k) = none
        rw [if_neg (by omega)]
        exact hf k (by omega))
    refine ⟨b2, ?_, ?_⟩
    · rw [setAll, e1', Option.bind_eq_bind, Option.bind_some, g1]
    · have : (fun k => if i ≤ k then ((v :: vs)[k - i]?).join else f k) =
          (fun k => if i + 1 ≤ k then (vs[k - (i + 1)]?).join else opEffect f (.set i v) k) := by
        funext k
        by_cases h1 : i + 1 ≤ k
        · rw [if_pos h1, if_pos (by omega), show k - i = (k - (i + 1)) + 1 by omega,
            List.getElem?_cons_succ]
        · rw [if_neg h1]
          by_cases h2 : k = i
          · subst h2
            rw [if_pos (by omega), Nat.sub_self, List.getElem?_cons_zero]
            cases v with
            | none => exact (hf k (by omega)).symm
            | some x => show some x = if k = k then some x else f k; rw [if_pos rfl]
          · rw [if_neg (by omega)]
            cases v with
            | none => rfl
            | some x => show f k = if k = i then some x else f k; rw [if_neg h2]
      rw [this]; exact g2

theorem setAll_new (mem : List α) (vs : List (Option α)) (h : vs.length = mem.length) :
    ∃ b, setAll vs 0 (DBuilder.new mem) = some b ∧ b.build.Valid ∧ b.build.off = 0 ∧ elems b.build = vs := by
  obtain ⟨b, e1, e2⟩ := setAll_inv vs 0 _ _ (new_inv mem) (by omega) (fun _ _ => rfl)
  obtain ⟨h1, h2⟩ := elems_of_inv e2
  refine ⟨b, e1, h1, rfl, ?_⟩
  rw [h2]
  apply List.ext_getElem?
  intro i
  rw [List.getElem?_map]
  by_cases hi : i < mem.length
  · simp [hi, show i < vs.length by omega]
  · simp [hi, show ¬ i < vs.length by omega]

/-! ## select -/

theorem elem_mapped (f : α → β) (a : DArr α) (i : Nat) :
    elem (⟨a.values.map f, a.bitmap, a.off⟩ : DArr β) i = (elem a i).map f := by
  unfold elem
  dsimp only
  rw [List.getElem?_map]
  split <;> rfl

theorem valid_mapped (f : α → β) {a : DArr α} (h : a.Valid) :
    (⟨a.values.map f, a.bitmap, a.off⟩ : DArr β).Valid := by
  unfold DArr.Valid DArr.size at h ⊢
  dsimp only
  rw [List.length_map]
  exact h

theorem selectCalls_spec {a : DArr α} {f : DArr Unit} (ha : a.Valid) (hf : f.Valid)
    (hs : a.values.length = f.values.length) :
    selectCalls a f = some (selected (elems a) (elems f)) := by
  unfold selectCalls
  obtain ⟨rs, e1, e2⟩ := Group.denseIterateFromZero_spec (n := f.values.length)
    (args := [⟨false, ⟨f.values.map (fun _ => (none : Option α)), f.bitmap, f.off⟩⟩,
     ⟨true, ⟨a.values.map some, a.bitmap, a.off⟩⟩]) (by
      intro x hx
      simp only [List.mem_cons, List.not_mem_nil, or_false] at hx
      rcases hx with rfl | rfl
      · exact ⟨valid_mapped _ hf, by simp⟩
      · exact ⟨valid_mapped _ ha, by simp [hs]⟩) (en := f.size) (by unfold DArr.size; omega)
  rw [e1]
  simp only [Option.bind_eq_bind, Option.bind_some]
  congr 1
  have hm : rs.filterMap (fun r => if r.2.1 then some ((r.2.2[1]?).join.join) else none) =
      (rs.map Group.Row.meaning).filterMap (fun m => m.2.map (fun l => (l[1]?).join.join)) := by
    rw [List.filterMap_map]
    apply List.filterMap_congr
    intro r _
    unfold Group.Row.meaning
    simp only [Function.comp]
    cases r.2.1 <;> rfl
  rw [hm, e2]
  unfold Group.drows selected
  rw [List.filterMap_map]
  have hz : (elems a).zip (elems f) = (List.range' 0 f.size).map (fun i => (elem a i, elem f i)) := by
    unfold elems DArr.size
    rw [hs, ← List.range_eq_range', List.zip_map']
  rw [Nat.sub_zero, hz, List.filterMap_map]
  apply List.filterMap_congr
  intro i _
  simp only [Function.comp]
  unfold Group.denseRow
  simp only [List.all_cons, List.all_nil, Bool.false_or, Bool.true_or, Bool.and_true, List.map_cons,
    List.map_nil]
  rw [elem_mapped, elem_mapped]
  cases elem f i with
  | none => rfl
  | some u =>
    simp only [Option.map_some, Option.isSome_some, if_true, List.getElem?_cons_succ, List.getElem?_cons_zero,
      Option.join_some]
    cases elem a i <;> rfl

theorem selected_length : ∀ (xs : List (Option α)) (ms : List (Option Unit)), xs.length = ms.length →
    (selected xs ms).length = ms.countP Option.isSome := by
  intro xs
  induction xs with
  | nil => intro ms h; cases ms <;> simp_all [selected]
  | cons x xs ih =>
    intro ms h
    cases ms with
    | nil => simp at h
    | cons m ms =>
      have := ih ms (by simpa using h)
      unfold selected at this ⊢
      cases m <;> simp [this]

theorem selected_all : ∀ (xs : List (Option α)) (ms : List (Option Unit)), xs.length = ms.length →
    (∀ m ∈ ms, m.isSome = true) → selected xs ms = xs := by
  intro xs
  induction xs with
  | nil => intro ms h _; rfl
  | cons x xs ih =>
    intro ms h hm
    cases ms with
    | nil => simp at h
    | cons m ms =>
      have := ih ms (by simpa using h) (fun y hy => hm y (by simp [hy]))
      unfold selected at this ⊢
      have h1 := hm m (by simp)
      cases m with
      | none => simp at h1
      | some u => simp [this]

theorem selectOp_spec (mem : Nat → α) {a : DArr α} {f : DArr Unit} (ha : a.Valid) (hf : f.Valid)
    (hs : a.values.length = f.values.length) :
    ∃ r, selectOp mem a f = some (.ok r) ∧ r.Valid ∧ (a.off = 0 → r.off = 0) ∧
      elems r = selected (elems a) (elems f) := by
  unfold selectOp DArr.size
  rw [if_neg (by omega)]
  have hle : (elems a).length = (elems f).length := by rw [elems_length, elems_length, hs]
  by_cases hb : f.bitmap = []
  · rw [if_pos hb]
    refine ⟨a, rfl, ha, id, ?_⟩
    rw [selected_all _ _ hle]
    intro m hm
    unfold elems at hm
    obtain ⟨i, hi, rfl⟩ := List.mem_map.1 hm
    rw [isSome_elem (List.mem_range.1 hi)]
    simp [pres, hb]
  · rw [if_neg hb, presentCount_spec hf]
    simp only [Option.bind_eq_bind, Option.bind_some]
    have hl := selected_length (elems a) (elems f) hle
    by_cases hc : (elems f).countP Option.isSome = 0
    · rw [if_pos hc]
      rw [hc] at hl
      refine ⟨_, rfl, valid_full _, fun _ => rfl, ?_⟩
      rw [List.length_eq_zero_iff.1 hl]; rfl
    · rw [if_neg hc, selectCalls_spec ha hf hs, Option.bind_some]
      obtain ⟨b, e1, e2, e3, e4⟩ := setAll_new (fresh mem ((elems f).countP Option.isSome))
        (selected (elems a) (elems f)) (by rw [fresh_length, hl])
      rw [e1]
      exact ⟨_, rfl, e2, fun _ => e3, e4⟩

/-! ## from_indices_and_values -/

theorem checkIndices_iff (size : Int) : ∀ (l : List Int) (last : Int), -1 ≤ last →
    (checkIndices size last l = .ok () ↔ l.Pairwise (· < ·) ∧ ∀ i ∈ l, last < i ∧ i < size) := by
  intro l
  induction l with
  | nil => intro last _; simp [checkIndices]
  | cons x xs ih =>
    intro last hl
    rw [checkIndices]
    by_cases h1 : x ≤ last
    · rw [if_pos h1]
      constructor
      · intro h; split at h <;> cases h
      · rintro ⟨_, h⟩
        have := h x (by simp)
        omega
    · rw [if_neg h1]
      by_cases h2 : x ≥ size
      · rw [if_pos h2]
        constructor
        · intro h; cases h
        · rintro ⟨_, h⟩
          have := h x (by simp)
          omega
      · rw [if_neg h2, ih x (by omega), List.pairwise_cons]
        constructor
        · rintro ⟨h3, h4⟩
          refine ⟨⟨fun y hy => (h4 y hy).1, h3⟩, ?_⟩
          intro y hy
          rcases List.mem_cons.1 hy with rfl | hy
          · omega
          · have := h4 y hy; omega
        · rintro ⟨⟨h3, h4⟩, h5⟩
          exact ⟨h4, fun y hy => ⟨h3 y hy, (h5 y (by simp [hy])).2⟩⟩

theorem full_elems {a : DArr α} (h : ∀ x ∈ elems a, x.isSome = true) : elems a = a.values.map some := by
  apply List.ext_getElem?
  intro i
  rw [elems_get?, List.getElem?_map]
  by_cases hi : i < a.values.length
  · rw [if_pos hi]
    have := h (elem a i) (List.mem_map.2 ⟨i, List.mem_range.2 hi, rfl⟩)
    rw [isSome_elem hi] at this
    rw [elem_eq, this, List.getElem?_eq_getElem hi]; rfl
  · rw [if_neg hi, List.getElem?_eq_none (by omega)]; rfl

theorem validateInputs_spec {ids : DArr Int} (hv : ids.Valid) (vs : Nat) (size : Int) :
    ∃ r, validateInputs ids vs size = some r ∧
      (r = .ok () ↔ ids.values.length = vs ∧ 0 ≤ size ∧ elems ids = ids.values.map some ∧
        IncreasingBelow size ids.values) := by
  unfold validateInputs DArr.size
  by_cases h1 : ids.values.length ≠ vs
  · rw [if_pos h1]
    exact ⟨_, rfl, by simp [h1]⟩
  · rw [if_neg h1]
    by_cases h2 : size < 0
    · rw [if_pos h2]
      refine ⟨_, rfl, ?_⟩
      constructor
      · intro h; cases h
      · rintro ⟨_, h, _⟩; omega
    · rw [if_neg h2]
      have hfull : ((elems ids).countP Option.isSome = ids.values.length) ↔
          ∀ x ∈ elems ids, x.isSome = true := by
        rw [← elems_length ids]
        exact List.countP_eq_length
      unfold DArr.isFull DArr.size
      rw [presentCount_spec hv]
      simp only [Option.bind_eq_bind, Option.bind_some]
      by_cases h3 : (elems ids).countP Option.isSome = ids.values.length
      · rw [decide_eq_true h3]
        refine ⟨_, rfl, ?_⟩
        rw [checkIndices_iff size _ _ (by omega)]
        constructor
        · rintro ⟨h4, h5⟩
          exact ⟨by omega, by omega, full_elems (hfull.1 h3), h4, fun i hi => by have := h5 i hi; omega⟩
        · rintro ⟨_, _, _, h4, h5⟩
          exact ⟨h4, fun i hi => by have := h5 i hi; omega⟩
      · rw [decide_eq_false h3]
        refine ⟨_, rfl, ?_⟩
        constructor
        · intro h; cases h
        · rintro ⟨_, _, h, _⟩
          exfalso
          apply h3
          rw [hfull, h]
          simp

theorem fivLoop_spec {n : Nat} {ids : DArr Int} {vals : DArr α} (hv : vals.Valid)
    (hl : ids.values.length = vals.values.length) (hi : IncreasingBelow n ids.values) (mem : Nat → α) :
    ∀ m, m ≤ ids.values.length → ∃ b f, (List.range m).foldlM (fivStep ids vals) (DBuilder.new (fresh mem n)) = some b ∧
      DBInv n f b ∧ ∀ (j : Nat) (v : α), f j = some v ↔ ∃ k : Nat, k < m ∧ ids.values[k]? = some (j : Int) ∧ elem vals k = some v := by
  intro m
  induction m with
  | zero =>
    intro _
    have := new_inv (fresh mem n)
    rw [fresh_length] at this
    exact ⟨_, _, rfl, this, by intro j v; simp⟩
  | succ m ih =>
    intro hm
    obtain ⟨b, f, e1, e2, e3⟩ := ih (by omega)
    rw [List.range_succ, List.foldlM_append, e1]
    simp only [Option.bind_eq_bind, Option.bind_some, List.foldlM_cons, List.foldlM_nil]
    have hvm : m < vals.values.length := by omega
    have hstep : ∃ b' f', fivStep ids vals b m = some b' ∧ DBInv n f' b' ∧
        ∀ (j : Nat) (v : α), f' j = some v ↔ ∃ k : Nat, k < m + 1 ∧ ids.values[k]? = some (j : Int) ∧ elem vals k = some v := by
      unfold fivStep
      rw [present_eq hv hvm]
      simp only [Option.bind_eq_bind, Option.bind_some]
      have hel : elem vals m = if pres vals m then some vals.values[m] else none := by
        rw [elem_eq, List.getElem?_eq_getElem hvm]
      cases hp : pres vals m with
      | false =>
        rw [hp] at hel
        refine ⟨b, f, rfl, e2, ?_⟩
        intro j v
        rw [e3]
        constructor
        · rintro ⟨k, h1, h2⟩; exact ⟨k, by omega, h2⟩
        · rintro ⟨k, h1, h2, h3⟩
          refine ⟨k, ?_, h2, h3⟩
          by_cases hk : k = m
          · subst hk; rw [hel] at h3; cases h3
          · omega
      | true =>
        rw [hp] at hel
        have him : m < ids.values.length := by omega
        rw [if_pos rfl, List.getElem?_eq_getElem him, Option.bind_some, List.getElem?_eq_getElem hvm,
          Option.bind_some]
        have hid := hi.2 ids.values[m] (List.getElem_mem him)
        rw [if_neg (by omega)]
        obtain ⟨b', g1, g2⟩ := apply_inv e2 (.set ids.values[m].toNat (some vals.values[m]))
          (show ids.values[m].toNat < n by omega)
        refine ⟨b', _, g1, g2, ?_⟩
        intro j v
        show (if j = ids.values[m].toNat then some vals.values[m] else f j) = some v ↔ _
        have hother : ∀ k, k < m → ids.values[k]? ≠ some ids.values[m] := by
          intro k hk he
          have := List.pairwise_iff_getElem.1 hi.1 k m (by omega) him hk
          rw [List.getElem?_eq_getElem (by omega)] at he
          have := Option.some.inj he
          omega
        by_cases hj : j = ids.values[m].toNat
        · rw [if_pos hj]
          have hj2 : (j : Int) = ids.values[m] := by omega
          constructor
          · intro h
            refine ⟨m, by omega, by rw [List.getElem?_eq_getElem him, hj2], by rw [hel]; exact h⟩
          · rintro ⟨k, h1, h2, h3⟩
            by_cases hk : k = m
            · subst hk; rw [hel] at h3; exact h3
            · exfalso
              apply hother k (by omega)
              rw [h2, hj2]
        · rw [if_neg hj, e3]
          constructor
          · rintro ⟨k, h1, h2⟩; exact ⟨k, by omega, h2⟩
          · rintro ⟨k, h1, h2, h3⟩
            refine ⟨k, ?_, h2, h3⟩
            by_cases hk : k = m
            · subst hk
              rw [List.getElem?_eq_getElem him] at h2
              have := Option.some.inj h2
              omega
            · omega
    obtain ⟨b', f', h1, h2, h3⟩ := hstep
    exact ⟨b', f', by rw [h1]; rfl, h2, h3⟩

theorem fiv_spec (mem : Nat → α) {ids : DArr Int} {vals : DArr α} (hi : ids.Valid) (hv : vals.Valid)
    {n : Nat} (hl : ids.values.length = vals.values.length) (he : elems ids = ids.values.map some)
    (hb : IncreasingBelow n ids.values) :
    ∃ r, fromIndicesAndValues mem ids vals n = some (.ok r) ∧ r.Valid ∧ r.off = 0 ∧ (elems r).length = n ∧
      ∀ (j : Nat) (v : α), (elems r)[j]? = some (some v) ↔
        ∃ k : Nat, ids.values[k]? = some (j : Int) ∧ (elems vals)[k]? = some (some v) := by
  unfold fromIndicesAndValues
  obtain ⟨s, e1, e2⟩ := validateInputs_spec hi vals.values.length (n : Int)
  have hs : s = .ok () := e2.2 ⟨hl, by omega, he, hb⟩
  subst hs
  unfold DArr.size
  rw [e1]
  simp only [Option.bind_eq_bind, Option.bind_some, Int.toNat_natCast]
  obtain ⟨b, f, g1, g2, g3⟩ := fivLoop_spec hv hl hb mem ids.values.length (by omega)
  rw [g1]
  obtain ⟨h1, h2⟩ := elems_of_inv g2
  refine ⟨_, rfl, h1, rfl, by rw [h2]; simp, ?_⟩
  intro j v
  rw [h2, List.getElem?_map]
  have hkl : ∀ k, ids.values[k]? = some (j : Int) → k < ids.values.length := by
    intro k hk
    by_contra hc
    rw [List.getElem?_eq_none (by omega)] at hk
    cases hk
  constructor
  · intro h
    by_cases hj : j < n
    · rw [List.getElem?_range hj] at h
      obtain ⟨k, h3, h4, h5⟩ := (g3 j v).1 (Option.some.inj h)
      refine ⟨k, h4, ?_⟩
      rw [elems_get?, if_pos (by omega), h5]
    · rw [List.getElem?_eq_none (by simp; omega)] at h
      cases h
  · rintro ⟨k, h3, h4⟩
    have hk := hkl k h3
    rw [elems_get?, if_pos (by omega)] at h4
    have hj : j < n := by
      have := hb.2 (j : Int) (List.mem_of_getElem? h3)
      omega
    rw [List.getElem?_range hj]
    exact congrArg some ((g3 j v).2 ⟨k, hk, h3, Option.some.inj h4⟩)

/-! ## Round trip -/

theorem mem_pairs_iff (xs : List (Option α)) (i : Nat) (v : α) :
    (∃ k : Nat, (positions xs)[k]? = some i ∧ (presents xs)[k]? = some v) ↔ xs[i]? = some (some v) := by
  rw [← pairs_fst xs, ← pairs_snd xs]
  generalize hp : (List.range xs.length).filterMap (fun i => (xs[i]?.join).map (fun v => (i, v))) = ps
  have h1 : (∃ k : Nat, (ps.map Prod.fst)[k]? = some i ∧ (ps.map Prod.snd)[k]? = some v) ↔ (i, v) ∈ ps := by
    rw [List.mem_iff_getElem?]
    constructor
    · rintro ⟨k, h1, h2⟩
      refine ⟨k, ?_⟩
      rw [List.getElem?_map] at h1 h2
      cases hk : ps[k]? with
      | none => rw [hk] at h1; cases h1
      | some p =>
        rw [hk] at h1 h2
        have e1 := Option.some.inj h1
        have e2 := Option.some.inj h2
        rw [← e1, ← e2]
    · rintro ⟨k, h⟩
      exact ⟨k, by rw [List.getElem?_map, h]; rfl, by rw [List.getElem?_map, h]; rfl⟩
  rw [h1, ← hp, List.mem_filterMap]
  constructor
  · rintro ⟨j, _, h⟩
    rw [Option.map_eq_some_iff] at h
    obtain ⟨w, h2, h3⟩ := h
    cases h3
    rw [Option.join_eq_some_iff] at h2
    exact h2
  · intro h
    refine ⟨i, ?_, by rw [h]; rfl⟩
    rw [List.mem_range]
    by_contra hc
    rw [List.getElem?_eq_none (by omega)] at h
    cases h

theorem positions_increasing (xs : List (Option α)) :
    IncreasingBelow xs.length ((positions xs).map (fun (n : Nat) => (n : Int))) := by
  refine ⟨?_, ?_⟩
  · rw [List.pairwise_map]
    have : (positions xs).Pairwise (· < ·) := List.Pairwise.filter _ List.pairwise_lt_range
    exact this.imp (fun h => by omega)
  · intro i hi
    obtain ⟨j, hj, rfl⟩ := List.mem_map.1 hi
    have := List.mem_range.1 (List.mem_filter.1 hj).1
    omega

theorem positions_map (xs : List (Option α)) (f : α → β) : positions (xs.map (Option.map f)) = positions xs := by
  unfold positions
  rw [List.length_map]
  apply List.filter_congr
  intro i _
  rw [List.getElem?_map]
  cases xs[i]? with
  | none => rfl
  | some x => cases x <;> rfl

theorem getElem?_ext_some {xs ys : List (Option α)} (hl : xs.length = ys.length)
    (h : ∀ (i : Nat) (v : α), xs[i]? = some (some v) ↔ ys[i]? = some (some v)) : xs = ys := by
  apply List.ext_getElem?
  intro i
  by_cases hi : i < xs.length
  · rw [List.getElem?_eq_getElem hi, List.getElem?_eq_getElem (by omega)]
    have := fun v => h i v
    simp only [List.getElem?_eq_getElem hi, List.getElem?_eq_getElem (show i < ys.length by omega),
      Option.some.injEq] at this
    rw [Option.ext this]
  · rw [List.getElem?_eq_none (by omega), List.getElem?_eq_none (by omega)]

/-! ## iota -/

theorem iotaLoop_spec : ∀ (n i : Nat) (buf : List Int), i + n = buf.length →
    ∃ r, iotaLoop n i buf = some r ∧ r.length = buf.length ∧
      ∀ k, k < buf.length → r[k]? = if i ≤ k then some (k : Int) else buf[k]? := by
  intro n
  induction n with
  | zero => intro i buf h; exact ⟨buf, rfl, rfl, fun k hk => by rw [if_neg (by omega)]⟩
  | succ n ih =>
    intro i buf h
    rw [iotaLoop]
    unfold wrV
    rw [if_pos (by omega)]
    simp only [Option.bind_eq_bind, Option.bind_some]
    obtain ⟨r, e1, e2, e3⟩ := ih (i + 1) (buf.set i (i : Int)) (by simp; omega)
    refine ⟨r, e1, by simpa using e2, ?_⟩
    intro k hk
    rw [e3 k (by simpa using hk), List.getElem?_set]
    by_cases h1 : i + 1 ≤ k
    · rw [if_pos h1, if_pos (by omega)]
    · rw [if_neg h1]
      by_cases h2 : i = k
      · subst h2; rw [if_pos rfl, if_pos hk, if_pos (by omega)]
      · rw [if_neg h2, if_neg (by omega)]

theorem iota_spec (mem : Nat → Int) (n : Nat) :
    iota mem n = some ⟨(List.range n).map (fun (i : Nat) => (i : Int)), [], 0⟩ := by
  unfold iota
  obtain ⟨r, e1, e2, e3⟩ := iotaLoop_spec n 0 (fresh mem n) (by rw [fresh_length]; omega)
  rw [fresh_length] at e2 e3
  rw [e1]
  have : r = (List.range n).map (fun (i : Nat) => (i : Int)) := by
    apply List.ext_getElem?
    intro k
    by_cases hk : k < n
    · rw [e3 k hk, if_pos (by omega)]; simp [hk]
    · rw [List.getElem?_eq_none (by omega), List.getElem?_eq_none (by simp; omega)]
  rw [this]; rfl

/-! ## Pointwise operations -/

theorem copyWords_spec (ptr : List Word) : ∀ (n i : Nat) (bm : List Word), i + n ≤ bm.length → i + n ≤ ptr.length →
    ∃ r, copyWords ptr n i bm = some r ∧ r.length = bm.length ∧
      ∀ k, wd r k = if i ≤ k ∧ k < i + n then wd ptr k else wd bm k := by
  intro n
  induction n with
  | zero => intro i bm _ _; exact ⟨bm, rfl, rfl, fun k => by rw [if_neg (by omega)]⟩
  | succ n ih =>
    intro i bm h1 h2
    rw [copyWords, List.getElem?_eq_getElem (show i < ptr.length by omega)]
    unfold wrV
    simp only [Option.bind_eq_bind, Option.bind_some]
    rw [if_pos (by omega), Option.bind_some]
    obtain ⟨r, e1, e2, e3⟩ := ih (i + 1) (bm.set i ptr[i]) (by simp; omega) (by omega)
    refine ⟨r, e1, by simpa using e2, ?_⟩
    intro k
    rw [e3, wd_set (by omega)]
    by_cases hk : k = i
    · subst hk
      rw [if_neg (by omega), if_pos rfl, if_pos (by omega)]
      unfold wd
      rw [List.getElem?_eq_getElem (show k < ptr.length by omega)]; rfl
    · by_cases hk2 : i + 1 ≤ k ∧ k < i + 1 + n
      · rw [if_pos hk2, if_pos (by omega)]
      · rw [if_neg hk2, if_neg hk, if_neg (by omega)]

theorem andWords_spec (ptr : List Word) : ∀ (n i : Nat) (bm : List Word), i + n ≤ bm.length → i + n ≤ ptr.length →
    ∃ r, andWords ptr n i bm = some r ∧ r.length = bm.length ∧
      ∀ k, wd r k = if i ≤ k ∧ k < i + n then wd bm k &&& wd ptr k else wd bm k := by
  intro n
  induction n with
  | zero => intro i bm _ _; exact ⟨bm, rfl, rfl, fun k => by rw [if_neg (by omega)]⟩
  | succ n ih =>
    intro i bm h1 h2
    rw [andWords, List.getElem?_eq_getElem (show i < ptr.length by omega),
      List.getElem?_eq_getElem (show i < bm.length by omega)]
    unfold wrV
    simp only [Option.bind_eq_bind, Option.bind_some]
    rw [if_pos (by omega), Option.bind_some]
    obtain ⟨r, e1, e2, e3⟩ := ih (i + 1) (bm.set i (bm[i] &&& ptr[i])) (by simp; omega) (by omega)
    refine ⟨r, e1, by simpa using e2, ?_⟩
    intro k
    rw [e3, wd_set (by omega)]
    by_cases hk : k = i
    · subst hk
      rw [if_neg (by omega), if_pos rfl, if_pos (by omega)]
      unfold wd
      rw [List.getElem?_eq_getElem (show k < ptr.length by omega),
        List.getElem?_eq_getElem (show k < bm.length by omega)]; rfl
    · by_cases hk2 : i + 1 ≤ k ∧ k < i + 1 + n
      · rw [if_pos hk2, if_neg hk, if_pos (by omega)]
      · rw [if_neg hk2, if_neg hk, if_neg (by omega)]

/-- Arguments of a pointwise operation on `n` rows. -/
def ArgOk (n : Nat) (a : DArr V) : Prop := a.Valid ∧ a.off = 0 ∧ a.values.length = n

theorem intersect_spec {n : Nat} : ∀ (l done : List (DArr V)) (st : List Word × Bool),
    (∀ a ∈ l, ArgOk n a) → st.1.length = bitmapSize n →
    (st.2 = false → ∀ a ∈ done, a.bitmap = []) →
    (st.2 = true → ∀ i, i < n → bitAt st.1 i = done.all (fun a => pres a i)) →
    ∃ st', l.foldlM (intersectFn (bitmapSize n)) st = some st' ∧ st'.1.length = bitmapSize n ∧
      (st'.2 = false → ∀ a ∈ done ++ l, a.bitmap = []) ∧
      (st'.2 = true → ∀ i, i < n → bitAt st'.1 i = (done ++ l).all (fun a => pres a i)) := by
  intro l
  induction l with
  | nil => intro done st _ h1 h2 h3; exact ⟨st, rfl, h1, by simpa using h2, by simpa using h3⟩
  | cons a l ih =>
    intro done st ha h1 h2 h3
    have hsz := bitmapSize_eq n
    obtain ⟨hv, ho, hl⟩ := ha a (by simp)
    have hstep : ∃ st1, intersectFn (bitmapSize n) st a = some st1 ∧ st1.1.length = bitmapSize n ∧
        (st1.2 = false → ∀ x ∈ done ++ [a], x.bitmap = []) ∧
        (st1.2 = true → ∀ i, i < n → bitAt st1.1 i = (done ++ [a]).all (fun x => pres x i)) := by
      unfold intersectFn
      by_cases hb : a.bitmap = []
      · rw [if_pos hb]
        refine ⟨st, rfl, h1, ?_, ?_⟩
        · intro h x hx
          rcases List.mem_append.1 hx with h4 | h4
          · exact h2 h x h4
          · rw [List.mem_singleton] at h4; rw [h4]; exact hb
        · intro h i hi
          rw [h3 h i hi, List.all_append]
          simp [pres, hb]
      · rw [if_neg hb]
        have hlen : a.bitmap.length = bitmapSize n := by
          have := hv.2.resolve_left hb
          unfold DArr.size at this
          rw [this, ho, hl, Nat.add_zero]
        have hpa : ∀ i, pres a i = bitAt a.bitmap i := by
          intro i; unfold pres; simp [hb, ho]
        cases hs : st.2 with
        | true =>
          rw [if_pos rfl]
          obtain ⟨r, e1, e2, e3⟩ := andWords_spec a.bitmap (bitmapSize n) 0 st.1 (by omega) (by omega)
          rw [e1]
          refine ⟨_, rfl, by dsimp only; omega, fun h => by simp at h, ?_⟩
          intro _ i hi
          dsimp only
          unfold bitAt
          rw [e3, if_pos (by omega), BitVec.getLsbD_and]
          have h4 := h3 hs i hi
          have h5 := hpa i
          unfold bitAt at h4 h5
          rw [h4, ← h5, List.all_append]
          simp
        | false =>
          rw [if_neg (by simp)]
          obtain ⟨r, e1, e2, e3⟩ := copyWords_spec a.bitmap (bitmapSize n) 0 st.1 (by omega) (by omega)
          rw [e1]
          refine ⟨_, rfl, by dsimp only; omega, fun h => by simp at h, ?_⟩
          intro _ i hi
          dsimp only
          unfold bitAt
          rw [e3, if_pos (by omega)]
          have h5 := hpa i
          unfold bitAt at h5
          rw [← h5, List.all_append]
          have : done.all (fun x => pres x i) = true := by
            rw [List.all_eq_true]
            intro x hx
            unfold pres
            rw [decide_eq_true (h2 hs x hx)]; rfl
          rw [this]; simp
    obtain ⟨st1, e1, e2, e3, e4⟩ := hstep
    rw [List.foldlM_cons, e1]
    simp only [Option.bind_eq_bind, Option.bind_some]
    have := ih (done ++ [a]) st1 (fun x hx => ha x (by simp [hx])) e2 e3 e4
    rw [List.append_assoc] at this
    exact this

theorem row_values {n : Nat} {args : List (DArr V)} (ha : ∀ a ∈ args, ArgOk n a) {i : Nat} (hi : i < n) :
    ∃ vs, args.mapM (fun a => a.values[i]?) = some vs ∧
      ∀ (fn : List V → R), (if args.all (fun a => pres a i) then some (fn vs) else none) =
        applyRow fn (args.map (fun a => elem a i)) := by
  have hsome : ∀ a ∈ args, (elem a i).isSome = pres a i := by
    intro a h
    exact isSome_elem (by have := (ha a h).2.2; omega)
  have hall : (args.map (fun a => elem a i)).all Option.isSome = args.all (fun a => pres a i) := by
    rw [List.all_map, Bool.eq_iff_iff, List.all_eq_true, List.all_eq_true]
    constructor
    · intro h a hx; rw [← hsome a hx]; exact h a hx
    · intro h a hx
      show (elem a i).isSome = true
      rw [hsome a hx]; exact h a hx
  have hex : ∃ vs, args.mapM (fun a => a.values[i]?) = some vs ∧
      (args.all (fun a => pres a i) = true → (args.map (fun a => elem a i)).filterMap id = vs) := by
    clear hall hsome
    induction args with
    | nil => exact ⟨[], rfl, fun _ => rfl⟩
    | cons a args ih =>
      obtain ⟨vs, h1, h2⟩ := ih (fun x hx => ha x (by simp [hx]))
      have hl := (ha a (by simp)).2.2
      refine ⟨a.values[i] :: vs, ?_, ?_⟩
      · rw [List.mapM_cons, List.getElem?_eq_getElem (by omega), h1]; rfl
      · intro h
        rw [List.all_cons, Bool.and_eq_true] at h
        rw [List.map_cons, elem_eq, h.1, List.getElem?_eq_getElem (by omega)]
        simp only [if_true]
        rw [List.filterMap_cons_some (f := id) (a := some a.values[i]) rfl, h2 h.2]
  obtain ⟨vs, h1, h2⟩ := hex
  refine ⟨vs, h1, ?_⟩
  intro fn
  unfold applyRow
  rw [hall]
  cases h : args.all (fun a => pres a i) with
  | false => rfl
  | true => rw [h2 h]

theorem simpleOp_spec (fn : List V → R) (bmem : Nat → Word) {first : DArr V} {rest : List (DArr V)} {n : Nat}
    (ha : ∀ a ∈ first :: rest, ArgOk n a) :
    ∃ r, simpleOp fn bmem first rest = some r ∧ r.Valid ∧ r.off = 0 ∧
      elems r = (List.range n).map (fun i => applyRow fn ((first :: rest).map (fun a => elem a i))) := by
  have hvals : ∀ i, i < n → ∃ vs, (first :: rest).mapM (fun a => a.values[i]?) = some vs ∧
      ∀ (fn : List V → R), (if (first :: rest).all (fun a => pres a i) then some (fn vs) else none) =
        applyRow fn ((first :: rest).map (fun a => elem a i)) := fun i hi => row_values ha hi
  choose! vs hv1 hv2 using hvals
  have hf := ha first (by simp)
  unfold simpleOp DArr.size
  rw [hf.2.2]
  have hm : (List.range n).mapM (fun i => do
      some (fn (← (first :: rest).mapM (fun a => a.values[i]?)))) = some ((List.range n).map (fun i => fn (vs i))) := by
    apply mapM_some
    intro i hi
    rw [hv1 i (List.mem_range.1 hi)]; rfl
  rw [hm]
  simp only [Option.bind_eq_bind, Option.bind_some]
  have hel : ∀ (bm : List Word), (∀ i, i < n → (decide (bm = []) || bitAt bm i) =
      (first :: rest).all (fun a => pres a i)) →
      elems (⟨(List.range n).map (fun i => fn (vs i)), bm, 0⟩ : DArr R) =
        (List.range n).map (fun i => applyRow fn ((first :: rest).map (fun a => elem a i))) := by
    intro bm hbm
    unfold elems
    dsimp only
    rw [List.length_map, List.length_range]
    apply List.map_congr_left
    intro i hi
    have hi := List.mem_range.1 hi
    rw [← hv2 i hi, elem_eq]
    unfold pres
    dsimp only
    rw [Nat.zero_add, hbm i hi, List.getElem?_map, List.getElem?_range hi]
    rfl
  by_cases hr : (rest.all fun a => a.bitmap.isEmpty) = true
  · rw [if_pos hr]
    have hv := hf.1
    refine ⟨_, rfl, ?_, rfl, ?_⟩
    · unfold DArr.Valid DArr.size at hv ⊢
      dsimp only
      rw [hf.2.1, hf.2.2] at hv
      rw [List.length_map, List.length_range]
      exact hv
    · apply hel
      intro i hi
      rw [List.all_cons]
      have : rest.all (fun a => pres a i) = true := by
        rw [List.all_eq_true] at hr ⊢
        intro a hx
        have := List.isEmpty_iff.1 (hr a hx)
        unfold pres
        rw [decide_eq_true this]; rfl
      rw [this, Bool.and_true]
      unfold pres
      rw [hf.2.1, Nat.zero_add]
  · rw [if_neg hr]
    obtain ⟨st, e1, e2, e3, e4⟩ := intersect_spec (first :: rest) [] (fresh bmem (bitmapSize n), false) ha
      (fresh_length _ _) (fun _ a h => by cases h) (fun h => by cases h)
    rw [e1]
    refine ⟨_, rfl, ⟨by simp, Or.inr (by simp [DArr.size, e2])⟩, rfl, ?_⟩
    apply hel
    intro i hi
    have hst : st.2 = true := by
      cases h : st.2 with
      | true => rfl
      | false =>
        exfalso
        apply hr
        rw [List.all_eq_true]
        intro a hx
        rw [List.isEmpty_iff]
        exact e3 h a (by simp [hx])
    have hne : st.1 ≠ [] := by
      intro h
      rw [h, List.length_nil, bitmapSize_eq] at e2
      omega
    rw [decide_eq_false hne, Bool.false_or]
    exact e4 hst i hi

end Verif.DOps
