import Verif.Arr.ArrayLemmas

/-! Helper lemmas for `ToSparseForm`. -/

namespace Verif.Arr
open Verif.Bits Verif.Bitmap Verif.Dense
variable {α : Type}

/-- Row of a stored offset, as a total function. -/
def rowI (f : Filter) (o : Nat) : Int := if f.typ = .full then (o : Int) else (f.zids[o]?).getD 0

section
variable {a : Arr α}

theorem rowI_partial (ht : a.flt.typ = .partial') (hv : a.Valid) {o : Nat}
    (ho : o < a.data.values.length) : a.flt.zids[o]? = some (rowI a.flt o) := by
  have : o < a.flt.zids.length := by rw [zids_length, ← valid_partial hv ht]; exact ho
  unfold rowI
  rw [if_neg (by rw [ht]; simp), List.getElem?_eq_getElem this]
  rfl

theorem rowI_full (ht : a.flt.typ = .full) (o : Nat) : rowI a.flt o = o := by
  unfold rowI; rw [if_pos ht]

theorem rowI_bounds (hv : a.Valid) {o : Nat} (ho : o < a.data.values.length) :
    0 ≤ rowI a.flt o ∧ rowI a.flt o < a.size := by
  cases ht : a.flt.typ with
  | empty => rw [valid_empty hv ht] at ho; simp at ho
  | partial' =>
    exact (fvalid_partial hv.2.1 ht).2.2.2 _ (List.mem_of_getElem? (rowI_partial ht hv ho))
  | full => rw [rowI_full ht]; rw [(valid_full hv ht).1] at ho; omega

theorem rowI_lt (hv : a.Valid) {o p : Nat} (hop : o < p) (hp : p < a.data.values.length) :
    rowI a.flt o < rowI a.flt p := by
  cases ht : a.flt.typ with
  | empty => rw [valid_empty hv ht] at hp; simp at hp
  | partial' =>
    exact (fvalid_partial hv.2.1 ht).2.2.1.lt hop (rowI_partial ht hv (by omega)) (rowI_partial ht hv hp)
  | full => rw [rowI_full ht, rowI_full ht]; omega

theorem rowI_inj (hv : a.Valid) {o p : Nat} (ho : o < a.data.values.length)
    (hp : p < a.data.values.length) (h : rowI a.flt o = rowI a.flt p) : o = p := by
  rcases Nat.lt_trichotomy o p with hlt | heq | hgt
  · have := rowI_lt hv hlt hp; omega
  · exact heq
  · have := rowI_lt hv hgt ho; omega

theorem idToOffset_row (hv : a.Valid) {i o : Nat} (hi : i < a.size) :
    a.flt.idToOffset i = some o ↔ o < a.data.values.length ∧ rowI a.flt o = i := by
  cases ht : a.flt.typ with
  | empty => simp [Filter.idToOffset, ht, valid_empty hv ht]
  | partial' =>
    rw [idToOffset_iff hv.2.1 ht]
    constructor
    · intro h
      have ho : o < a.data.values.length := by
        rw [valid_partial hv ht, ← zids_length]; exact (List.getElem?_eq_some_iff.1 h).1
      refine ⟨ho, ?_⟩
      rw [rowI_partial ht hv ho] at h
      simpa using h
    · rintro ⟨ho, h⟩
      rw [rowI_partial ht hv ho, h]
  | full =>
    rw [rowI_full ht, (valid_full hv ht).1]
    simp only [Filter.idToOffset, ht, Option.some.injEq]
    omega

theorem inc_rows (hv : a.Valid) {os : List Nat} (hos : os.Pairwise (· < ·))
    (hlt : ∀ o ∈ os, o < a.data.values.length) : Inc (os.map (rowI a.flt)) := by
  unfold Inc
  rw [List.pairwise_map]
  refine hos.imp_of_mem ?_
  intro o p _ hp hop
  exact rowI_lt hv hop (hlt p hp)

/-- An array which stores some of the offsets and has the others equal to the missing value. -/
theorem sparse_result (hv : a.Valid) (m : Option α) {os : List Nat} (hos : os.Pairwise (· < ·))
    (hlt : ∀ o ∈ os, o < a.data.values.length) {d : DArr α} (hd : d.Valid)
    (hl : d.values.length = os.length)
    (hde : ∀ j o, os[j]? = some o → Dense.elem d j = Dense.elem a.data o)
    (hother : ∀ o, o < a.data.values.length → (o ∈ os ↔ Dense.elem a.data o ≠ m))
    (hmiss : a.flt.typ ≠ .full → a.miss = m) :
    (Arr.make a.size (mkFilter a.size (os.map (rowI a.flt)) 0) d m).Valid ∧
    ∀ i, i < a.size →
      (Arr.make a.size (mkFilter a.size (os.map (rowI a.flt)) 0) d m).elem i = a.elem i ∧
      ((Arr.make a.size (mkFilter a.size (os.map (rowI a.flt)) 0) d m).flt.Has i ↔ a.elem i ≠ m) := by
  have hinc := inc_rows hv hos hlt
  have hb : ∀ x ∈ os.map (rowI a.flt), (0 : Int) ≤ x ∧ x < 0 + (a.size : Int) := by
    intro x hx
    obtain ⟨o, ho, rfl⟩ := List.mem_map.1 hx
    have := rowI_bounds hv (hlt o ho); omega
  obtain ⟨m1, m2, m3, m4⟩ := make_spec hinc hb hd (by rw [hl]; simp) m
  refine ⟨m1, ?_⟩
  intro i hi
  rw [m2 i hi]
  rw [Int.add_zero]
  cases he : a.flt.idToOffset i with
  | some o =>
    obtain ⟨ho, hr⟩ := (idToOffset_row hv hi).1 he
    have hae := elem_some hv he
    by_cases hmem : o ∈ os
    · obtain ⟨j, hj⟩ := List.mem_iff_getElem?.1 hmem
      have : (os.map (rowI a.flt))[j]? = some ((i : Int) + 0) := by
        rw [List.getElem?_map, hj]; simp [hr]
      rw [m3 j i this, hde j o hj, hae]
      refine ⟨rfl, ?_⟩
      rw [← hother o ho]
      exact ⟨fun _ => hmem, fun _ => List.mem_map.2 ⟨o, hmem, hr⟩⟩
    · have hni : (i : Int) ∉ os.map (rowI a.flt) := by
        intro hc
        obtain ⟨p, hp, hpi⟩ := List.mem_map.1 hc
        have := rowI_inj hv ho (hlt p hp) (by rw [hr, hpi])
        subst this
        exact hmem hp
      have hem : Dense.elem a.data o = m := by
        by_contra hc; exact hmem ((hother o ho).2 hc)
      rw [m4 i hi (by rw [Int.add_zero]; exact hni), hae, hem]
      exact ⟨rfl, fun h => absurd h hni, fun h => absurd rfl h⟩
  | none =>
    have hnh : ¬ a.flt.Has i := by rw [has_iff hv.2.1, he]; simp
    have hni : (i : Int) ∉ os.map (rowI a.flt) := by
      intro hc
      obtain ⟨p, hp, hpi⟩ := List.mem_map.1 hc
      have := (idToOffset_row hv hi).2 ⟨hlt p hp, hpi⟩
      rw [this] at he; simp at he
    have hnf : a.flt.typ ≠ .full := by
      intro hf; apply hnh; unfold Filter.Has; rw [hf]; trivial
    rw [m4 i hi (by rw [Int.add_zero]; exact hni), elem_miss hv hnh, hmiss hnf]
    exact ⟨rfl, fun h => absurd h hni, fun h => absurd rfl h⟩

end

/-! ## Copying the kept values -/

theorem copyKept_spec {src : List α} : ∀ (os : List (Option Nat)) (index : Nat) (dst : List α),
    (∀ o, some o ∈ os → o < src.length) → index + os.length ≤ dst.length →
    ∃ r, Arr.copyKept src os index dst = some r ∧ r.length = dst.length ∧
      (∀ k, k < index → r[k]? = dst[k]?) ∧
      ∀ j o, os[j]? = some (some o) → r[index + j]? = src[o]? := by
  intro os
  induction os with
  | nil =>
    intro index dst _ _
    exact ⟨dst, rfl, rfl, fun _ _ => rfl, by simp⟩
  | cons x xs ih =>
    intro index dst h hl
    rw [List.length_cons] at hl
    cases x with
    | none =>
      rw [Arr.copyKept]
      obtain ⟨r, r1, r2, r3, r4⟩ := ih (index + 1) dst (fun o ho => h o (by simp [ho])) (by omega)
      refine ⟨r, r1, r2, fun k hk => r3 k (by omega), ?_⟩
      intro j o hj
      cases j with
      | zero => simp at hj
      | succ j =>
        rw [← r4 j o (by simpa using hj)]
        congr 1; omega
    | some y =>
      have hy := h y (by simp)
      rw [Arr.copyKept, copyValue_eq (List.getElem?_eq_getElem hy)]
      unfold wrV
      rw [if_pos (by omega)]
      simp only [Option.bind_eq_bind, Option.bind_some]
      obtain ⟨r, r1, r2, r3, r4⟩ := ih (index + 1) (dst.set index src[y])
        (fun o ho => h o (by simp [ho])) (by simp; omega)
      refine ⟨r, r1, by simpa using r2, ?_, ?_⟩
      · intro k hk
        rw [r3 k (by omega), List.getElem?_set, if_neg (by omega)]
      · intro j o hj
        cases j with
        | zero =>
          simp at hj
          subst hj
          rw [Nat.add_zero, r3 index (by omega), List.getElem?_set]
          simp [show index < dst.length by omega, hy]
        | succ j =>
          rw [← r4 j o (by simpa using hj)]
          congr 1; omega

theorem mem_missedAt : ∀ (os : List (Option Nat)) (index k : Nat),
    k ∈ Arr.missedAt os index ↔ ∃ j, k = index + j ∧ os[j]? = some none := by
  intro os
  induction os with
  | nil => intro index k; simp [Arr.missedAt]
  | cons x xs ih =>
    intro index k
    have hshift : (∃ j, k = index + 1 + j ∧ xs[j]? = some none) ↔
        ∃ j, k = index + (j + 1) ∧ (x :: xs)[j + 1]? = some none := by
      constructor <;> rintro ⟨j, h1, h2⟩ <;> exact ⟨j, by omega, by simpa using h2⟩
    cases x with
    | some o =>
      rw [Arr.missedAt, ih, hshift]
      constructor
      · rintro ⟨j, h1, h2⟩; exact ⟨j + 1, h1, h2⟩
      · rintro ⟨j, h1, h2⟩
        cases j with
        | zero => simp at h2
        | succ j => exact ⟨j, h1, h2⟩
    | none =>
      rw [Arr.missedAt, List.mem_cons, ih, hshift]
      constructor
      · rintro (h | ⟨j, h1, h2⟩)
        · exact ⟨0, by omega, by simp⟩
        · exact ⟨j + 1, h1, h2⟩
      · rintro ⟨j, h1, h2⟩
        cases j with
        | zero => left; omega
        | succ j => exact Or.inr ⟨j, h1, h2⟩

theorem mapM_rows {a : Arr α} (hv : a.Valid) {os : List Nat} (hlt : ∀ o ∈ os, o < a.data.values.length) :
    os.mapM (fun (o : Nat) => if a.flt.typ = .full then some (o : Int) else a.flt.idsOffsetToId o) =
      some (os.map (rowI a.flt)) := by
  apply mapM_some
  intro o ho
  cases ht : a.flt.typ with
  | empty => have := hlt o ho; rw [valid_empty hv ht] at this; simp at this
  | partial' => rw [if_neg (by simp), idsOffsetToId_eq, rowI_partial ht hv (hlt o ho)]
  | full => rw [if_pos rfl, rowI_full ht]

theorem filterMap_visits {d : DArr α} {β : Type} {g : Nat × Bool × α → Option β} {p : Nat → Bool}
    {h : Nat → β} (hg : ∀ c ∈ visits d, g c = if p c.1 then some (h c.1) else none) :
    (visits d).filterMap g = ((List.range d.values.length).filter p).map h := by
  rw [← visits_fst]
  generalize visits d = l at hg
  induction l with
  | nil => rfl
  | cons c cs ih =>
    rw [List.filterMap_cons, hg c (by simp), List.map_cons, List.filter_cons]
    have ih := ih (fun x hx => hg x (by simp [hx]))
    cases p c.1 with
    | true => simp [ih]
    | false => simp [ih]

theorem sorted_filter_range (n : Nat) (p : Nat → Bool) :
    ((List.range n).filter p).Pairwise (· < ·) := List.Pairwise.filter _ List.pairwise_lt_range

section
variable [DecidableEq α] {a : Arr α}

/-- The result of the branches which copy present values only. -/
theorem sparse_full_data (mem : Nat → α) (hv : a.Valid) (m : Option α) {os : List Nat}
    (hos : os.Pairwise (· < ·)) (hlt : ∀ o ∈ os, o < a.data.values.length)
    (hpres : ∀ o ∈ os, pres a.data o = true)
    (hother : ∀ o, o < a.data.values.length → (o ∈ os ↔ Dense.elem a.data o ≠ m))
    (hmiss : a.flt.typ ≠ .full → a.miss = m) :
    ∃ r, (do
      let ids ← os.mapM (fun (o : Nat) =>
        if a.flt.typ = .full then some (o : Int) else a.flt.idsOffsetToId o)
      let vals ← Arr.copyKept a.data.values (os.map some) 0 ((List.range a.data.size).map mem)
      some (Arr.make a.size (mkFilter a.size ids 0) ⟨vals.take os.length, [], 0⟩ m)) = some r ∧
      r.Valid ∧ r.size = a.size ∧
      ∀ i, i < a.size → r.elem i = a.elem i ∧ (r.flt.Has i ↔ a.elem i ≠ m) := by
  have hle : os.length ≤ a.data.values.length := by
    have h1 : (os.map (fun (o : Nat) => (o : Int))).length ≤ a.data.values.length :=
      Inc.length_le (b := 0) (by
        unfold Inc; rw [List.pairwise_map]; refine hos.imp ?_; intro x y h; omega) (by
        intro x hx
        obtain ⟨o, ho, rfl⟩ := List.mem_map.1 hx
        have := hlt o ho; omega)
    simpa using h1
  rw [mapM_rows hv hlt]
  simp only [Option.bind_eq_bind, Option.bind_some]
  obtain ⟨vals, v1, v2, _, v4⟩ := copyKept_spec (src := a.data.values) (os.map some) 0
    ((List.range a.data.size).map mem) (by
      intro o ho
      have : o ∈ os := by simpa using ho
      exact hlt o this) (by simp [DArr.size]; omega)
  rw [v1]
  simp only [Option.bind_some]
  have hlen : vals.length = a.data.values.length := by simpa [DArr.size] using v2
  obtain ⟨r1, r2⟩ := sparse_result hv m hos hlt (d := ⟨vals.take os.length, [], 0⟩)
    ⟨by simp, Or.inl rfl⟩ (by simp; omega) (by
      intro j o hj
      have hjl := (List.getElem?_eq_some_iff.1 hj).1
      have := v4 j o (by rw [List.getElem?_map, hj]; rfl)
      rw [Nat.zero_add] at this
      rw [Dense.elem_eq a.data, hpres o (List.mem_of_getElem? hj), if_pos rfl, ← this]
      simp [Dense.elem, List.getElem?_take, hjl]) hother hmiss
  exact ⟨_, rfl, r1, rfl, r2⟩

theorem toSparseNoMissed_spec (mem : Nat → α) (hv : a.Valid) (hmiss : a.flt.typ ≠ .full → a.miss = none) :
    ∃ r, a.toSparseNoMissed mem = some r ∧ r.Valid ∧ r.size = a.size ∧
      ∀ i, i < a.size → r.elem i = a.elem i ∧ (r.flt.Has i ↔ a.elem i ≠ none) := by
  unfold Arr.toSparseNoMissed
  by_cases hb : a.data.bitmap = []
  · rw [if_pos hb]
    refine ⟨a, rfl, hv, rfl, fun i hi => ⟨rfl, ?_⟩⟩
    rw [has_iff hv.2.1]
    cases he : a.flt.idToOffset i with
    | none =>
      have hnh : ¬ a.flt.Has i := by rw [has_iff hv.2.1, he]; simp
      have hnf : a.flt.typ ≠ .full := by
        intro hf; apply hnh; unfold Filter.Has; rw [hf]; trivial
      rw [elem_miss hv hnh, hmiss hnf]
      simp
    | some o =>
      rw [elem_some hv he]
      have ho := offset_lt hv hi he
      simp [Dense.elem, hb, ho]
  · rw [if_neg hb, forEach_visits hv.1]
    simp only [Option.bind_eq_bind, Option.bind_some]
    rw [filterMap_visits (p := fun o => pres a.data o) (h := fun o => o) (by
      intro c hc
      rw [(mem_visits.1 hc).2.1])]
    rw [List.map_id']
    have hmem : ∀ o, o ∈ (List.range a.data.values.length).filter (fun o => pres a.data o) ↔
        o < a.data.values.length ∧ pres a.data o = true := by
      intro o; simp
    refine sparse_full_data mem hv none (sorted_filter_range _ _) (fun o ho => ((hmem o).1 ho).1)
      (fun o ho => ((hmem o).1 ho).2) ?_ hmiss
    intro o ho
    rw [hmem, Dense.elem_eq]
    cases pres a.data o with
    | true => simp [ho]
    | false => simp

theorem keptSparse_spec (hv : a.Valid) (ht : a.flt.typ = .partial') (v : α) :
    ∀ l : List (Nat × Bool × α), (∀ c ∈ l, c ∈ visits a.data) →
    Arr.keptSparse a.flt v l = some (((l.map Prod.fst).filter
      (fun o => decide (Dense.elem a.data o ≠ some v))).map
      (fun o => (rowI a.flt o, if pres a.data o then some o else none))) := by
  intro l
  induction l with
  | nil => intro _; rfl
  | cons c cs ih =>
    intro h
    obtain ⟨o, b, x⟩ := c
    have hc := h (o, b, x) (by simp)
    obtain ⟨c1, c2, c3⟩ := mem_visits.1 hc
    have hce := visits_elem hc
    dsimp only at c1 c2 c3 hce
    rw [Arr.keptSparse, ih (fun d hd => h d (by simp [hd])), List.map_cons, List.filter_cons]
    dsimp only
    subst c2
    rw [hce]
    by_cases hcond : pres a.data o = true ∧ x = v
    · rw [if_pos hcond, if_neg]
      obtain ⟨h1, rfl⟩ := hcond
      rw [h1]; simp
    · have hd : decide ((if pres a.data o = true then some x else none) ≠ some v) = true := by
        cases hb : pres a.data o with
        | true => rw [hb] at hcond; simp at hcond; simp [hcond]
        | false => simp
      rw [if_neg hcond, hd, idsOffsetToId_eq, rowI_partial ht hv c1]
      rfl

theorem toSparseMissed_spec (mem : Nat → α) (bmem : Nat → Word) {pe : List Int → List Int → Bool}
    (hpe : PtrEq pe) (hv : a.Valid) (v : α) (hmiss : a.flt.typ ≠ .full → a.miss = some v) :
    ∃ r, a.toSparseMissed mem bmem pe v = some r ∧ r.Valid ∧ r.size = a.size ∧
      ∀ i, i < a.size → r.elem i = a.elem i ∧ (r.flt.Has i ↔ a.elem i ≠ some v) := by
  unfold Arr.toSparseMissed
  have hmem : ∀ o, o ∈ (List.range a.data.values.length).filter
      (fun o => decide (Dense.elem a.data o ≠ some v)) ↔
      o < a.data.values.length ∧ Dense.elem a.data o ≠ some v := by
    intro o; simp
  have hsort := sorted_filter_range a.data.values.length (fun o => decide (Dense.elem a.data o ≠ some v))
  by_cases h1 : a.flt.typ = .full ∧ a.data.bitmap ≠ []
  · rw [if_pos h1, forEach_visits hv.1]
    simp only [Option.bind_eq_bind, Option.bind_some]
    have hf := valid_full hv h1.1
    rw [filterMap_visits (p := fun o => decide (Dense.elem a.data o ≠ some v))
      (h := fun o => (o : Int)) (by
      intro c hc
      rw [visits_elem hc]
      obtain ⟨o, b, x⟩ := c
      dsimp only
      cases b with
      | false => simp
      | true =>
        by_cases hx : x = v
        · simp [hx]
        · simp [hx])]
    generalize hos : (List.range a.data.values.length).filter
      (fun o => decide (Dense.elem a.data o ≠ some v)) = os at hmem hsort
    obtain ⟨f1, f2, _⟩ := mkFilter_spec (n := a.size) (off := 0) (ids := os.map (fun (o : Nat) => (o : Int)))
      (by unfold Inc; rw [List.pairwise_map]; exact hsort.imp (by intro x y h; omega)) (by
        intro x hx
        obtain ⟨o, ho, rfl⟩ := List.mem_map.1 hx
        have := ((hmem o).1 ho).1
        omega)
    obtain ⟨r, r1, r2, r3, r4, _, r6⟩ := withIds_spec mem bmem hpe hv f1 (some v)
    refine ⟨r, r1, r2, r3, ?_⟩
    intro i hi
    have hh : (mkFilter a.size (os.map (fun (o : Nat) => (o : Int))) 0).Has i ↔ a.elem i ≠ some v := by
      rw [f2 i hi, Int.add_zero, List.mem_map]
      have he : a.elem i = Dense.elem a.data i := by unfold Arr.elem; rw [h1.1]
      rw [he]
      constructor
      · rintro ⟨o, ho, hoi⟩
        have : o = i := by omega
        subst this
        exact ((hmem o).1 ho).2
      · intro hne
        exact ⟨i, (hmem i).2 ⟨by omega, hne⟩, rfl⟩
    rw [r4 (by omega)]
    refine ⟨?_, hh⟩
    by_cases hhas : (mkFilter a.size (os.map (fun (o : Nat) => (o : Int))) 0).Has i
    · exact (r6 i hi).1 hhas
    · rw [(r6 i hi).2 hhas]
      by_contra hc
      exact hhas (hh.2 (Ne.symm hc))
  · rw [if_neg h1]
    by_cases hb : a.data.bitmap = []
    · rw [if_pos hb]
      have helem : ∀ o, Dense.elem a.data o = a.data.values[o]? := by
        intro o; simp [Dense.elem, hb]
      have heq : (List.range a.data.size).filter (fun o => decide (a.data.values[o]? ≠ some v)) =
          (List.range a.data.values.length).filter (fun o => decide (Dense.elem a.data o ≠ some v)) := by
        apply List.filter_congr
        intro o _
        rw [helem]
      dsimp only
      rw [heq]
      refine sparse_full_data mem hv (some v) hsort (fun o ho => ((hmem o).1 ho).1) ?_ ?_ hmiss
      · intro o _; simp [pres, hb]
      · intro o ho; rw [hmem]; exact ⟨fun h => h.2, fun h => ⟨ho, h⟩⟩
    · rw [if_neg hb, forEach_visits hv.1]
      simp only [Option.bind_eq_bind, Option.bind_some]
      have hkept : Arr.keptSparse a.flt v (visits a.data) =
          some (((List.range a.data.values.length).filter
            (fun o => decide (Dense.elem a.data o ≠ some v))).map
            (fun o => (rowI a.flt o, if pres a.data o then some o else none))) := by
        cases ht : a.flt.typ with
        | empty =>
          have he := valid_empty hv ht
          simp [visits, he, Arr.keptSparse]
        | partial' => rw [keptSparse_spec hv ht v _ (fun c hc => hc), visits_fst]
        | full => exact absurd ⟨ht, hb⟩ h1
      rw [hkept]
      simp only [Option.bind_some]
      generalize hos : (List.range a.data.values.length).filter
        (fun o => decide (Dense.elem a.data o ≠ some v)) = os at hmem hsort
      have hle : os.length ≤ a.data.values.length := by
        rw [← hos]
        exact Nat.le_trans (List.length_filter_le _ _) (by simp)
      have hsnd : (os.map (fun o => (rowI a.flt o, if pres a.data o then some o else none))).map Prod.snd =
          os.map (fun o => if pres a.data o then some o else none) := by
        rw [List.map_map]; rfl
      have hfst : (os.map (fun o => (rowI a.flt o, if pres a.data o then some o else none))).map Prod.fst =
          os.map (rowI a.flt) := by
        rw [List.map_map]; rfl
      rw [hsnd, hfst]
      obtain ⟨vals, v1, v2, _, v4⟩ := copyKept_spec (src := a.data.values)
        (os.map (fun o => if pres a.data o then some o else none)) 0
        ((List.range a.data.size).map mem) (by
          intro o ho
          obtain ⟨p, hp, hpo⟩ := List.mem_map.1 ho
          split at hpo
          · simp at hpo; subst hpo; exact ((hmem p).1 hp).1
          · simp at hpo) (by simp [DArr.size]; omega)
      rw [v1]
      simp only [Option.bind_some]
      have hlen : vals.length = a.data.values.length := by simpa [DArr.size] using v2
      have hmm : ∀ k, k ∈ Arr.missedAt (os.map (fun o => if pres a.data o then some o else none)) 0 ↔
          ∃ o, os[k]? = some o ∧ pres a.data o = false := by
        intro k
        rw [mem_missedAt]
        constructor
        · rintro ⟨j, h2, h3⟩
          rw [List.getElem?_map] at h3
          cases hj : os[j]? with
          | none => rw [hj] at h3; simp at h3
          | some o =>
            rw [hj] at h3
            refine ⟨o, by rw [h2, Nat.zero_add, hj], ?_⟩
            cases hp : pres a.data o with
            | false => rfl
            | true => simp [hp] at h3
        · rintro ⟨o, h2, h3⟩
          exact ⟨k, by omega, by rw [List.getElem?_map, h2]; simp [h3]⟩
      obtain ⟨bb, bm, b1, b2, b3, b4⟩ := almost_full_builder_prefix a.data.size os.length
        (Arr.missedAt (os.map (fun o => if pres a.data o then some o else none)) 0) (by
          intro k hk
          obtain ⟨o, ho, _⟩ := (hmm k).1 hk
          have := (List.getElem?_eq_some_iff.1 ho).1
          unfold DArr.size; omega) hle
      rw [b1]
      simp only [Option.bind_some, List.length_map]
      rw [b2]
      simp only [Option.bind_some]
      obtain ⟨r1, r2⟩ := sparse_result hv (some v) hsort (fun o ho => ((hmem o).1 ho).1)
        (d := ⟨vals.take os.length, bm, 0⟩) (by
          refine ⟨by simp, ?_⟩
          by_cases hm0 : Arr.missedAt (os.map (fun o => if pres a.data o then some o else none)) 0 = []
          · exact Or.inl (b3 hm0)
          · right
            simp only [DArr.size]
            rw [(b4 hm0).1, Nat.add_zero, List.length_take, hlen, Nat.min_eq_left hle])
        (by simp; omega) (by
          intro j o hj
          have hjl := (List.getElem?_eq_some_iff.1 hj).1
          have hpr : pres (⟨vals.take os.length, bm, 0⟩ : DArr α) j = pres a.data o := by
            unfold pres
            dsimp only
            rw [Nat.zero_add]
            by_cases hm0 : Arr.missedAt (os.map (fun o => if pres a.data o then some o else none)) 0 = []
            · rw [b3 hm0]
              have : pres a.data o = true := by
                cases hp : pres a.data o with
                | true => rfl
                | false =>
                  have := (hmm j).2 ⟨o, hj, hp⟩
                  rw [hm0] at this; simp at this
              unfold pres at this
              rw [this]; simp
            · have hne : bm ≠ [] := by
                intro hz
                have := (b4 hm0).1
                have hsz := bitmapSize_eq os.length
                rw [hz] at this
                simp at this
                omega
              rw [decide_eq_false hne, Bool.false_or]
              have hbit := (b4 hm0).2 j hjl
              rw [hmm] at hbit
              cases hp : pres a.data o with
              | true =>
                have : bitAt bm j = true := by
                  rw [hbit]
                  rintro ⟨p, hp1, hp2⟩
                  rw [hj] at hp1
                  simp at hp1
                  subst hp1
                  rw [hp] at hp2; simp at hp2
                rw [this]
                unfold pres at hp
                rw [hp]
              | false =>
                have : bitAt bm j = false := by
                  cases hbj : bitAt bm j with
                  | false => rfl
                  | true => exact absurd ⟨o, hj, hp⟩ (hbit.1 hbj)
                rw [this]
                unfold pres at hp
                rw [hp]
          rw [Dense.elem_eq, Dense.elem_eq, hpr]
          dsimp only
          cases hp : pres a.data o with
          | false => simp
          | true =>
            have := v4 j o (by rw [List.getElem?_map, hj]; simp [hp])
            rw [Nat.zero_add] at this
            rw [if_pos rfl, if_pos rfl, ← this, List.getElem?_take, if_pos hjl])
        (by intro o ho; rw [hmem]; exact ⟨fun h => h.2, fun h => ⟨ho, h⟩⟩) hmiss
      exact ⟨_, rfl, r1, rfl, r2⟩

/-! ## ToSparseFormWithChangedMissedIdValue -/

theorem mem_gap {x y z : Int} : z ∈ Arr.gap x y ↔ x ≤ z ∧ z < y := by
  unfold Arr.gap
  rw [List.mem_map]
  constructor
  · rintro ⟨i, hi, rfl⟩
    have := List.mem_range.1 hi
    omega
  · rintro ⟨h1, h2⟩
    exact ⟨(z - x).toNat, List.mem_range.2 (by omega), by omega⟩

theorem inc_gap (x y : Int) : Inc (Arr.gap x y) := by
  unfold Inc Arr.gap
  rw [List.pairwise_map]
  exact List.pairwise_lt_range.imp (by intro a b h; omega)

theorem changedLoop_spec (f : Filter) (m : Option α) (key : Nat × Bool × α → Int) :
    ∀ (l : List (Nat × Bool × α)) (next : Int), (∀ c ∈ l, f.idsOffsetToId c.1 = some (key c)) →
    l.Pairwise (fun c d => key c < key d) → (∀ c ∈ l, next ≤ key c) →
    ∃ out last, Arr.changedLoop f m l next = some (out, last) ∧ next ≤ last ∧ Inc out ∧
      (∀ c ∈ l, key c < last) ∧ (last = next ∨ ∃ c ∈ l, last = key c + 1) ∧
      ∀ x, x ∈ out ↔ next ≤ x ∧ x < last ∧
        ∀ c ∈ l, key c = x → (if c.2.1 then some c.2.2 else none) ≠ m := by
  intro l
  induction l with
  | nil =>
    intro next _ _ _
    refine ⟨[], next, rfl, Int.le_refl _, by simp, by simp, Or.inl rfl, ?_⟩
    intro x; simp
  | cons c cs ih =>
    intro next h1 h2 h3
    rw [List.pairwise_cons] at h2
    obtain ⟨o, b, v⟩ := c
    have hk : f.idsOffsetToId o = some (key (o, b, v)) := h1 (o, b, v) (by simp)
    have hnext := h3 (o, b, v) (by simp)
    rw [Arr.changedLoop, hk]
    simp only [Option.bind_eq_bind, Option.bind_some]
    obtain ⟨out, last, e1, e2, e3, e4, e5, e6⟩ := ih (key (o, b, v) + 1) (fun d hd => h1 d (by simp [hd])) h2.2
      (fun d hd => by have := h2.1 d hd; omega)
    rw [e1]
    simp only [Option.bind_some]
    have hcond : (b = true ↔ ¬ m.isSome = true) ∨ (b = true ∧ m ≠ some v) ↔
        (if b then some v else none) ≠ m := by
      cases b <;> cases m <;> simp [eq_comm]
    have hcond' : (b ≠ m.isSome ∨ (b = true ∧ m ≠ some v)) ↔ (if b then some v else none) ≠ m := by
      cases b <;> cases m <;> simp [eq_comm]
    refine ⟨_, _, rfl, by omega, ?_, ?_, ?_, ?_⟩
    · unfold Inc
      rw [List.pairwise_append, List.pairwise_append]
      refine ⟨⟨inc_gap _ _, by split <;> simp, ?_⟩, e3, ?_⟩
      · intro x hx y hy
        have := mem_gap.1 hx
        split at hy
        · simp at hy; omega
        · simp at hy
      · intro x hx y hy
        have hy' := ((e6 y).1 hy).1
        rcases List.mem_append.1 hx with hx | hx
        · have := mem_gap.1 hx; omega
        · split at hx
          · simp at hx; omega
          · simp at hx
    · intro d hd
      rcases List.mem_cons.1 hd with rfl | hd
      · omega
      · exact e4 d hd
    · rcases e5 with e5 | ⟨d, hd, e5⟩
      · exact Or.inr ⟨(o, b, v), by simp, e5⟩
      · exact Or.inr ⟨d, by simp [hd], e5⟩
    · intro x
      rw [List.mem_append, List.mem_append, mem_gap, e6]
      constructor
      · rintro ((hx | hx) | hx)
        · refine ⟨hx.1, by omega, ?_⟩
          intro d hd hdx
          rcases List.mem_cons.1 hd with rfl | hd
          · omega
          · have := h2.1 d hd; omega
        · split at hx
          · rename_i hc
            simp at hx
            refine ⟨by omega, by omega, ?_⟩
            intro d hd hdx
            rcases List.mem_cons.1 hd with rfl | hd
            · exact hcond'.1 hc
            · have := h2.1 d hd; omega
          · simp at hx
        · refine ⟨by omega, hx.2.1, ?_⟩
          intro d hd hdx
          rcases List.mem_cons.1 hd with rfl | hd
          · omega
          · exact hx.2.2 d hd hdx
      · rintro ⟨hx1, hx2, hx3⟩
        rcases Int.lt_trichotomy x (key (o, b, v)) with hlt | heq | hgt
        · exact Or.inl (Or.inl ⟨hx1, hlt⟩)
        · refine Or.inl (Or.inr ?_)
          rw [if_pos (hcond'.2 (hx3 (o, b, v) (by simp) heq.symm))]
          simp [heq]
        · exact Or.inr ⟨by omega, hx2, fun d hd => hx3 d (by simp [hd])⟩

theorem toSparseChanged_spec (mem : Nat → α) (bmem : Nat → Word) {pe : List Int → List Int → Bool}
    (hpe : PtrEq pe) (hv : a.Valid) (m : Option α) (hnf : a.flt.typ ≠ .full) (hm : m ≠ a.miss) :
    ∃ r, a.toSparseChanged mem bmem pe m = some r ∧ r.Valid ∧ r.size = a.size ∧
      ∀ i, i < a.size → r.elem i = a.elem i ∧ (r.flt.Has i ↔ a.elem i ≠ m) := by
  unfold Arr.toSparseChanged
  rw [forEach_visits hv.1]
  simp only [Option.bind_eq_bind, Option.bind_some]
  have hlt : ∀ c ∈ visits a.data, c.1 < a.data.values.length := fun c hc => (mem_visits.1 hc).1
  obtain ⟨out, last, e1, e2, e3, e4, e5, e6⟩ := changedLoop_spec a.flt m (fun c => rowI a.flt c.1)
    (visits a.data) 0 (by
      intro c hc
      cases ht : a.flt.typ with
      | empty => have := hlt c hc; rw [valid_empty hv ht] at this; simp at this
      | partial' => rw [idsOffsetToId_eq, rowI_partial ht hv (hlt c hc)]
      | full => exact absurd ht hnf) (by
      have hr : ((visits a.data).map Prod.fst).Pairwise (· < ·) := by
        rw [visits_fst]; exact List.pairwise_lt_range
      rw [List.pairwise_map] at hr
      exact hr.imp_of_mem (fun {c d} _ hd hcd => rowI_lt hv hcd (hlt d hd)))
    (fun c hc => (rowI_bounds hv (hlt c hc)).1)
  rw [e1]
  simp only [Option.bind_some]
  have hlast : last ≤ a.size := by
    rcases e5 with e5 | ⟨c, hc, e5⟩
    · omega
    · have := (rowI_bounds hv (hlt c hc)).2; omega
  have hinc : Inc (out ++ Arr.gap last a.size) := by
    unfold Inc
    rw [List.pairwise_append]
    refine ⟨e3, inc_gap _ _, ?_⟩
    intro x hx y hy
    have := ((e6 x).1 hx).2.1
    have := (mem_gap.1 hy).1
    omega
  have hbd : ∀ x ∈ out ++ Arr.gap last a.size, (0 : Int) ≤ x ∧ x < 0 + (a.size : Int) := by
    intro x hx
    rcases List.mem_append.1 hx with hx | hx
    · have := (e6 x).1 hx; omega
    · have := mem_gap.1 hx; omega
  rw [if_pos (hinc.length_le hbd)]
  obtain ⟨f1, f2, _⟩ := mkFilter_spec hinc hbd
  obtain ⟨r, r1, r2, r3, r4, _, r6⟩ := withIds_spec mem bmem hpe hv f1 m
  refine ⟨r, r1, r2, r3, ?_⟩
  intro i hi
  have hh : (mkFilter a.size (out ++ Arr.gap last a.size) 0).Has i ↔ a.elem i ≠ m := by
    rw [f2 i hi, Int.add_zero, List.mem_append, e6, mem_gap]
    cases he : a.flt.idToOffset i with
    | none =>
      have hnh : ¬ a.flt.Has i := by rw [has_iff hv.2.1, he]; simp
      rw [elem_miss hv hnh]
      have hno : ∀ c ∈ visits a.data, rowI a.flt c.1 ≠ (i : Int) := by
        intro c hc hci
        have := (idToOffset_row hv hi).2 ⟨hlt c hc, hci⟩
        rw [he] at this; simp at this
      constructor
      · intro _; exact Ne.symm hm
      · intro _
        by_cases hil : (i : Int) < last
        · exact Or.inl ⟨by omega, hil, fun c hc hci => absurd hci (hno c hc)⟩
        · exact Or.inr ⟨by omega, by omega⟩
    | some o =>
      obtain ⟨ho, hr⟩ := (idToOffset_row hv hi).1 he
      rw [elem_some hv he]
      have hmemv : (o, pres a.data o, a.data.values[o]) ∈ visits a.data :=
        mem_visits.2 ⟨ho, rfl, List.getElem?_eq_getElem ho⟩
      have hol := e4 _ hmemv
      dsimp only at hol
      constructor
      · rintro (⟨_, _, h⟩ | h)
        · rw [visits_elem hmemv]
          exact h _ hmemv hr
        · omega
      · intro h
        refine Or.inl ⟨by omega, by omega, ?_⟩
        intro c hc hci
        have hco := rowI_inj hv (hlt c hc) ho (by rw [hci, hr])
        rw [← visits_elem hc, hco]
        exact h
  rw [r4 (by omega)]
  refine ⟨?_, hh⟩
  by_cases hhas : (mkFilter a.size (out ++ Arr.gap last a.size) 0).Has i
  · exact (r6 i hi).1 hhas
  · rw [(r6 i hi).2 hhas]
    by_contra hc
    exact hhas (hh.2 (Ne.symm hc))

theorem toSparseForm_spec (mem : Nat → α) (bmem : Nat → Word) {pe : List Int → List Int → Bool}
    (hpe : PtrEq pe) (hv : a.Valid) (m : Option α) :
    ∃ r, a.toSparseForm mem bmem pe m = some r ∧ r.Valid ∧ r.size = a.size ∧
      ∀ i, i < a.size → r.elem i = a.elem i ∧ (r.flt.Has i ↔ a.elem i ≠ m) := by
  unfold Arr.toSparseForm
  by_cases h : a.flt.typ ≠ .full ∧ m ≠ a.miss
  · rw [if_pos h]; exact toSparseChanged_spec mem bmem hpe hv m h.1 h.2
  · rw [if_neg h]
    have hmiss : a.flt.typ ≠ .full → a.miss = m := by
      intro hf
      by_contra hc
      exact h ⟨hf, Ne.symm hc⟩
    cases m with
    | none => exact toSparseNoMissed_spec mem hv hmiss
    | some v => exact toSparseMissed_spec mem bmem hpe hv v hmiss

end
end Verif.Arr
