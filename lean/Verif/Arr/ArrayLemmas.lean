import Verif.Arr.FilterLemmas
import Verif.Dense.DenseLemmas
import Verif.Dense.BitmapProps

/-! Helper lemmas for arrays: access, construction, `WithIds`. -/

namespace Verif.Arr
open Verif.Bits Verif.Bitmap Verif.Dense
variable {α : Type}

/-! ## Access -/

theorem has_iff {n : Nat} {f : Filter} (h : f.Valid n) (i : Nat) :
    f.Has i ↔ (f.idToOffset i).isSome = true := by
  cases ht : f.typ with
  | empty => simp [Filter.Has, Filter.idToOffset, ht]
  | full => simp [Filter.Has, Filter.idToOffset, ht]
  | partial' =>
    rw [idToOffset_partial h ht]
    unfold Filter.Has
    rw [ht]
    dsimp only
    cases he : f.zids.idxOf? (i : Int) with
    | none => simp [idxOf?_none.1 he]
    | some o => simp [List.mem_of_getElem? ((idxOf?_inc (h.inc ht)).1 he)]

theorem elem_eq_offset {a : Arr α} (hv : a.Valid) (i : Nat) :
    a.elem i = match a.flt.idToOffset i with
      | some o => Dense.elem a.data o
      | none => a.miss := by
  cases ht : a.flt.typ with
  | empty => simp [Arr.elem, Filter.idToOffset, ht]
  | full => simp [Arr.elem, Filter.idToOffset, ht]
  | partial' =>
    rw [idToOffset_partial hv.2.1 ht]
    unfold Arr.elem
    rw [ht]
    cases h : a.flt.zids.idxOf? (i : Int) <;> simp [h]

theorem elem_some {a : Arr α} (hv : a.Valid) {i o : Nat} (h : a.flt.idToOffset i = some o) :
    a.elem i = Dense.elem a.data o := by rw [elem_eq_offset hv, h]

theorem elem_miss {a : Arr α} (hv : a.Valid) {i : Nat} (h : ¬ a.flt.Has i) : a.elem i = a.miss := by
  rw [elem_eq_offset hv]
  rw [has_iff hv.2.1] at h
  cases he : a.flt.idToOffset i with
  | none => rfl
  | some o => rw [he] at h; simp at h

theorem valid_full {a : Arr α} (hv : a.Valid) (ht : a.flt.typ = .full) :
    a.data.values.length = a.size ∧ a.miss = none := by
  have := hv.2.2; rw [ht] at this; exact this

theorem valid_partial {a : Arr α} (hv : a.Valid) (ht : a.flt.typ = .partial') :
    a.data.values.length = a.flt.ids.length := by
  have := hv.2.2; rw [ht] at this; exact this

theorem valid_empty {a : Arr α} (hv : a.Valid) (ht : a.flt.typ = .empty) : a.data.values = [] := by
  have := hv.2.2; rw [ht] at this; exact this

theorem fvalid_partial {n : Nat} {f : Filter} (h : f.Valid n) (ht : f.typ = .partial') :
    f.ids ≠ [] ∧ f.ids.length < n ∧ Inc f.zids ∧ ∀ x ∈ f.zids, 0 ≤ x ∧ x < (n : Int) := by
  unfold Filter.Valid at h; rw [ht] at h; exact h

theorem idToOffset_iff {n : Nat} {f : Filter} (h : f.Valid n) (ht : f.typ = .partial') {i o : Nat} :
    f.idToOffset i = some o ↔ f.zids[o]? = some (i : Int) := by
  rw [idToOffset_partial h ht]; exact idxOf?_inc (h.inc ht)

theorem offset_lt {a : Arr α} (hv : a.Valid) {i o : Nat} (hi : i < a.size)
    (h : a.flt.idToOffset i = some o) : o < a.data.values.length := by
  cases ht : a.flt.typ with
  | empty => simp [Filter.idToOffset, ht] at h
  | full =>
    simp [Filter.idToOffset, ht] at h
    rw [(valid_full hv ht).1]; omega
  | partial' =>
    rw [idToOffset_iff hv.2.1 ht] at h
    rw [valid_partial hv ht, ← zids_length]
    exact (List.getElem?_eq_some_iff.1 h).1

theorem at_spec {a : Arr α} (hv : a.Valid) {i : Nat} (hi : i < a.size) : a.at? i = some (a.elem i) := by
  rw [elem_eq_offset hv]
  unfold Arr.at?
  cases he : a.flt.idToOffset i with
  | none => rfl
  | some o => exact at_eq hv.1 (offset_lt hv hi he)

theorem elem_ge {d : DArr α} {i : Nat} (h : d.values.length ≤ i) : Dense.elem d i = none := by
  unfold Dense.elem
  rw [List.getElem?_eq_none_iff.2 h]
  simp

/-! ## Construction -/

theorem emptyD_valid : (⟨[], [], 0⟩ : DArr α).Valid := ⟨by simp, Or.inl rfl⟩

theorem ofConst_valid (n : Nat) (v : Option α) : (Arr.ofConst n v).Valid :=
  ⟨emptyD_valid, ⟨rfl, rfl⟩, rfl⟩

theorem ofConst_elem (n : Nat) (v : Option α) (i : Nat) : (Arr.ofConst n v).elem i = v := rfl

theorem ofDense_valid {d : DArr α} (h : d.Valid) : (Arr.ofDense d).Valid :=
  ⟨h, ⟨rfl, rfl⟩, rfl, rfl⟩

theorem ofDense_elem (d : DArr α) (i : Nat) : (Arr.ofDense d).elem i = Dense.elem d i := rfl

/-- `Array(size, filter, data, miss)` for a given valid filter. -/
theorem make_valid {n : Nat} {f : Filter} {d : DArr α} (m : Option α) (hf : f.Valid n) (hd : d.Valid)
    (hl : d.values.length = if f.typ = .full then n else f.ids.length) :
    (Arr.make n f d m).Valid := by
  refine ⟨hd, hf, ?_⟩
  unfold Arr.make
  dsimp only
  cases ht : f.typ with
  | empty =>
    unfold Filter.Valid at hf
    rw [ht] at hf
    rw [ht, hf.1] at hl
    simpa using hl
  | partial' => simpa [ht] using hl
  | full => simpa [ht] using hl

/-- The array made of increasing ids and the data for them. -/
theorem make_spec {n : Nat} {ids : List Int} {off : Int} (hinc : Inc ids)
    (hb : ∀ x ∈ ids, off ≤ x ∧ x < off + n) {d : DArr α} (hd : d.Valid)
    (hl : d.values.length = ids.length) (m : Option α) :
    (Arr.make n (mkFilter n ids off) d m).Valid ∧
    (∀ i, i < n → ((Arr.make n (mkFilter n ids off) d m).flt.Has i ↔ (i : Int) + off ∈ ids)) ∧
    (∀ o i : Nat, ids[o]? = some ((i : Int) + off) →
      (Arr.make n (mkFilter n ids off) d m).elem i = Dense.elem d o) ∧
    (∀ i : Nat, i < n → (i : Int) + off ∉ ids →
      (Arr.make n (mkFilter n ids off) d m).elem i = m) := by
  obtain ⟨f1, f2, f3⟩ := mkFilter_spec hinc hb
  have hlen : d.values.length =
      if (mkFilter n ids off).typ = .full then n else (mkFilter n ids off).ids.length := by
    unfold mkFilter
    split
    · simp [hl]
    · split
      · simp; omega
      · simp [hl]
  have hv := make_valid m f1 hd hlen
  refine ⟨hv, f2, ?_, ?_⟩
  · intro o i h
    exact elem_some hv (f3 o i h)
  · intro i hi h
    have hn : ¬ (Arr.make n (mkFilter n ids off) d m).flt.Has i := fun hh => h ((f2 i hi).1 hh)
    rw [elem_miss hv hn]
    unfold Arr.make
    dsimp only
    rw [if_neg]
    intro ht
    apply hn
    show Filter.Has _ i
    unfold Filter.Has Arr.make
    dsimp only
    rw [ht]; trivial

/-! ## Updates of a dense builder -/

theorem DBInv_congr {n : Nat} {f g : Nat → Option α} {b : DBuilder α} (h : DBInv n f b)
    (hfg : ∀ i, i < n → f i = g i) : DBInv n g b :=
  ⟨h.1, h.2.1, fun i hi => by rw [← hfg i hi]; exact h.2.2 i hi⟩

/-- Point update. -/
def upd (f : Nat → Option α) (k : Nat) (v : Option α) : Nat → Option α := fun i => if i = k then v else f i

theorem set_inv {n : Nat} {f : Nat → Option α} {b : DBuilder α} (h : DBInv n f b) {k : Nat} (hk : k < n)
    (x : α) : ∃ vs bs, wrV b.vals k x = some vs ∧ setBit b.bits k = some bs ∧
      DBInv n (upd f k (some x)) ⟨vs, bs⟩ := by
  obtain ⟨h1, h2, h3⟩ := h
  have hsz := bitmapSize_eq n
  obtain ⟨bs, e1, e2, e3⟩ := setBit_spec (ws := b.bits) (i := k) (by omega)
  refine ⟨b.vals.set k x, bs, ?_, e1, by simpa using h1, by dsimp only; omega, ?_⟩
  · unfold wrV; rw [if_pos (by omega)]
  · intro i hi
    dsimp only [upd]
    rw [e3, List.getElem?_set]
    by_cases hik : i = k
    · subst hik; simp [h1, hi]
    · rw [if_neg hik, h3 i hi, if_neg (Ne.symm hik), decide_eq_false hik, Bool.or_false]

theorem unset_inv {n : Nat} {f : Nat → Option α} {b : DBuilder α} (h : DBInv n f b) {k : Nat}
    (hk : k < n) : ∃ bs, unsetBit b.bits k = some bs ∧ DBInv n (upd f k none) ⟨b.vals, bs⟩ := by
  obtain ⟨h1, h2, h3⟩ := h
  have hsz := bitmapSize_eq n
  obtain ⟨bs, e1, e2, e3⟩ := unsetBit_spec (bm := b.bits) (i := k) (by omega)
  refine ⟨bs, e1, h1, by dsimp only; omega, ?_⟩
  intro i hi
  dsimp only [upd]
  rw [e3]
  by_cases hik : i = k
  · subst hik; simp
  · rw [if_neg hik, h3 i hi, decide_eq_true hik, Bool.and_true]

theorem setVal_inv {n : Nat} {f : Nat → Option α} {b : DBuilder α} (h : DBInv n f b) {k : Nat}
    (hk : k < n) (hs : (f k).isSome = true) (x : α) :
    ∃ vs, wrV b.vals k x = some vs ∧ DBInv n (upd f k (some x)) ⟨vs, b.bits⟩ := by
  obtain ⟨h1, h2, h3⟩ := h
  refine ⟨b.vals.set k x, ?_, by simpa using h1, h2, ?_⟩
  · unfold wrV; rw [if_pos (by omega)]
  · intro i hi
    dsimp only [upd]
    rw [List.getElem?_set]
    by_cases hik : i = k
    · subst hik
      rw [h3 i hi] at hs
      have hb : bitAt b.bits i = true := by
        by_contra hc
        rw [if_neg hc] at hs; simp at hs
      simp [h1, hi, hb]
    · rw [if_neg hik, h3 i hi, if_neg (Ne.symm hik)]

/-- A sequence of point updates with different keys. -/
theorem foldlM_inv {β : Type} {n : Nat} {step : DBuilder α → β → Option (DBuilder α)}
    {key : β → Nat} {val : β → Option α} {f0 : Nat → Option α} :
    ∀ (l : List β) (f : Nat → Option α) (s : DBuilder α), DBInv n f s →
    l.Pairwise (fun c d => key c ≠ key d) → (∀ c ∈ l, f (key c) = f0 (key c)) →
    (∀ c ∈ l, ∀ f s, DBInv n f s → f (key c) = f0 (key c) →
      ∃ s', step s c = some s' ∧ DBInv n (upd f (key c) (val c)) s') →
    ∀ t : Nat → Option α, (∀ c ∈ l, t (key c) = val c) →
    (∀ i, i < n → (∀ c ∈ l, key c ≠ i) → t i = f i) →
    ∃ s', l.foldlM step s = some s' ∧ DBInv n t s' := by
  intro l
  induction l with
  | nil =>
    intro f s hs _ _ _ t _ ht
    exact ⟨s, rfl, DBInv_congr hs (fun i hi => (ht i hi (by simp)).symm)⟩
  | cons c cs ih =>
    intro f s hs hp hf hstep t ht1 ht2
    rw [List.pairwise_cons] at hp
    obtain ⟨s1, e1, e2⟩ := hstep c (by simp) f s hs (hf c (by simp))
    rw [List.foldlM_cons, e1]
    simp only [Option.bind_eq_bind, Option.bind_some]
    refine ih _ s1 e2 hp.2 ?_ (fun d hd => hstep d (by simp [hd])) t (fun d hd => ht1 d (by simp [hd])) ?_
    · intro d hd
      unfold upd
      rw [if_neg (Ne.symm (hp.1 d hd))]
      exact hf d (by simp [hd])
    · intro i hi hn
      unfold upd
      by_cases hc : i = key c
      · rw [if_pos hc, hc]; exact ht1 c (by simp)
      · rw [if_neg hc]
        refine ht2 i hi ?_
        intro d hd
        rcases List.mem_cons.1 hd with rfl | hd
        · exact Ne.symm hc
        · exact hn d hd

/-! ## visits -/

theorem mem_visits {d : DArr α} {c : Nat × Bool × α} :
    c ∈ visits d ↔ c.1 < d.values.length ∧ c.2.1 = pres d c.1 ∧ d.values[c.1]? = some c.2.2 := by
  obtain ⟨i, b, v⟩ := c
  unfold visits
  rw [List.mem_iff_getElem?]
  constructor
  · rintro ⟨k, hk⟩
    rw [List.getElem?_zipWith] at hk
    by_cases hl : k < d.values.length
    · simp [hl] at hk
      obtain ⟨rfl, rfl, rfl⟩ := hk
      exact ⟨hl, rfl, by simp [hl]⟩
    · simp [hl] at hk
  · rintro ⟨h1, h2, h3⟩
    dsimp only at h1 h2 h3
    refine ⟨i, ?_⟩
    rw [List.getElem?_zipWith, h3]
    simp [h1, h2]

theorem visits_fst (d : DArr α) : (visits d).map Prod.fst = List.range d.values.length := by
  apply List.ext_getElem?
  intro i
  unfold visits
  by_cases h : i < d.values.length
  · simp [h]
  · simp [h]

theorem visits_elem {d : DArr α} {c : Nat × Bool × α} (h : c ∈ visits d) :
    Dense.elem d c.1 = if c.2.1 then some c.2.2 else none := by
  obtain ⟨h1, h2, h3⟩ := mem_visits.1 h
  rw [elem_eq, h2, h3]

/-! ## WithIds -/

/-- Row of a stored offset. -/
def rowOf (f : Filter) (o : Nat) : Option Nat :=
  if f.typ = .partial' then (f.zids[o]?).map Int.toNat else some o

theorem rowOf_partial {n : Nat} {f : Filter} (h : f.Valid n) (ht : f.typ = .partial') {o i : Nat} :
    rowOf f o = some i ↔ f.zids[o]? = some (i : Int) := by
  unfold rowOf
  rw [if_pos ht]
  cases he : f.zids[o]? with
  | none => simp
  | some x =>
    have := ((fvalid_partial h ht).2.2.2 x (List.mem_of_getElem? he)).1
    simp
    omega

theorem init_inv (mem : Nat → α) (n : Nat) (m : Option α) :
    DBInv n (fun _ => m) (Arr.initSparse mem n m) := by
  unfold Arr.initSparse
  cases m with
  | none =>
    have := new_inv ((List.range n).map mem)
    simpa [DBuilder.new] using this
  | some v =>
    have hsz := bitmapSize_eq n
    refine ⟨by simp, by simp, ?_⟩
    intro i hi
    dsimp only
    have hb : bitAt (List.replicate (bitmapSize n) fullWord) i = true := by
      unfold bitAt wd
      rw [List.getElem?_replicate, if_pos (by omega)]
      have : ∀ j, j < 32 → fullWord.getLsbD j = true := by decide
      exact this _ (by omega)
    rw [hb]
    simp [hi]

theorem copyValue_eq {dst src : List α} {new old : Nat} {x : α} (h : src[old]? = some x) :
    Arr.copyValue dst src new old = wrV dst new x := by
  unfold Arr.copyValue; rw [h]; rfl

section
variable {a : Arr α}

theorem fillSparse_spec (mem : Nat → α) (hv : a.Valid) (ht : a.flt.typ = .partial') {ids : Filter}
    (hids : ids.Valid a.size) (hne : ids.typ ≠ .empty) (t : Nat → Option α)
    (htt : ∀ o i, i < a.size → rowOf ids o = some i → t o = a.elem i) :
    ∃ b, Arr.fillSparse mem a ids (if ids.typ = .partial' then ids.ids.length else a.size) = some b ∧
      DBInv (if ids.typ = .partial' then ids.ids.length else a.size) t b := by
  have hfa := fvalid_partial hv.2.1 ht
  unfold Arr.fillSparse
  by_cases hp : ids.typ = .partial'
  · rw [if_pos hp, if_pos hp]
    have hfi := fvalid_partial hids hp
    obtain ⟨out, o1, o2, o3⟩ := forEachCommonId_spec (l1 := a.flt.ids) (off1 := a.flt.off)
      (l2 := ids.ids) (off2 := ids.off) hfa.2.2.1 hfi.2.2.1 hfa.1 hfi.1
    rw [o1]
    simp only [Option.bind_eq_bind, Option.bind_some]
    have hrow : ∀ o x, ids.zids[o]? = some x → t o = a.elem x.toNat := by
      intro o x hx
      have hb := hfi.2.2.2 x (List.mem_of_getElem? hx)
      refine htt o x.toNat (by omega) ((rowOf_partial hids hp).2 ?_)
      rw [hx]; congr 1; omega
    refine foldlM_inv (f0 := fun _ => a.miss) (key := fun c => c.2.2)
      (val := fun c => Dense.elem a.data c.2.1) out (fun _ => a.miss) _ (init_inv mem _ _) ?_
      (fun _ _ => rfl) ?_ t ?_ ?_
    · refine o3.imp_of_mem ?_
      rintro ⟨i1, p1, q1⟩ ⟨i2, p2, q2⟩ h1 h2 h12
      have e1 := (o2 _ _ _).1 h1
      have e2 := (o2 _ _ _).1 h2
      intro heq
      dsimp only at heq
      subst heq
      rw [e1.2] at e2
      have := e2.2
      simp at this
      dsimp only at h12
      omega
    · rintro ⟨id, p, q⟩ hc f s hs _
      obtain ⟨e1, e2⟩ := (o2 _ _ _).1 hc
      have hp1 : p < a.data.values.length := by
        rw [valid_partial hv ht]
        simpa using (List.getElem?_eq_some_iff.1 e1).1
      have hq1 : q < ids.ids.length := by simpa using (List.getElem?_eq_some_iff.1 e2).1
      unfold Arr.stepCommon
      dsimp only
      rw [present_eq hv.1 hp1]
      simp only [Option.bind_eq_bind, Option.bind_some]
      rw [Dense.elem_eq]
      cases pres a.data p with
      | true =>
        rw [if_pos rfl, if_pos rfl, List.getElem?_eq_getElem hp1,
          copyValue_eq (List.getElem?_eq_getElem hp1)]
        obtain ⟨vs, bs, g1, g2, g3⟩ := set_inv hs hq1 (a.data.values[p])
        rw [g1, g2]
        exact ⟨_, rfl, g3⟩
      | false =>
        rw [if_neg (by simp), if_neg (by simp)]
        obtain ⟨bs, g1, g2⟩ := unset_inv hs hq1
        rw [g1]
        exact ⟨_, rfl, g2⟩
    · rintro ⟨id, p, q⟩ hc
      obtain ⟨e1, e2⟩ := (o2 _ _ _).1 hc
      dsimp only
      rw [hrow q id e2]
      refine elem_some hv ((idToOffset_iff hv.2.1 ht).2 ?_)
      have := (hfa.2.2.2 id (List.mem_of_getElem? e1)).1
      rw [Int.toNat_of_nonneg this]
      exact e1
    · intro o ho hn
      obtain ⟨x, hx⟩ : ∃ x, ids.zids[o]? = some x :=
        ⟨_, List.getElem?_eq_getElem (by rw [zids_length]; exact ho)⟩
      rw [hrow o x hx]
      have hx0 := (hfi.2.2.2 x (List.mem_of_getElem? hx)).1
      refine elem_miss hv ?_
      intro hh
      unfold Filter.Has at hh
      rw [ht] at hh
      dsimp only at hh
      rw [Int.toNat_of_nonneg hx0, List.mem_iff_getElem?] at hh
      obtain ⟨p, hp'⟩ := hh
      exact hn (x, p, o) ((o2 _ _ _).2 ⟨hp', hx⟩) rfl
  · rw [if_neg hp, if_neg hp]
    have hfull : ids.typ = .full := by
      cases h : ids.typ <;> simp_all
    have hrow : ∀ i, i < a.size → t i = a.elem i := by
      intro i hi
      exact htt i i hi (by unfold rowOf; rw [if_neg hp])
    rw [forEach_visits hv.1]
    have hz : ∀ c ∈ visits a.data, ∃ x : Int, a.flt.zids[c.1]? = some x ∧ 0 ≤ x ∧ x < a.size := by
      intro c hc
      obtain ⟨h1, _, _⟩ := mem_visits.1 hc
      rw [valid_partial hv ht] at h1
      obtain ⟨x, hx⟩ : ∃ x, a.flt.zids[c.1]? = some x :=
        ⟨_, List.getElem?_eq_getElem (by rw [zids_length]; exact h1)⟩
      exact ⟨x, hx, hfa.2.2.2 x (List.mem_of_getElem? hx)⟩
    have hnew : ∀ c ∈ visits a.data, ∀ x : Int, a.flt.zids[c.1]? = some x → 0 ≤ x →
        (do Arr.toIdx (← a.flt.idsOffsetToId c.1)) = some x.toNat := by
      intro c hc x hx h0
      rw [idsOffsetToId_eq, hx]
      simp only [Option.bind_eq_bind, Option.bind_some]
      unfold Arr.toIdx
      rw [if_neg (by omega)]
    have hpw : (visits a.data).Pairwise (fun c d =>
        ((a.flt.zids[c.1]?).getD 0).toNat ≠ ((a.flt.zids[d.1]?).getD 0).toNat) := by
      have hr : ((visits a.data).map Prod.fst).Pairwise (· < ·) := by
        rw [visits_fst]; exact List.pairwise_lt_range
      rw [List.pairwise_map] at hr
      refine hr.imp_of_mem ?_
      intro c d hc hd hcd
      obtain ⟨x, x1, x2, _⟩ := hz c hc
      obtain ⟨y, y1, y2, _⟩ := hz d hd
      have := hfa.2.2.1.lt hcd x1 y1
      rw [x1, y1]
      simp only [Option.getD_some]
      omega
    have hval : ∀ c ∈ visits a.data, t ((a.flt.zids[c.1]?).getD 0).toNat = Dense.elem a.data c.1 := by
      intro c hc
      obtain ⟨x, x1, x2, x3⟩ := hz c hc
      rw [x1]
      simp only [Option.getD_some]
      rw [hrow _ (by omega)]
      refine elem_some hv ((idToOffset_iff hv.2.1 ht).2 ?_)
      rw [Int.toNat_of_nonneg x2]; exact x1
    have hother : ∀ i, i < a.size →
        (∀ c ∈ visits a.data, ((a.flt.zids[c.1]?).getD 0).toNat ≠ i) → t i = a.miss := by
      intro i hi hn
      rw [hrow i hi]
      refine elem_miss hv ?_
      intro hh
      unfold Filter.Has at hh
      rw [ht] at hh
      dsimp only at hh
      rw [List.mem_iff_getElem?] at hh
      obtain ⟨o, ho⟩ := hh
      have hol : o < a.data.values.length := by
        rw [valid_partial hv ht, ← zids_length]
        exact (List.getElem?_eq_some_iff.1 ho).1
      refine hn (o, pres a.data o, a.data.values[o]) (mem_visits.2 ⟨hol, rfl, List.getElem?_eq_getElem hol⟩) ?_
      dsimp only
      rw [ho]; simp
    simp only [Option.bind_eq_bind, Option.bind_some]
    by_cases hm : a.miss.isSome = true
    · rw [if_pos hm]
      refine foldlM_inv (f0 := fun _ => a.miss) (key := fun c => ((a.flt.zids[c.1]?).getD 0).toNat)
        (val := fun c => Dense.elem a.data c.1) (visits a.data) (fun _ => a.miss) _ (init_inv mem _ _)
        hpw (fun _ _ => rfl) ?_ t hval hother
      intro c hc f s hs hf0
      obtain ⟨x, x1, x2, x3⟩ := hz c hc
      obtain ⟨c1, c2, c3⟩ := mem_visits.1 hc
      try dsimp only at hf0
      rw [x1] at hf0 ⊢
      simp only [Option.getD_some] at hf0 ⊢
      unfold Arr.stepMiss
      have hn := hnew c hc x x1 x2
      rw [idsOffsetToId_eq, x1] at hn ⊢
      simp only [Option.bind_eq_bind, Option.bind_some] at hn ⊢
      rw [hn]
      simp only [Option.bind_some]
      rw [visits_elem hc]
      cases c.2.1 with
      | true =>
        rw [if_pos rfl, if_pos rfl, copyValue_eq c3]
        obtain ⟨vs, g1, g2⟩ := setVal_inv hs (k := x.toNat) (by omega) (by rw [hf0]; exact hm) c.2.2
        rw [g1]
        exact ⟨_, rfl, g2⟩
      | false =>
        rw [if_neg (by simp), if_neg (by simp)]
        obtain ⟨bs, g1, g2⟩ := unset_inv hs (k := x.toNat) (by omega)
        rw [g1]
        exact ⟨_, rfl, g2⟩
    · rw [if_neg hm]
      have hmn : a.miss = none := by
        cases h : a.miss with
        | none => rfl
        | some v => rw [h] at hm; simp at hm
      refine foldlM_inv (f0 := fun _ => a.miss) (key := fun c => ((a.flt.zids[c.1]?).getD 0).toNat)
        (val := fun c => Dense.elem a.data c.1) (visits a.data) (fun _ => a.miss) _ (init_inv mem _ _)
        hpw (fun _ _ => rfl) ?_ t hval hother
      intro c hc f s hs hf0
      obtain ⟨x, x1, x2, x3⟩ := hz c hc
      obtain ⟨c1, c2, c3⟩ := mem_visits.1 hc
      try dsimp only at hf0
      rw [x1] at hf0 ⊢
      simp only [Option.getD_some] at hf0 ⊢
      unfold Arr.stepNoMiss
      have hn := hnew c hc x x1 x2
      rw [idsOffsetToId_eq, x1] at hn ⊢
      simp only [Option.bind_eq_bind, Option.bind_some] at hn ⊢
      rw [hn]
      simp only [Option.bind_some]
      rw [visits_elem hc]
      cases c.2.1 with
      | true =>
        rw [if_pos rfl, if_pos rfl, copyValue_eq c3]
        obtain ⟨vs, bs, g1, g2, g3⟩ := set_inv hs (k := x.toNat) (by omega) c.2.2
        rw [g1, g2]
        exact ⟨_, rfl, g3⟩
      | false =>
        rw [if_neg (by simp), if_neg (by simp)]
        refine ⟨s, rfl, DBInv_congr hs ?_⟩
        intro i hi
        unfold upd
        by_cases hix : i = x.toNat
        · rw [if_pos hix, hix, hf0, hmn]
        · rw [if_neg hix]

/-- What `WithIds` needs from the new dense data. -/
def DataFor (a : Arr α) (ids : Filter) (d : DArr α) : Prop :=
  d.Valid ∧ d.values.length = (if ids.typ = .partial' then ids.ids.length else a.size) ∧
  ∀ o i, i < a.size → o < d.values.length → rowOf ids o = some i → Dense.elem d o = a.elem i

theorem dense_of_inv {n : Nat} {t : Nat → Option α} {b : DBuilder α} (h : DBInv n t b) :
    ∃ d, (do if ← areAllBitsSet b.bits n then some (⟨b.vals, [], 0⟩ : DArr α)
             else some ⟨b.vals, b.bits, 0⟩) = some d ∧
      d.Valid ∧ d.values.length = n ∧ ∀ o, o < n → Dense.elem d o = t o := by
  have hsz := bitmapSize_eq n
  obtain ⟨r, e1, e2⟩ := are_all_bits_set b.bits n (by rw [h.2.1]; omega)
  rw [e1]
  simp only [Option.bind_eq_bind, Option.bind_some]
  cases r with
  | true =>
    rw [if_pos rfl]
    refine ⟨_, rfl, ⟨by simp, Or.inl rfl⟩, h.1, ?_⟩
    intro o ho
    rw [h.2.2 o ho, e2.1 rfl o ho]
    simp [Dense.elem]
  | false =>
    rw [if_neg (by simp)]
    obtain ⟨g1, g2⟩ := elems_of_inv h
    refine ⟨_, rfl, g1, h.1, ?_⟩
    intro o ho
    have := congrArg (·[o]?) g2
    simp only [elems_get?] at this
    rw [if_pos (by show o < b.vals.length; rw [h.1]; exact ho), List.getElem?_map,
      List.getElem?_range ho] at this
    simpa [DBuilder.build] using this

theorem withIdsFromSparse_spec (mem : Nat → α) (hv : a.Valid) (ht : a.flt.typ = .partial') {ids : Filter}
    (hids : ids.Valid a.size) (hne : ids.typ ≠ .empty) :
    ∃ d, Arr.withIdsFromSparse mem a ids = some d ∧ DataFor a ids d := by
  obtain ⟨b, b1, b2⟩ := fillSparse_spec mem hv ht hids hne
    (fun o => match rowOf ids o with | some i => a.elem i | none => none)
    (fun o i _ h => by rw [h])
  unfold Arr.withIdsFromSparse
  dsimp only
  rw [b1]
  simp only [Option.bind_eq_bind, Option.bind_some]
  obtain ⟨d, d1, d2, d3, d4⟩ := dense_of_inv b2
  refine ⟨d, d1, d2, d3, ?_⟩
  intro o i hi ho hr
  rw [d4 o (by rw [← d3]; exact ho), hr]

theorem copyIds_spec {src : List α} {off : Int} : ∀ (ids : List Int) (index : Nat) (dst : List α),
    (∀ x ∈ ids, 0 ≤ x - off ∧ (x - off).toNat < src.length) → index + ids.length ≤ dst.length →
    ∃ r, Arr.copyIds src off ids index dst = some r ∧ r.length = dst.length ∧
      (∀ k, k < index → r[k]? = dst[k]?) ∧
      ∀ j x, ids[j]? = some x → r[index + j]? = src[(x - off).toNat]? := by
  intro ids
  induction ids with
  | nil =>
    intro index dst _ _
    exact ⟨dst, rfl, rfl, fun _ _ => rfl, by simp⟩
  | cons x xs ih =>
    intro index dst h hl
    obtain ⟨h0, h1⟩ := h x (by simp)
    rw [List.length_cons] at hl
    rw [Arr.copyIds]
    unfold Arr.toIdx
    rw [if_neg (by omega)]
    simp only [Option.bind_eq_bind, Option.bind_some]
    rw [copyValue_eq (List.getElem?_eq_getElem h1)]
    unfold wrV
    rw [if_pos (by omega)]
    simp only [Option.bind_some]
    obtain ⟨r, r1, r2, r3, r4⟩ := ih (index + 1) (dst.set index src[(x - off).toNat])
      (fun y hy => h y (by simp [hy])) (by simp; omega)
    refine ⟨r, r1, by simpa using r2, ?_, ?_⟩
    · intro k hk
      rw [r3 k (by omega), List.getElem?_set, if_neg (by omega)]
    · intro j y hj
      cases j with
      | zero =>
        simp at hj
        subst hj
        rw [Nat.add_zero, r3 index (by omega), List.getElem?_set]
        simp [show index < dst.length by omega, h1]
      | succ j =>
        rw [← r4 j y (by simpa using hj)]
        congr 1; omega

theorem withIdsDenseToSparse_spec (mem : Nat → α) (bmem : Nat → Word) (hv : a.Valid)
    (ht : a.flt.typ = .full) {ids : Filter} (hids : ids.Valid a.size) (hp : ids.typ = .partial') :
    ∃ d, Arr.withIdsDenseToSparse mem bmem a ids = some d ∧ DataFor a ids d := by
  obtain ⟨f1, f2, f3, f4⟩ := fvalid_partial hids hp
  obtain ⟨v1, v2⟩ := valid_full hv ht
  have hb : ∀ x ∈ ids.ids, 0 ≤ x - ids.off ∧ (x - ids.off).toNat < a.data.values.length := by
    intro x hx
    have := f4 (x - ids.off) (List.mem_map.2 ⟨x, hx, rfl⟩)
    omega
  obtain ⟨vals, r1, r2, _, r4⟩ := copyIds_spec (src := a.data.values) (off := ids.off) ids.ids 0
    ((List.range ids.ids.length).map mem) hb (by simp)
  have hlen : vals.length = ids.ids.length := by simpa using r2
  have hrow : ∀ o i, rowOf ids o = some i → ∃ x, ids.ids[o]? = some x ∧ (x - ids.off).toNat = i := by
    intro o i h
    rw [rowOf_partial hids hp, zids_get] at h
    cases he : ids.ids[o]? with
    | none => rw [he] at h; simp at h
    | some x => rw [he] at h; simp at h; exact ⟨x, rfl, by omega⟩
  have helem : ∀ i, a.elem i = Dense.elem a.data i := by
    intro i; unfold Arr.elem; rw [ht]
  unfold Arr.withIdsDenseToSparse
  dsimp only
  rw [r1]
  simp only [Option.bind_eq_bind, Option.bind_some]
  by_cases hbm : a.data.bitmap = []
  · rw [if_pos hbm]
    refine ⟨_, rfl, ⟨by simp, Or.inl rfl⟩, by rw [if_pos hp]; exact hlen, ?_⟩
    intro o i _ _ hr
    obtain ⟨x, x1, x2⟩ := hrow o i hr
    have := r4 o x x1
    rw [Nat.zero_add, x2] at this
    rw [helem]
    unfold Dense.elem
    rw [hbm]
    simpa using this
  · rw [if_neg hbm]
    rw [mapM_some (g := fun id => pres a.data (id - ids.off).toNat) (by
      intro x hx
      obtain ⟨g1, g2⟩ := hb x hx
      unfold Arr.toIdx
      rw [if_neg (by omega)]
      exact present_eq hv.1 g2)]
    have hsz := bitmapSize_eq ids.ids.length
    obtain ⟨s, s1, s2, s3⟩ := builder_bits ((List.range (bitmapSize ids.ids.length)).map bmem)
      [ids.ids.map (fun id => pres a.data (id - ids.off).toNat)] (by simp; omega)
    have hnf : Builder.addForEach (Builder.new ((List.range (bitmapSize ids.ids.length)).map bmem))
        (ids.ids.map (fun id => pres a.data (id - ids.off).toNat)) = some s := by
      rw [Builder.addChunks] at s1
      cases hc : Builder.addForEach (Builder.new ((List.range (bitmapSize ids.ids.length)).map bmem))
        (ids.ids.map (fun id => pres a.data (id - ids.off).toNat)) with
      | none => rw [hc] at s1; simp at s1
      | some s0 => rw [hc] at s1; simpa [Builder.addChunks] using s1
    simp only [Option.bind_some]
    rw [hnf]
    simp only [Option.bind_some]
    simp only [List.flatten_cons, List.flatten_nil, List.append_nil, List.length_map] at s2 s3
    refine ⟨_, rfl, ⟨by simp, ?_⟩, by rw [if_pos hp]; exact hlen, ?_⟩
    · by_cases hs : s.build = []
      · exact Or.inl hs
      · right
        simp only [DArr.size]
        rw [(s3 hs).1, hlen]
        simp
    · intro o i hi ho hr
      obtain ⟨x, x1, x2⟩ := hrow o i hr
      have hol := (List.getElem?_eq_some_iff.1 x1).1
      have hval := r4 o x x1
      rw [Nat.zero_add, x2] at hval
      rw [helem, Dense.elem_eq, Dense.elem_eq]
      dsimp only
      rw [hval]
      have hpr : pres (⟨vals, s.build, 0⟩ : DArr α) o = pres a.data i := by
        by_cases hs : s.build = []
        · have h1 : pres (⟨vals, s.build, 0⟩ : DArr α) o = true := by
            unfold pres; simp [hs]
          rw [h1]
          rcases s2.1 hs with hall | hz
          · refine (hall _ (List.mem_map.2 ⟨x, List.mem_of_getElem? x1, ?_⟩)).symm
            rw [x2]
          · exfalso
            have := congrArg List.length hz
            simp at this
            omega
        · unfold pres
          dsimp only
          rw [decide_eq_false hs, Bool.false_or, Nat.zero_add, (s3 hs).2 o (by simpa using hol)]
          rw [List.getElem_map]
          have hx : ids.ids[o] = x := by
            have := List.getElem?_eq_getElem hol
            rw [x1] at this; simpa using this.symm
          rw [hx, x2]
          rfl
      rw [hpr]

theorem newData_spec (mem : Nat → α) (bmem : Nat → Word) (hv : a.Valid) {ids : Filter}
    (hids : ids.Valid a.size) (hne : ids.typ ≠ .empty) (hnf : ¬ (a.flt.typ = .full ∧ ids.typ = .full)) :
    ∃ d, Arr.newData mem bmem a ids = some d ∧ DataFor a ids d := by
  unfold Arr.newData
  cases ht : a.flt.typ with
  | empty =>
    dsimp only
    have helem : ∀ i, a.elem i = a.miss := by intro i; unfold Arr.elem; rw [ht]
    generalize hN : (if ids.typ = .partial' then ids.ids.length else a.size) = N
    cases hm : a.miss with
    | some v =>
      refine ⟨_, rfl, ⟨by simp [createConst], Or.inl rfl⟩, by rw [hN]; simp [createConst], ?_⟩
      intro o i _ ho _
      rw [helem, hm]
      simp only [createConst, List.length_replicate] at ho
      simp [Dense.elem, createConst, ho]
    | none =>
      refine ⟨_, rfl, ⟨by simp [createEmpty], Or.inr ?_⟩, by rw [hN]; simp [createEmpty], ?_⟩
      · simp [createEmpty, DArr.size, createEmptyBitmap]
      · intro o i _ ho _
        rw [helem, hm]
        have hsz := bitmapSize_eq N
        simp only [createEmpty, List.length_map, List.length_range] at ho
        have hb : bitAt (createEmptyBitmap N) o = false := by
          unfold bitAt wd createEmptyBitmap
          rw [List.getElem?_replicate]
          split <;> simp
        have hne' : createEmptyBitmap N ≠ [] := by
          intro hz
          have := congrArg List.length hz
          simp [createEmptyBitmap] at this
          omega
        simp [Dense.elem, createEmpty, hb, hne']
  | partial' => exact withIdsFromSparse_spec mem hv ht hids hne
  | full =>
    have hp : ids.typ = .partial' := by
      cases h : ids.typ with
      | empty => exact absurd h hne
      | partial' => rfl
      | full => exact absurd ⟨ht, h⟩ hnf
    exact withIdsDenseToSparse_spec mem bmem hv ht hids hp

/-- `WithIds` keeps the elements of `ids` and puts `miss` elsewhere. -/
theorem withIds_spec (mem : Nat → α) (bmem : Nat → Word) {pe : List Int → List Int → Bool}
    (hpe : PtrEq pe) (hv : a.Valid) {ids : Filter} (hids : ids.Valid a.size) (m : Option α) :
    ∃ r, a.withIds mem bmem pe ids m = some r ∧ r.Valid ∧ r.size = a.size ∧
      (0 < a.size → r.flt = ids) ∧
      (r.miss = if 0 < a.size ∧ ids.typ = .full then none else m) ∧
      ∀ i, i < a.size → (ids.Has i → r.elem i = a.elem i) ∧ (¬ ids.Has i → r.elem i = m) := by
  unfold Arr.withIds
  by_cases h0 : ids.typ = .empty ∨ a.size = 0
  · rw [if_pos h0]
    refine ⟨_, rfl, ofConst_valid _ _, rfl, ?_, ?_, ?_⟩
    · intro hs
      have he := h0.resolve_right (by omega)
      unfold Filter.Valid at hids
      rw [he] at hids
      show Filter.emptyF = ids
      cases ids
      simp_all [Filter.emptyF]
    · rw [if_neg]
      · rfl
      · rintro ⟨h1, h2⟩
        rcases h0 with h0 | h0
        · rw [h0] at h2; simp at h2
        · omega
    · intro i hi
      have he := h0.resolve_right (by omega)
      refine ⟨fun h => ?_, fun _ => rfl⟩
      unfold Filter.Has at h; rw [he] at h; exact h.elim
  · rw [if_neg h0]
    have hne : ids.typ ≠ .empty := fun h => h0 (Or.inl h)
    have hs0 : 0 < a.size := by omega
    have key : ∀ d, DataFor a ids d → ∃ r, some (Arr.make a.size ids d m) = some r ∧ r.Valid ∧
        r.size = a.size ∧ (0 < a.size → r.flt = ids) ∧
        (r.miss = if 0 < a.size ∧ ids.typ = .full then none else m) ∧
        ∀ i, i < a.size → (ids.Has i → r.elem i = a.elem i) ∧ (¬ ids.Has i → r.elem i = m) := by
      intro d hd
      have hvr : (Arr.make a.size ids d m).Valid := by
        refine make_valid m hids hd.1 ?_
        rw [hd.2.1]
        cases h : ids.typ <;> simp_all
      refine ⟨_, rfl, hvr, rfl, fun _ => rfl, by simp [Arr.make, hs0], ?_⟩
      intro i hi
      constructor
      · intro hh
        rw [has_iff hids] at hh
        obtain ⟨o, ho⟩ := Option.isSome_iff_exists.1 hh
        have hol := offset_lt hvr (i := i) hi ho
        rw [elem_some hvr (i := i) (o := o) ho]
        refine hd.2.2 o i hi hol ?_
        cases h : ids.typ with
        | empty => exact absurd h hne
        | partial' => exact (rowOf_partial hids h).2 ((idToOffset_iff hids h).1 ho)
        | full =>
          unfold Filter.idToOffset at ho
          rw [h] at ho
          unfold rowOf
          rw [if_neg (by rw [h]; simp)]
          simpa using ho.symm
      · intro hh
        rw [elem_miss hvr hh]
        unfold Arr.make
        dsimp only
        rw [if_neg]
        intro hf
        apply hh
        unfold Filter.Has
        rw [hf]
        trivial
    by_cases hsame : a.flt.isSame pe ids = true
    · rw [if_pos hsame]
      have he := isSame_spec hpe hv.2.1 hids hsame
      refine key a.data ⟨hv.1, ?_, ?_⟩
      · rw [← he]
        cases h : a.flt.typ with
        | empty => rw [he] at h; exact absurd h hne
        | partial' => rw [if_pos rfl]; exact valid_partial hv h
        | full => rw [if_neg (by simp)]; exact (valid_full hv h).1
      · intro o i hi ho hr
        symm
        apply elem_some hv
        rw [he]
        cases h : ids.typ with
        | empty => exact absurd h hne
        | partial' => exact (idToOffset_iff hids h).2 ((rowOf_partial hids h).1 hr)
        | full =>
          unfold rowOf at hr
          rw [if_neg (by rw [h]; simp)] at hr
          unfold Filter.idToOffset
          rw [h]
          simpa using hr.symm
    · rw [if_neg hsame]
      obtain ⟨d, d1, d2⟩ := newData_spec mem bmem hv hids hne (by
        rintro ⟨h1, h2⟩
        apply hsame
        unfold Filter.isSame
        rw [if_neg (by rw [h1, h2]; simp), if_neg (by rw [h1]; simp)])
      rw [d1]
      simp only [Option.bind_eq_bind, Option.bind_some]
      exact key d d2

end
end Verif.Arr
