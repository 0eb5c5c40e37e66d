import Verif.Dense.DenseSpec
import Verif.Dense.BuilderLemmas
import Mathlib.Tactic.Choose

/-! Helper lemmas for dense arrays. -/

namespace Verif.Dense
open Verif.Bits Verif.Bitmap

variable {α : Type}

theorem elems_length (a : DArr α) : (elems a).length = a.values.length := by simp [elems]

theorem elems_get? (a : DArr α) (i : Nat) :
    (elems a)[i]? = if i < a.values.length then some (elem a i) else none := by
  unfold elems
  rw [List.getElem?_map]
  by_cases h : i < a.values.length
  · simp [h]
  · simp [h]

/-- Two optional sequences are equal iff they have the same length and the same elements. -/
theorem elems_ext {a b : DArr α} (hl : a.values.length = b.values.length)
    (h : ∀ i, i < a.values.length → elem a i = elem b i) : elems a = elems b := by
  unfold elems
  rw [hl]
  apply List.map_congr_left
  intro i hi
  exact h i (by rw [hl]; exact List.mem_range.1 hi)

/-- Presence bit of element `i`. -/
def pres (a : DArr α) (i : Nat) : Bool := decide (a.bitmap = []) || bitAt a.bitmap (a.off + i)

theorem elem_eq (a : DArr α) (i : Nat) : elem a i = if pres a i then a.values[i]? else none := by
  simp [elem, pres]

theorem isSome_elem {a : DArr α} {i : Nat} (h : i < a.values.length) :
    (elem a i).isSome = pres a i := by
  rw [elem_eq]
  cases pres a i <;> simp [h]

theorem Valid.cover {a : DArr α} (hv : a.Valid) (hb : a.bitmap ≠ []) :
    a.off + a.values.length ≤ 32 * a.bitmap.length := by
  have := hv.2.resolve_left hb
  rw [bitmapSize_eq] at this
  unfold DArr.size at this
  omega

theorem present_eq {a : DArr α} (hv : a.Valid) {i : Nat} (hi : i < a.values.length) :
    a.present i = some (pres a i) := by
  unfold DArr.present getBitB pres
  by_cases hb : a.bitmap = []
  · simp [hb]
  · have := Valid.cover hv hb
    rw [if_neg hb, getBit_eq (by omega)]
    simp [hb, Nat.add_comm]

theorem at_eq {a : DArr α} (hv : a.Valid) {i : Nat} (hi : i < a.values.length) :
    a.at? i = some (elem a i) := by
  unfold DArr.at?
  rw [present_eq hv hi, elem_eq]
  simp only [Option.bind_eq_bind, Option.bind_some]
  cases pres a i <;> simp [hi]

theorem bitAt_slice {bm : List Word} {s c i : Nat} (h : i < 32 * c) :
    bitAt ((bm.drop s).take c) i = bitAt bm (32 * s + i) := by
  unfold bitAt wd
  rw [List.getElem?_take, if_pos (by omega), List.getElem?_drop]
  rw [show (32 * s + i) / 32 = s + i / 32 by omega, show (32 * s + i) % 32 = i % 32 by omega]

theorem slice_spec {a : DArr α} (hv : a.Valid) {start count : Nat}
    (h : start + count ≤ a.values.length) :
    ∃ r, a.slice start count = some r ∧ r.Valid ∧
      elems r = ((elems a).drop start).take count := by
  unfold DArr.slice
  have hvals : bufSlice a.values start count = some ((a.values.drop start).take count) := by
    unfold bufSlice
    by_cases h0 : count = 0
    · simp [h0]
    · rw [if_neg h0, if_pos (by omega)]
  rw [hvals]
  simp only [Option.bind_eq_bind, Option.bind_some]
  have hlen : ((a.values.drop start).take count).length = count := by simp; omega
  have key : ∀ r : DArr α, r.values = (a.values.drop start).take count →
      (∀ i, i < count → pres r i = pres a (start + i)) →
      elems r = ((elems a).drop start).take count := by
    intro r hr hp
    apply List.ext_getElem?
    intro i
    rw [elems_get?, hr, hlen, List.getElem?_take, List.getElem?_drop, elems_get?]
    by_cases hi : i < count
    · rw [if_pos hi, if_pos hi, if_pos (by omega), elem_eq, elem_eq, hp i hi, hr,
        List.getElem?_take, if_pos hi, List.getElem?_drop]
    · rw [if_neg hi, if_neg hi]
  by_cases hb : a.bitmap = []
  · rw [if_neg (by simpa using hb)]
    refine ⟨_, rfl, ⟨by simp, Or.inl rfl⟩, key _ rfl ?_⟩
    intro i hi
    simp [pres, hb]
  · rw [if_pos hb]
    have hc := Valid.cover hv hb
    have hbl := hv.2.resolve_left hb
    have hoff := hv.1
    rw [bitmapSize_eq] at hbl
    unfold DArr.size at hbl
    have hbm : bufSlice a.bitmap ((start + a.off) / 32) (bitmapSize ((start + a.off) % 32 + count)) =
        some ((a.bitmap.drop ((start + a.off) / 32)).take
          (bitmapSize ((start + a.off) % 32 + count))) := by
      unfold bufSlice
      by_cases h0 : bitmapSize ((start + a.off) % 32 + count) = 0
      · simp [h0]
      · rw [if_neg h0, if_pos (by omega)]
    rw [hbm]
    simp only [Option.bind_some]
    have hsz := bitmapSize_eq ((start + a.off) % 32 + count)
    have hbl2 : ((a.bitmap.drop ((start + a.off) / 32)).take
          (bitmapSize ((start + a.off) % 32 + count))).length =
          bitmapSize ((start + a.off) % 32 + count) := by
      simp only [List.length_take, List.length_drop]
      omega
    refine ⟨_, rfl, ⟨Nat.mod_lt _ (by omega), Or.inr ?_⟩, key _ rfl ?_⟩
    · rw [hbl2]; unfold DArr.size; rw [hlen, Nat.add_comm]
    · intro i hi
      unfold pres
      dsimp only
      have hne : (a.bitmap.drop ((start + a.off) / 32)).take
          (bitmapSize ((start + a.off) % 32 + count)) ≠ [] := by
        intro hz
        rw [hz] at hbl2
        simp only [List.length_nil] at hbl2
        omega
      rw [decide_eq_false hne, decide_eq_false hb, Bool.false_or, Bool.false_or,
        bitAt_slice (by omega)]
      congr 1; omega

theorem mapM_some {β γ : Type} {f : β → Option γ} {g : β → γ} : ∀ {l : List β},
    (∀ x ∈ l, f x = some (g x)) → l.mapM f = some (l.map g) := by
  intro l
  induction l with
  | nil => intro _; rfl
  | cons x xs ih =>
    intro h
    rw [List.mapM_cons, h x (by simp), ih (fun y hy => h y (by simp [hy]))]
    rfl

/-- Word `k` of the presence bitmap as seen with offset, for a valid array. -/
theorem getWordWithOffset_spec {bm : List Word} {k off : Nat} (ho : off < 32) :
    ∃ w, getWordWithOffset bm k off = some w ∧
      ∀ j, j < 32 → 32 * k + j + off < 32 * bm.length ∨ bm = [] →
        w.getLsbD j = (decide (bm = []) || bitAt bm (off + (32 * k + j))) := by
  unfold getWordWithOffset
  by_cases hk : bm.length ≤ k
  · rw [if_pos hk]
    refine ⟨_, rfl, ?_⟩
    intro j hj hc
    rcases hc with hc | hc
    · omega
    · rw [bit_full, decide_eq_true hj, hc]; rfl
  · rw [if_neg hk, get_wd (by omega)]
    simp only [Option.bind_eq_bind, Option.bind_some]
    rw [shr_eq ho, Option.bind_some]
    have hne : bm ≠ [] := by intro h; rw [h] at hk; simp at hk
    by_cases hc : off = 0 ∨ k + 1 = bm.length
    · rw [if_pos hc]
      refine ⟨_, rfl, ?_⟩
      intro j hj hb
      have hb := hb.resolve_right hne
      rw [bitAt_low (by omega), decide_eq_false hne, Bool.false_or]
      congr 1; omega
    · rw [if_neg hc, get_wd (by omega), Option.bind_some, shl_eq (by omega)]
      refine ⟨_, rfl, ?_⟩
      intro j hj hb
      rw [bitAt_glue (by omega) (by omega) hj, decide_eq_false hne, Bool.false_or]
      congr 1; omega

theorem forceNoOffset_spec {a : DArr α} (hv : a.Valid) :
    ∃ r, a.forceNoOffset = some r ∧ r.Valid ∧ r.off = 0 ∧ elems r = elems a := by
  unfold DArr.forceNoOffset
  by_cases ho : a.off > 0
  · rw [if_pos ho]
    have hex : ∀ k, ∃ w, getWordWithOffset a.bitmap k a.off = some w ∧
      ∀ j, j < 32 → 32 * k + j + a.off < 32 * a.bitmap.length ∨ a.bitmap = [] →
        w.getLsbD j = (decide (a.bitmap = []) || bitAt a.bitmap (a.off + (32 * k + j))) :=
      fun k => getWordWithOffset_spec hv.1
    choose w hw1 hw2 using hex
    rw [mapM_some (g := w) (fun k _ => hw1 k)]
    refine ⟨_, rfl, ⟨by simp, Or.inr (by simp [DArr.size])⟩, rfl, ?_⟩
    refine elems_ext (a := ⟨a.values, (List.range (bitmapSize a.size)).map w, 0⟩) (b := a) rfl ?_
    intro i hi
    have hsz := bitmapSize_eq a.size
    have hi : i < a.values.length := hi
    rw [elem_eq, elem_eq]
    have hp : pres (⟨a.values, (List.range (bitmapSize a.size)).map w, 0⟩ : DArr α) i = pres a i := by
      unfold pres
      dsimp only
      have hbs : i / 32 < bitmapSize a.size := by unfold DArr.size at hsz ⊢; omega
      have hne : (List.range (bitmapSize a.size)).map w ≠ [] := by
        intro hz
        have := congrArg List.length hz
        simp at this
        omega
      rw [decide_eq_false hne, Bool.false_or, Nat.zero_add]
      unfold bitAt wd
      rw [List.getElem?_map, List.getElem?_range hbs]
      simp only [Option.map_some, Option.getD_some]
      rw [hw2 (i / 32) (i % 32) (Nat.mod_lt _ (by omega)), show 32 * (i / 32) + i % 32 = i by omega]
      · rfl
      · by_cases hb : a.bitmap = []
        · exact Or.inr hb
        · left
          have := Valid.cover hv hb
          omega
    rw [hp]
  · rw [if_neg ho]
    exact ⟨a, rfl, hv, by omega, rfl⟩

theorem presentCount_spec {a : DArr α} (hv : a.Valid) :
    a.presentCount = some ((elems a).countP Option.isSome) := by
  unfold DArr.presentCount elems
  rw [countBits_spec, countRange_shift, List.countP_map]
  congr 1
  apply List.countP_congr
  intro i hi
  have hi : i < a.values.length := List.mem_range.1 hi
  simp only [Function.comp]
  rw [isSome_elem hi]
  unfold pres
  by_cases hb : a.bitmap = []
  · simp [hb]
  · have := Valid.cover hv hb
    rw [decide_eq_false (by omega), decide_eq_false hb]

theorem mapM_range' {β : Type} {f : Nat → Option β} : ∀ (l : List β) (s : Nat),
    (∀ i, i < l.length → f (s + i) = l[i]?) → (List.range' s l.length).mapM f = some l := by
  intro l
  induction l with
  | nil => intro s h; rfl
  | cons x xs ih =>
    intro s h
    have h0 := h 0 (by simp)
    simp only [Nat.add_zero, List.getElem?_cons_zero] at h0
    rw [List.length_cons, List.range'_succ, List.mapM_cons, h0, ih (s + 1)]
    · rfl
    · intro i hi
      have := h (i + 1) (by simpa using hi)
      rw [List.getElem?_cons_succ] at this
      rw [← this]; congr 1; omega

theorem mapM_range {β : Type} {f : Nat → Option β} {l : List β} {n : Nat} (hn : l.length = n)
    (h : ∀ i, i < l.length → f i = l[i]?) : (List.range n).mapM f = some l := by
  rw [← hn, List.range_eq_range']
  exact mapM_range' l 0 (fun i hi => by rw [Nat.zero_add]; exact h i hi)

/-- What `ForEach` passes to the callback. -/
def visits (a : DArr α) : List (Nat × Bool × α) :=
  (List.range a.values.length).zipWith (fun i v => (i, pres a i, v)) a.values

theorem forEach_visits {a : DArr α} (hv : a.Valid) : a.forEach = some (visits a) := by
  unfold DArr.forEach
  have hlen : (visits a).length = a.values.length := by simp [visits]
  have hget : ∀ i, i < a.values.length →
      (visits a)[i]? = (a.values[i]?).map (fun v => (i, pres a i, v)) := by
    intro i hi
    simp [visits, hi]
  by_cases hb : a.bitmap = []
  · rw [if_pos hb]
    apply mapM_range hlen
    intro i hi
    rw [hlen] at hi
    rw [hget i hi]
    simp [hi, pres, hb]
  · rw [if_neg hb]
    have hc := Valid.cover hv hb
    rw [iterateByGroups_spec (by unfold DArr.size; omega)]
    simp only [Option.bind_eq_bind, Option.bind_some]
    rw [List.mapM_map]
    apply mapM_range hlen
    intro i hi
    rw [hlen] at hi
    rw [hget i hi]
    simp [hi, pres, hb]

theorem visits_elems (a : DArr α) :
    (visits a).map (fun x => (x.1, if x.2.1 then some x.2.2 else none)) =
      (List.range a.values.length).map (fun i => (i, elem a i)) := by
  apply List.ext_getElem?
  intro i
  unfold visits
  by_cases h : i < a.values.length
  · simp [h, elem_eq]
  · simp [h]

theorem equivLoop_spec {eq : α → α → Bool} {a b : DArr α} (ha : a.Valid) (hb : b.Valid)
    (hl : a.values.length = b.values.length) : ∀ (n i : Nat), i + n ≤ a.values.length →
    ∃ r, DArr.equivLoop eq a b i n = some r ∧
      (r = true ↔ ∀ j, i ≤ j → j < i + n → DArr.optEq eq (elem a j) (elem b j) = true) := by
  intro n
  induction n with
  | zero => intro i h; exact ⟨true, rfl, by simp; intro j h1 h2; omega⟩
  | succ n ih =>
    intro i h
    rw [DArr.equivLoop, at_eq ha (by omega), at_eq hb (by omega)]
    simp only [Option.bind_eq_bind, Option.bind_some]
    cases he : DArr.optEq eq (elem a i) (elem b i) with
    | false =>
      refine ⟨false, rfl, ?_⟩
      simp only [Bool.false_eq_true, false_iff]
      intro H
      have := H i (Nat.le_refl _) (by omega)
      rw [he] at this
      exact absurd this (by simp)
    | true =>
      obtain ⟨r, e1, e2⟩ := ih (i + 1) (by omega)
      refine ⟨r, by simpa using e1, e2.trans ?_⟩
      constructor
      · intro H j h1 h2
        by_cases hj : j = i
        · rw [hj]; exact he
        · exact H j (by omega) (by omega)
      · intro H j h1 h2; exact H j (by omega) (by omega)

theorem isEqv_iff {eq : α → α → Bool} : ∀ {xs ys : List α},
    xs.isEqv ys eq = true ↔ xs.length = ys.length ∧
      ∀ i (h1 : i < xs.length) (h2 : i < ys.length), eq xs[i] ys[i] = true := by
  intro xs
  induction xs with
  | nil => intro ys; cases ys <;> simp [List.isEqv]
  | cons x xs ih =>
    intro ys
    cases ys with
    | nil => simp [List.isEqv]
    | cons y ys =>
      rw [List.isEqv, Bool.and_eq_true, ih]
      constructor
      · rintro ⟨h1, h2, h3⟩
        refine ⟨by simp [h2], ?_⟩
        intro i hi1 hi2
        cases i with
        | zero => exact h1
        | succ i => exact h3 i (by simpa using hi1) (by simpa using hi2)
      · rintro ⟨h1, h2⟩
        refine ⟨h2 0 (by simp) (by simp), by simpa using h1, ?_⟩
        intro i hi1 hi2
        exact h2 (i + 1) (by simpa using hi1) (by simpa using hi2)

theorem equivalent_spec {eq : α → α → Bool} {a b : DArr α} (ha : a.Valid) (hb : b.Valid) :
    ∃ r, DArr.equivalent eq a b = some r ∧
      (r = true ↔ a.values.length = b.values.length ∧
        ∀ i, i < a.values.length → DArr.optEq eq (elem a i) (elem b i) = true) := by
  unfold DArr.equivalent
  by_cases hc : a.bitmap = [] ∧ b.bitmap = []
  · rw [if_pos hc]
    refine ⟨_, rfl, ?_⟩
    rw [isEqv_iff]
    constructor
    · rintro ⟨h1, h2⟩
      refine ⟨h1, ?_⟩
      intro i hi
      have := h2 i hi (by omega)
      simpa [elem, hc.1, hc.2, hi, show i < b.values.length by omega, DArr.optEq] using this
    · rintro ⟨h1, h2⟩
      refine ⟨h1, ?_⟩
      intro i hi hi2
      have := h2 i hi
      simpa [elem, hc.1, hc.2, hi, hi2, DArr.optEq] using this
  · rw [if_neg hc]
    by_cases hs : a.size = b.size
    · rw [if_neg (by simpa using hs)]
      have hs' : a.values.length = b.values.length := hs
      obtain ⟨r, e1, e2⟩ := equivLoop_spec (eq := eq) ha hb hs' a.values.length 0 (by omega)
      refine ⟨r, e1, e2.trans ?_⟩
      constructor
      · intro H; exact ⟨hs', fun i hi => H i (by omega) (by omega)⟩
      · intro H i _ hi; exact H.2 i (by omega)
    · rw [if_pos hs]
      refine ⟨false, rfl, ?_⟩
      simp only [Bool.false_eq_true, false_iff]
      intro H; exact hs H.1

theorem fingerprint_eq {a : DArr α} (ha : a.Valid) :
    a.fingerprintTokens = some (.size a.values.length :: (elems a).flatMap DArr.optTokens) := by
  unfold DArr.fingerprintTokens
  rw [mapM_some (f := a.at?) (g := elem a) (l := List.range a.size)
    (fun i hi => at_eq ha (List.mem_range.1 hi))]
  rfl

theorem optTokens_inj : ∀ {xs ys : List (Option α)},
    xs.flatMap DArr.optTokens = ys.flatMap DArr.optTokens → xs.length = ys.length → xs = ys := by
  intro xs
  induction xs with
  | nil => intro ys _ hl; cases ys <;> simp_all
  | cons x xs ih =>
    intro ys h hl
    cases ys with
    | nil => simp at hl
    | cons y ys =>
      simp only [List.flatMap_cons] at h
      cases x with
      | none =>
        cases y with
        | none =>
          simp only [DArr.optTokens, List.cons_append, List.nil_append, List.cons.injEq, true_and] at h
          rw [ih h (by simpa using hl)]
        | some v => simp [DArr.optTokens] at h
      | some u =>
        cases y with
        | none => simp [DArr.optTokens] at h
        | some v =>
          simp only [DArr.optTokens, List.cons_append, List.nil_append, List.cons.injEq, true_and,
            DArr.Tok.val.injEq] at h
          rw [h.1, ih h.2 (by simpa using hl)]

/-! ### DenseArrayBuilder -/

/-- Builder invariant relative to the logical contents `f`. -/
def DBInv (n : Nat) (f : Nat → Option α) (b : DBuilder α) : Prop :=
  b.vals.length = n ∧ b.bits.length = bitmapSize n ∧
  ∀ i, i < n → f i = if bitAt b.bits i then b.vals[i]? else none

theorem fillN_spec {x : α} : ∀ (c id : Nat) (vs : List α), id + c ≤ vs.length →
    ∃ vs', DBuilder.fillN vs x id c = some vs' ∧ vs'.length = vs.length ∧
      ∀ i, vs'[i]? = if id ≤ i ∧ i < id + c then some x else vs[i]? := by
  intro c
  induction c with
  | zero =>
    intro id vs h
    refine ⟨vs, rfl, rfl, ?_⟩
    intro i; rw [if_neg (by omega)]
  | succ c ih =>
    intro id vs h
    rw [DBuilder.fillN]
    unfold wrV
    rw [if_pos (by omega)]
    simp only [Option.bind_eq_bind, Option.bind_some]
    obtain ⟨vs', e1, e2, e3⟩ := ih (id + 1) (vs.set id x) (by simp; omega)
    refine ⟨vs', e1, by simpa using e2, ?_⟩
    intro i
    rw [e3, List.getElem?_set]
    by_cases hi : i = id
    · subst hi
      rw [if_neg (by omega), if_pos rfl, if_pos (by omega), if_pos (by omega)]
    · by_cases hc : id + 1 ≤ i ∧ i < id + 1 + c
      · rw [if_pos hc, if_pos (by omega)]
      · rw [if_neg hc, if_neg (Ne.symm hi), if_neg (by omega)]

theorem apply_inv {n : Nat} {f : Nat → Option α} {b : DBuilder α} (h : DBInv n f b)
    (o : DBuilder.Op α) (ho : opOk n o) :
    ∃ b', b.apply o = some b' ∧ DBInv n (opEffect f o) b' := by
  obtain ⟨h1, h2, h3⟩ := h
  have hsz := bitmapSize_eq n
  cases o with
  | set id v =>
    cases v with
    | none => exact ⟨b, rfl, h1, h2, h3⟩
    | some x =>
      have ho : id < n := ho
      obtain ⟨bs, e1, e2, e3⟩ := setBit_spec (ws := b.bits) (i := id) (by omega)
      refine ⟨⟨b.vals.set id x, bs⟩, ?_, ?_, ?_, ?_⟩
      · simp [DBuilder.apply, DBuilder.set, wrV, h1, ho, e1]
      · simpa using h1
      · dsimp only; omega
      · intro i hi
        dsimp only
        rw [e3, opEffect, List.getElem?_set]
        by_cases hid : i = id
        · subst hid
          simp [h1, hi]
        · rw [if_neg hid, h3 i hi, if_neg (Ne.symm hid), decide_eq_false hid, Bool.or_false]
  | setN id c v =>
    cases v with
    | none => exact ⟨b, rfl, h1, h2, h3⟩
    | some x =>
      have ho : id + c ≤ n := ho
      obtain ⟨bs, e1, e2, e3⟩ := setBitsInRange_spec (ws := b.bits) (start := id) (stop := id + c)
        (by omega) (by omega)
      obtain ⟨vs, g1, g2, g3⟩ := fillN_spec (x := x) c id b.vals (by omega)
      refine ⟨⟨vs, bs⟩, ?_, ?_, ?_, ?_⟩
      · simp [DBuilder.apply, DBuilder.setN, e1, g1]
      · simpa using g2.trans h1
      · dsimp only; omega
      · intro i hi
        dsimp only
        rw [e3, opEffect, g3]
        by_cases hc : id ≤ i ∧ i < id + c
        · rw [if_pos hc, if_pos hc, decide_eq_true hc]; simp
        · rw [if_neg hc, if_neg hc, h3 i hi, decide_eq_false hc, Bool.or_false]

theorem applyAll_inv {n : Nat} : ∀ (os : List (DBuilder.Op α)) (f : Nat → Option α)
    (b : DBuilder α), DBInv n f b → (∀ o ∈ os, opOk n o) →
    ∃ b', b.applyAll os = some b' ∧ DBInv n (os.foldl opEffect f) b' := by
  intro os
  induction os with
  | nil => intro f b h _; exact ⟨b, rfl, h⟩
  | cons o os ih =>
    intro f b h ho
    obtain ⟨b1, e1, e2⟩ := apply_inv h o (ho o (by simp))
    obtain ⟨b2, g1, g2⟩ := ih _ b1 e2 (fun x hx => ho x (by simp [hx]))
    refine ⟨b2, ?_, g2⟩
    rw [DBuilder.applyAll, e1]
    exact g1

theorem new_inv (mem : List α) : DBInv mem.length (fun _ => none) (DBuilder.new mem) := by
  refine ⟨rfl, by simp [DBuilder.new], ?_⟩
  intro i hi
  have : bitAt (DBuilder.new mem).bits i = false := by
    unfold bitAt wd DBuilder.new
    dsimp only
    rw [List.getElem?_replicate]
    split <;> simp
  rw [this]; rfl

theorem elems_of_inv {n : Nat} {f : Nat → Option α} {b : DBuilder α} (h : DBInv n f b) :
    b.build.Valid ∧ elems b.build = (List.range n).map f := by
  obtain ⟨h1, h2, h3⟩ := h
  have hsz := bitmapSize_eq n
  refine ⟨⟨by simp [DBuilder.build], Or.inr (by simp [DBuilder.build, DArr.size, h1, h2])⟩, ?_⟩
  unfold elems
  simp only [DBuilder.build, h1]
  apply List.map_congr_left
  intro i hi
  have hi : i < n := List.mem_range.1 hi
  rw [h3 i hi]
  unfold elem
  dsimp only
  have : b.bits ≠ [] := by
    intro hz; rw [hz] at h2; simp at h2; omega
  simp [this]

theorem elems_of_inv_prefix {n size : Nat} {f : Nat → Option α} {b : DBuilder α}
    (h : DBInv n f b) (hs : size ≤ n) :
    (b.buildSize size).Valid ∧ elems (b.buildSize size) = (List.range size).map f := by
  obtain ⟨h1, h2, h3⟩ := h
  have hsz := bitmapSize_eq n
  have hsz2 := bitmapSize_eq size
  have hlen : (b.vals.take size).length = size := by simp; omega
  have hlenb : (b.bits.take (bitmapSize size)).length = bitmapSize size := by simp; omega
  refine ⟨⟨by simp [DBuilder.buildSize], Or.inr ?_⟩, ?_⟩
  · simp only [DBuilder.buildSize, DArr.size]
    rw [hlen, hlenb]; rfl
  · unfold elems
    simp only [DBuilder.buildSize]
    rw [hlen]
    apply List.map_congr_left
    intro i hi
    have hi : i < size := List.mem_range.1 hi
    rw [h3 i (by omega)]
    unfold elem
    dsimp only
    have hne : b.bits.take (bitmapSize size) ≠ [] := by
      intro hz; rw [hz] at hlenb; simp at hlenb; omega
    have hb : bitAt (b.bits.take (bitmapSize size)) i = bitAt b.bits i := by
      have := bitAt_slice (bm := b.bits) (s := 0) (c := bitmapSize size) (i := i) (by omega)
      simpa using this
    simp [hne, hb, List.getElem?_take, hi]

theorem createDenseArray_spec (mem : List Word) (dflt : α) (data : List (Option α))
    (hm : mem.length = bitmapSize data.length) :
    ∃ r, createDenseArray mem dflt data = some r ∧ r.Valid ∧ elems r = data := by
  unfold createDenseArray Builder.addForEach
  have hsz := bitmapSize_eq data.length
  obtain ⟨s, e1, e2, ⟨a1, a2, a3⟩, a4⟩ := addByGroups_spec (len := mem.length)
    (count := (data.map Option.isSome).length)
    (g := fun i => (data.map Option.isSome).getD i false)
    (builder_new_inv mem _) (by simp [Builder.new]; omega)
  have : (fun i => (data.map Option.isSome).getD ((Builder.new mem).currentBit + i) false) =
      fun i => (data.map Option.isSome).getD i false := by
    funext i; simp [Builder.new]
  rw [this] at e1
  rw [e1]
  have e2' : s.currentBit = data.length := by simpa [Builder.new] using e2
  refine ⟨_, rfl, ⟨by simp, ?_⟩, ?_⟩
  · unfold Builder.build DArr.size
    dsimp only
    by_cases hp : s.allPresent = true
    · left; rw [if_pos hp]
    · right; rw [if_neg hp]; simp [a1, hm]
  · apply List.ext_getElem?
    intro i
    rw [elems_get?]
    simp only [List.length_map]
    by_cases hi : i < data.length
    · rw [if_pos hi, elem_eq]
      have hp : pres (⟨data.map (fun o => o.getD dflt), s.build, 0⟩ : DArr α) i = data[i].isSome := by
        unfold pres Builder.build
        dsimp only
        by_cases hp : s.allPresent = true
        · rw [if_pos hp]
          rw [a4, List.all_eq_true] at hp
          have := hp i (List.mem_range.2 (by omega))
          rw [getD_lt (by simpa using hi)] at this
          simpa using this.symm
        · rw [if_neg hp]
          have hne : s.data ≠ [] := by
            intro hz; rw [hz] at a1; simp at a1; omega
          rw [decide_eq_false hne, Bool.false_or, Nat.zero_add, a2 i (by omega)]
          dsimp only
          rw [getD_lt (by simpa using hi)]
          simp
      rw [hp]
      cases hd : data[i] with
      | none => simp [hi, hd]
      | some v => simp [hi, hd]
    · rw [if_neg hi, List.getElem?_eq_none (by omega)]

end Verif.Dense
