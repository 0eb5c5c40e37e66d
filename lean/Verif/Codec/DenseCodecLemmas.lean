import Verif.Codec.CodecSpec
import Verif.Dense.DenseLemmas

/-!
# Lemmas on the codec of dense arrays
-/

namespace Verif.Codec
open Verif.Bits Verif.Bitmap Verif.Dense

variable {α : Type}

theorem countP_eq_length_iff {β : Type} (p : β → Bool) (l : List β) : l.countP p = l.length ↔ l.all p = true := by
  rw [List.countP_eq_length, List.all_eq_true]

theorem count_true (l : List Bool) : l.count true = l.countP id := by
  rw [List.count]
  apply List.countP_congr
  intro x _
  cases x <;> simp

/-- The presence of the rows of an array with the given bitmap. -/
def presOf (bm : List Word) (off n : Nat) : List Bool := (List.range n).map (fun i => decide (bm = []) || bitAt bm (off + i))

theorem presOf_length (bm : List Word) (off n : Nat) : (presOf bm off n).length = n := by simp [presOf]

theorem bitsOf_length (bm : List Word) (n : Nat) : (bitsOf bm n).length = n := by simp [bitsOf]

theorem bitsOf_eq (bm : List Word) (n : Nat) : bitsOf bm n = presOf bm 0 n := by simp [bitsOf, presOf]

theorem presOf_get {bm : List Word} {off n i : Nat} (h : i < n) :
    (presOf bm off n)[i]? = some (decide (bm = []) || bitAt bm (off + i)) := by
  simp [presOf, h]

theorem countBits_pres {bm : List Word} {off n : Nat} (h : bm = [] ∨ off + n ≤ 32 * bm.length) :
    countBits bm off n = some ((presOf bm off n).count true) := by
  rw [countBits_spec, countRange_shift, count_true, presOf, List.countP_map]
  congr 1
  apply List.countP_congr
  intro i hi
  have hi : i < n := List.mem_range.1 hi
  simp only [Function.comp]
  rcases h with h | h
  · simp [h]
  · have hne : bm ≠ [] := by intro hb; rw [hb] at h; simp at h; omega
    rw [decide_eq_false (by omega), decide_eq_false hne]
    simp

theorem bitmapSizeI_eq {n : Int} (h : n + 32 ≤ Edge.maxI64) : bitmapSizeI n = some (bitmapSize n.toNat) := by
  unfold bitmapSizeI
  rw [if_neg (by omega)]

theorem packs_words {ws : List Word} {bm : List Word} {off n : Nat} (hfull : (presOf bm off n).all id = false)
    (hl : ws.length = bitmapSize n) (hb : ∀ k j, k < bitmapSize n → j < 32 →
      (wd ws k).getLsbD j = (decide (32 * k + j < n) && (decide (bm = []) || bitAt bm (off + (32 * k + j))))) :
    Packs ws (presOf bm off n) := by
  unfold Packs
  rw [hfull, presOf_length]
  rw [if_neg (by simp)]
  rw [bitmapSize_eq] at *
  refine ⟨by omega, by omega, ?_⟩
  intro i
  by_cases hi : i / 32 < ws.length
  · have := hb (i / 32) (i % 32) (by omega) (Nat.mod_lt _ (by omega))
    rw [show 32 * (i / 32) + i % 32 = i by omega] at this
    unfold bitAt
    rw [this]
    by_cases hin : i < n
    · rw [List.getD_eq_getElem?_getD, presOf_get hin, decide_eq_true hin]
      simp [bitAt]
    · rw [decide_eq_false hin, List.getD_eq_getElem?_getD, List.getElem?_eq_none (by rw [presOf_length]; omega)]
      rfl
  · rw [bitAt_ge (by omega), List.getD_eq_getElem?_getD, List.getElem?_eq_none (by rw [presOf_length]; omega)]
    rfl

theorem mask_bit {w : Word} {r j : Nat} (hr : r < 32) : (w &&& (((1 : Word) <<< r) - 1)).getLsbD j = (w.getLsbD j && decide (j < r)) := by
  rw [BitVec.getLsbD_and]
  congr 1
  have h1 : ((1 : Word) <<< r) - 1 = BitVec.ofNat 32 (2 ^ r - 1) := by
    apply BitVec.eq_of_toNat_eq
    have hp : 2 ^ r < 2 ^ 32 := Nat.pow_lt_pow_right (by omega) hr
    have hp0 : 0 < 2 ^ r := Nat.pow_pos (by omega)
    simp only [BitVec.toNat_sub, BitVec.toNat_shiftLeft, BitVec.toNat_ofNat]
    rw [Nat.shiftLeft_eq, show BitVec.toNat (1 : Word) = 1 from rfl, Nat.one_mul, Nat.mod_eq_of_lt hp]
    omega
  rw [h1, BitVec.getLsbD_ofNat, Nat.testBit_two_pow_sub_one]
  by_cases hj : j < r
  · simp [hj]; omega
  · simp [hj]

theorem genBitmap_spec {bm : List Word} {off n : Nat} (ho : off < 32) (hv : bm = [] ∨ bm.length = bitmapSize (n + off))
    (hn : (n : Int) + 32 ≤ Edge.maxI64) : ∃ ws, genBitmap bm off n = some ws ∧ Packs ws (presOf bm off n) := by
  have hcov : bm = [] ∨ off + n ≤ 32 * bm.length := by
    rcases hv with h | h
    · exact Or.inl h
    · right; rw [bitmapSize_eq] at h; omega
  unfold genBitmap
  rw [countBits_pres hcov]
  simp only [Option.bind_eq_bind, Option.bind_some]
  by_cases hfull : (presOf bm off n).all id = true
  · have : (presOf bm off n).count true = n := by
      have := (countP_eq_length_iff id (presOf bm off n)).2 hfull
      rw [count_true, this, presOf_length]
    rw [if_pos this]
    exact ⟨_, rfl, by unfold Packs; rw [if_pos hfull]⟩
  · have hne : (presOf bm off n).count true ≠ n := by
      intro h
      apply hfull
      rw [← countP_eq_length_iff, ← count_true, h, presOf_length]
    rw [if_neg hne, bitmapSizeI_eq hn]
    simp only [Option.bind_some, Int.toNat_natCast]
    have hex : ∀ k, ∃ w, getWordWithOffset bm k off = some w ∧
      ∀ j, j < 32 → 32 * k + j + off < 32 * bm.length ∨ bm = [] →
        w.getLsbD j = (decide (bm = []) || bitAt bm (off + (32 * k + j))) :=
      fun k => getWordWithOffset_spec ho
    choose w hw1 hw2 using hex
    rw [mapM_some (g := w) (fun k _ => hw1 k), Option.bind_some]
    have hfull : (presOf bm off n).all id = false := by simpa using hfull
    have hwd : ∀ k, k < bitmapSize n → wd ((List.range (bitmapSize n)).map w) k = w k := by
      intro k hk
      unfold wd
      rw [List.getElem?_map, List.getElem?_range hk]
      rfl
    have hcov' : ∀ k j, 32 * k + j < n → 32 * k + j + off < 32 * bm.length ∨ bm = [] := by
      intro k j h
      rcases hcov with h' | h'
      · exact Or.inr h'
      · left; omega
    have hpos : 0 < n := by
      rcases Nat.eq_zero_or_pos n with h | h
      · subst h; simp [presOf] at hfull
      · exact h
    by_cases hr : n % 32 ≠ 0
    · rw [if_pos hr]
      have hlast : bitmapSize n - 1 < bitmapSize n := by rw [bitmapSize_eq]; omega
      have hget : ((List.range (bitmapSize n)).map w)[bitmapSize n - 1]? = some (w (bitmapSize n - 1)) := by
        rw [List.getElem?_map, List.getElem?_range hlast]; rfl
      rw [hget]
      simp only [Option.bind_some]
      rw [shl_eq (Nat.mod_lt _ (by omega)), Option.bind_some, wr_eq (by simpa using hlast)]
      refine ⟨_, rfl, packs_words hfull (by simp) ?_⟩
      intro k j hk hj
      rw [wd_set (by simpa using hlast)]
      split
      · rename_i h
        subst h
        rw [mask_bit (Nat.mod_lt _ (by omega))]
        have hsz := bitmapSize_eq n
        by_cases hin : 32 * (bitmapSize n - 1) + j < n
        · rw [hw2 _ _ hj (hcov' _ _ hin), decide_eq_true hin, decide_eq_true (show j < n % 32 by omega)]
          simp
        · rw [decide_eq_false hin, decide_eq_false (show ¬ j < n % 32 by omega)]
          simp
      · rename_i h
        rw [hwd k hk]
        have hsz := bitmapSize_eq n
        have hin : 32 * k + j < n := by omega
        rw [hw2 _ _ hj (hcov' _ _ hin), decide_eq_true hin]
        simp
    · rw [if_neg hr]
      refine ⟨_, rfl, packs_words hfull (by simp) ?_⟩
      intro k j hk hj
      rw [hwd k hk]
      have hsz := bitmapSize_eq n
      have hin : 32 * k + j < n := by omega
      rw [hw2 _ _ hj (hcov' _ _ hin), decide_eq_true hin]
      simp

/-- The bitmap that is written depends on the presence of the rows only. -/
theorem packs_unique {ws ws' : List Word} {ps : List Bool} (h : Packs ws ps) (h' : Packs ws' ps) : ws = ws' := by
  unfold Packs at h h'
  by_cases hf : ps.all id = true
  · rw [if_pos hf] at h h'
    rw [h, h']
  · rw [if_neg hf] at h h'
    have hl : ws.length = ws'.length := by omega
    apply List.ext_getElem?
    intro k
    by_cases hk : k < ws.length
    · rw [get_wd hk, get_wd (by omega)]
      congr 1
      apply word_ext
      intro j hj
      rw [← bitAt_mk hj, ← bitAt_mk hj, h.2.2, h'.2.2]
    · rw [List.getElem?_eq_none (by omega), List.getElem?_eq_none (by omega)]

/-- The bitmap that is written says the presence of the rows. -/
theorem packs_bits {ws : List Word} {ps : List Bool} (h : Packs ws ps) :
    bitsOf ws ps.length = ps ∧ (ws = [] ∨ 32 * ws.length < ps.length + 32 ∧ ps.length ≤ 32 * ws.length) := by
  unfold Packs at h
  by_cases hf : ps.all id = true
  · rw [if_pos hf] at h
    refine ⟨?_, Or.inl h⟩
    apply List.ext_getElem?
    intro i
    by_cases hi : i < ps.length
    · rw [bitsOf_eq, presOf_get hi, List.getElem?_eq_getElem hi, h]
      have := List.all_eq_true.1 hf ps[i] (List.getElem_mem hi)
      simp at this
      simp [this]
    · rw [List.getElem?_eq_none (by rw [bitsOf_length]; omega), List.getElem?_eq_none (by omega)]
  · rw [if_neg hf] at h
    refine ⟨?_, Or.inr ⟨h.1, h.2.1⟩⟩
    have hne : ws ≠ [] := by
      intro hw
      subst hw
      have : ps = [] := List.length_eq_zero_iff.1 (by have := h.2.1; simp at this; simp [this])
      subst this
      simp at hf
    apply List.ext_getElem?
    intro i
    by_cases hi : i < ps.length
    · rw [bitsOf_eq, presOf_get hi, List.getElem?_eq_getElem hi, decide_eq_false hne, Nat.zero_add, h.2.2,
        List.getD_eq_getElem?_getD, List.getElem?_eq_getElem hi]
      simp
    · rw [List.getElem?_eq_none (by rw [bitsOf_length]; omega), List.getElem?_eq_none (by omega)]

/-! ## scatter -/

theorem scatter_length : ∀ (bs : List Bool) (vs : List α), (scatter bs vs).length = bs.length
  | [], _ => rfl
  | true :: bs, v :: vs => by simp [scatter, scatter_length bs vs]
  | true :: bs, [] => by simp [scatter, scatter_length bs]
  | false :: bs, vs => by simp [scatter, scatter_length bs vs]

theorem scatter_get : ∀ (bs : List Bool) (vs : List α) (k : Nat) (b : Bool), bs[k]? = some b →
    (scatter bs vs)[k]? = some (if b then vs[(bs.take k).count true]? else none)
  | [], _, _, _, h => by simp at h
  | true :: bs, v :: vs, 0, b, h => by simp at h; subst h; simp [scatter]
  | true :: bs, v :: vs, k + 1, b, h => by
    simp at h
    simp [scatter, scatter_get bs vs k b h]
  | true :: bs, [], 0, b, h => by simp at h; subst h; simp [scatter]
  | true :: bs, [], k + 1, b, h => by
    simp at h
    simp [scatter, scatter_get bs [] k b h]
  | false :: bs, vs, 0, b, h => by simp at h; subst h; simp [scatter]
  | false :: bs, vs, k + 1, b, h => by
    simp at h
    simp [scatter, scatter_get bs vs k b h]

theorem scatter_rows : ∀ rows : List (Option α), scatter (rows.map Option.isSome) (rows.filterMap id) = rows
  | [] => rfl
  | some v :: rows => by simp [scatter, scatter_rows rows]
  | none :: rows => by simp [scatter, scatter_rows rows]

theorem count_rows : ∀ rows : List (Option α), (rows.map Option.isSome).count true = (rows.filterMap id).length
  | [] => rfl
  | some v :: rows => by simp [count_rows rows]
  | none :: rows => by simp [count_rows rows]

/-! ## Encoding -/

theorem elems_isSome {a : DArr α} : (elems a).map Option.isSome = presOf a.bitmap a.off a.values.length := by
  unfold elems presOf
  rw [List.map_map]
  apply List.map_congr_left
  intro i hi
  exact isSome_elem (List.mem_range.1 hi)

theorem visits_values (a : DArr α) :
    (visits a).filterMap (fun (_, present, v) => if present then some v else none) = (elems a).filterMap id := by
  have h := congrArg (fun l => l.filterMap (fun x : Nat × Option α => x.2)) (visits_elems a)
  simp only [List.filterMap_map] at h
  unfold elems
  rw [List.filterMap_map]
  exact h

theorem encodeDense_spec {a : DArr α} (hv : a.Valid) (hn : (a.size : Int) + 32 ≤ Edge.maxI64) :
    ∃ ws, encodeDense a = some ⟨some (a.size : Int), ws, (elems a).filterMap id⟩ ∧ Packs ws ((elems a).map Option.isSome) := by
  obtain ⟨ws, h1, h2⟩ := genBitmap_spec (n := a.size) hv.1 hv.2 hn
  refine ⟨ws, ?_, by rw [elems_isSome]; exact h2⟩
  unfold encodeDense
  rw [h1, forEach_visits hv]
  simp only [Option.bind_eq_bind, Option.bind_some]
  rw [← visits_values]

theorem packs_says {ws : List Word} {rows : List (Option α)} (h : Packs ws (rows.map Option.isSome)) :
    (⟨some (rows.length : Int), ws, rows.filterMap id⟩ : DMsg α).Says rows := by
  obtain ⟨h1, h2⟩ := packs_bits h
  rw [List.length_map] at h1 h2
  exact ⟨rows.length, ⟨rfl, h2⟩, by rw [h1, count_rows], by rw [h1, scatter_rows]⟩

/-! ## Decoding -/

theorem header_spec (size : Option Int) (bitmap : List Word) (ho : NoOverflow size bitmap) :
    (∀ n, HeadOk size bitmap n → header size bitmap = some (.ok (n, bitmap))) ∧
    ((¬ ∃ n, HeadOk size bitmap n) → ∃ e, header size bitmap = some (.error e)) := by
  constructor
  · rintro n ⟨rfl, hb⟩
    unfold header
    dsimp only
    rw [if_neg (by omega), Int.toNat_natCast]
    by_cases hbm : bitmap = []
    · simp [hbm]
    · rw [if_pos hbm, bitmapSizeI_eq (ho.resolve_left hbm _ rfl)]
      have := hb.resolve_left hbm
      have h2 : bitmapSize n = bitmap.length := by rw [bitmapSize_eq]; omega
      simp [h2]
  · intro hno
    unfold header
    cases size with
    | none => exact ⟨_, rfl⟩
    | some n =>
      dsimp only
      by_cases hneg : n < 0
      · rw [if_pos hneg]; exact ⟨_, rfl⟩
      · rw [if_neg hneg]
        by_cases hbm : bitmap = []
        · exact absurd ⟨n.toNat, by rw [Int.toNat_of_nonneg (by omega)], Or.inl hbm⟩ hno
        · rw [if_pos hbm, bitmapSizeI_eq (ho.resolve_left hbm _ rfl)]
          simp only [Option.bind_eq_bind, Option.bind_some]
          split
          · rename_i h
            exact absurd ⟨n.toNat, by rw [Int.toNat_of_nonneg (by omega)], Or.inr (by rw [bitmapSize_eq] at h; omega)⟩ hno
          · exact ⟨_, rfl⟩

theorem fillLoop_spec (vals : List α) : ∀ (bs : List Bool) (i j : Nat) (data : List α),
    i + bs.length ≤ data.length → j + bs.count true ≤ vals.length →
    ∃ r, fillLoop vals bs i j data = some r ∧ r.length = data.length ∧ (∀ k, k < i → r[k]? = data[k]?) ∧
      ∀ k, bs[k]? = some true → r[i + k]? = vals[j + (bs.take k).count true]?
  | [], i, j, data, _, _ => ⟨data, rfl, rfl, fun _ _ => rfl, fun k h => by simp at h⟩
  | true :: bs, i, j, data, hi, hj => by
    simp at hi hj
    unfold fillLoop
    have hjl : j < vals.length := by omega
    rw [if_pos rfl, List.getElem?_eq_getElem hjl]
    simp only [Option.bind_eq_bind, Option.bind_some, wrV]
    rw [if_pos (by omega), Option.bind_some]
    obtain ⟨r, h1, h2, h3, h4⟩ := fillLoop_spec vals bs (i + 1) (j + 1) (data.set i vals[j]) (by simp; omega) (by omega)
    refine ⟨r, h1, by simpa using h2, ?_, ?_⟩
    · intro k hk
      rw [h3 k (by omega), List.getElem?_set_ne (by omega)]
    · intro k hk
      cases k with
      | zero =>
        rw [Nat.add_zero, h3 i (by omega), List.getElem?_set_self (by omega)]
        simp [hjl]
      | succ k =>
        simp at hk
        rw [show i + (k + 1) = i + 1 + k by omega, h4 k hk]
        simp
        congr 1; omega
  | false :: bs, i, j, data, hi, hj => by
    simp at hi hj
    unfold fillLoop
    rw [if_neg (by simp)]
    obtain ⟨r, h1, h2, h3, h4⟩ := fillLoop_spec vals bs (i + 1) j data (by omega) (by omega)
    refine ⟨r, h1, h2, fun k hk => h3 k (by omega), ?_⟩
    intro k hk
    cases k with
    | zero => simp at hk
    | succ k =>
      simp at hk
      rw [show i + (k + 1) = i + 1 + k by omega, h4 k hk]
      simp

theorem headOk_cover {size : Option Int} {bitmap : List Word} {n : Nat} (h : HeadOk size bitmap n) :
    bitmap = [] ∨ 0 + n ≤ 32 * bitmap.length := by
  rcases h.2 with h | h
  · exact Or.inl h
  · right; omega

theorem headOk_valid {size : Option Int} {bitmap : List Word} {values : List α} (h : HeadOk size bitmap values.length) :
    (⟨values, bitmap, 0⟩ : DArr α).Valid := by
  refine ⟨by dsimp only; omega, ?_⟩
  rcases h.2 with h | h
  · exact Or.inl h
  · right
    show bitmap.length = bitmapSize (values.length + 0)
    rw [bitmapSize_eq]; omega

theorem decodeDense_ok (mem : Nat → α) {m : DMsg α} {rows : List (Option α)} (ho : NoOverflow m.size m.bitmap) (h : m.Says rows) :
    ∃ a, decodeDense mem m = some (.ok a) ∧ a.Valid ∧ elems a = rows := by
  obtain ⟨n, hh, hc, rfl⟩ := h
  have hcov := headOk_cover hh
  unfold decodeDense
  rw [(header_spec _ _ ho).1 n hh]
  simp only [Option.bind_eq_bind, Option.bind_some]
  rw [countBits_pres hcov, ← bitsOf_eq, Option.bind_some, if_neg (by omega), iterate_spec hcov]
  simp only [Option.bind_some]
  have hit : (List.range n).map (fun i => decide (m.bitmap = []) || bitAt m.bitmap (0 + i)) = bitsOf m.bitmap n := by
    simp [bitsOf]
  rw [hit]
  obtain ⟨r, h1, h2, h3, h4⟩ := fillLoop_spec m.values (bitsOf m.bitmap n) 0 0 ((List.range n).map mem)
    (by simp [bitsOf_length]) (by omega)
  rw [h1, Option.bind_some]
  simp at h2
  refine ⟨_, rfl, headOk_valid (h2 ▸ hh), ?_⟩
  apply List.ext_getElem?
  intro k
  by_cases hk : k < n
  · have hb : (bitsOf m.bitmap n)[k]? = some (decide (m.bitmap = []) || bitAt m.bitmap k) := by
      rw [bitsOf_eq, presOf_get hk, Nat.zero_add]
    rw [scatter_get _ _ _ _ hb]
    unfold elems
    rw [List.getElem?_map, List.getElem?_range (by dsimp only; omega), Option.map_some]
    congr 1
    rw [elem_eq]
    unfold pres
    dsimp only
    rw [Nat.zero_add]
    cases hp : (decide (m.bitmap = []) || bitAt m.bitmap k) with
    | true =>
      rw [hp] at hb
      have := h4 k hb
      rw [Nat.zero_add, Nat.zero_add] at this
      rw [if_pos rfl, if_pos rfl, this]
    | false => rfl
  · rw [List.getElem?_eq_none (by rw [elems_length]; dsimp only; omega),
      List.getElem?_eq_none (by rw [scatter_length, bitsOf_length]; omega)]

theorem decodeDense_error (mem : Nat → α) {m : DMsg α} (ho : NoOverflow m.size m.bitmap) (h : ¬ ∃ rows, m.Says rows) :
    ∃ e, decodeDense mem m = some (.error e) := by
  unfold decodeDense
  by_cases hh : ∃ n, HeadOk m.size m.bitmap n
  · obtain ⟨n, hh⟩ := hh
    have hcov := headOk_cover hh
    rw [(header_spec _ _ ho).1 n hh]
    simp only [Option.bind_eq_bind, Option.bind_some]
    rw [countBits_pres hcov, ← bitsOf_eq, Option.bind_some]
    by_cases hc : (bitsOf m.bitmap n).count true = m.values.length
    · exact absurd ⟨_, n, hh, hc, rfl⟩ h
    · rw [if_pos hc]; exact ⟨_, rfl⟩
  · obtain ⟨e, he⟩ := (header_spec _ _ ho).2 hh
    rw [he]
    exact ⟨e, rfl⟩

end Verif.Codec
