import Verif.Util.BitsModel
import Verif.Util.BitsSpec

/-! Helper lemmas for the bitmap algorithms. -/

namespace Verif.Bits

theorem get_wd {ws : List Word} {k : Nat} (h : k < ws.length) : ws[k]? = some (wd ws k) := by
  simp [wd, h]

theorem wd_set {ws : List Word} {i k : Nat} {v : Word} (h : i < ws.length) :
    wd (ws.set i v) k = if k = i then v else wd ws k := by
  simp only [wd, List.getElem?_set]
  by_cases hk : i = k
  · subst hk; simp [h]
  · simp [hk, Ne.symm hk]

theorem wr_eq {ws : List Word} {i : Nat} {v : Word} (h : i < ws.length) :
    wr ws i v = some (ws.set i v) := by simp [wr, h]

theorem shl_eq {a : Word} {k : Nat} (h : k < 32) : shl a k = some (a <<< k) := by simp [shl, h]
theorem shr_eq {a : Word} {k : Nat} (h : k < 32) : shr a k = some (a >>> k) := by simp [shr, h]

theorem bit_shl {a : Word} {k j : Nat} (hj : j < 32) :
    (a <<< k).getLsbD j = (decide (k ≤ j) && a.getLsbD (j - k)) := by
  simp only [BitVec.getLsbD_shiftLeft]
  by_cases h : j < k
  · simp [h, Nat.not_le.2 h]
  · simp [h, Nat.not_lt.1 h, hj]

theorem bit_shr {a : Word} {k j : Nat} :
    (a >>> k).getLsbD j = a.getLsbD (k + j) := by simp

theorem bit_ones {j : Nat} : (~~~(0 : Word)).getLsbD j = decide (j < 32) := by
  rw [BitVec.getLsbD_not]; simp

theorem bit_ge {a : Word} {j : Nat} (h : 32 ≤ j) : a.getLsbD j = false :=
  BitVec.getLsbD_of_ge a j h

theorem bit_shl_ones {k j : Nat} (hj : j < 32) :
    ((~~~(0 : Word)) <<< k).getLsbD j = decide (k ≤ j) := by
  rw [bit_shl hj, bit_ones]
  by_cases h : k ≤ j
  · simp only [h, decide_true, Bool.true_and, decide_eq_true_eq]; omega
  · simp [h]

theorem bit_shr_ones {k j : Nat} :
    ((~~~(0 : Word)) >>> k).getLsbD j = decide (j + k < 32) := by
  rw [bit_shr, bit_ones, Nat.add_comm]

/-- Splitting a bit index. -/
theorem bitAt_mk {ws : List Word} {k j : Nat} (hj : j < 32) :
    bitAt ws (32 * k + j) = (wd ws k).getLsbD j := by
  unfold bitAt
  have h1 : (32 * k + j) / 32 = k := by omega
  have h2 : (32 * k + j) % 32 = j := by omega
  rw [h1, h2]

/-- To compare all bits it is enough to look at words. -/
theorem forall_bit {P : Nat → Prop} (h : ∀ k j, j < 32 → P (32 * k + j)) : ∀ i, P i := by
  intro i
  have := h (i / 32) (i % 32) (Nat.mod_lt _ (by omega))
  rwa [Nat.div_add_mod] at this

theorem forLoop_set {body : Nat → List Word → Option (List Word)} {g : Nat → Word → Word}
    {base len : Nat} : ∀ (n lo : Nat) (l : List Word), l.length = len →
    (∀ i l, lo ≤ i → i < lo + n → l.length = len →
      body i l = some (l.set (base + i) (g i (wd l (base + i))))) →
    base + lo + n ≤ len →
    ∃ l', forLoop body lo n l = some l' ∧ l'.length = len ∧
      ∀ k, wd l' k =
        if base + lo ≤ k ∧ k < base + lo + n then g (k - base) (wd l k) else wd l k := by
  intro n
  induction n with
  | zero =>
    intro lo l hl hb hlen
    refine ⟨l, rfl, hl, ?_⟩
    intro k
    rw [if_neg (by omega)]
  | succ n ih =>
    intro lo l hl hb hlen
    rw [forLoop, hb lo l (Nat.le_refl _) (by omega) hl]
    obtain ⟨l', h1, h2, h3⟩ := ih (lo + 1) (l.set (base + lo) (g lo (wd l (base + lo))))
      (by simpa using hl) (fun i l' hi1 hi2 hl' => hb i l' (by omega) (by omega) hl') (by omega)
    refine ⟨l', h1, h2, ?_⟩
    intro k
    rw [h3 k, wd_set (by omega)]
    by_cases hk : k = base + lo
    · subst hk
      rw [if_neg (by omega), if_pos rfl, if_pos (by omega)]
      congr 1; omega
    · rw [if_neg hk]
      by_cases hk2 : base + (lo + 1) ≤ k ∧ k < base + (lo + 1) + n
      · rw [if_pos hk2, if_pos (by omega)]
      · rw [if_neg hk2, if_neg (by omega)]

theorem forRange_set {body : Nat → List Word → Option (List Word)} {g : Nat → Word → Word}
    {base lo hi : Nat} {l : List Word}
    (hb : ∀ i l', lo ≤ i → i < hi → l'.length = l.length →
      body i l' = some (l'.set (base + i) (g i (wd l' (base + i)))))
    (hlen : base + hi ≤ l.length) :
    ∃ l', forRange lo hi body l = some l' ∧ l'.length = l.length ∧
      ∀ k, wd l' k =
        if base + lo ≤ k ∧ k < base + hi then g (k - base) (wd l k) else wd l k := by
  by_cases hlh : lo ≤ hi
  · obtain ⟨l', h1, h2, h3⟩ := forLoop_set (g := g) (base := base) (hi - lo) lo l rfl
      (fun i l' h1 h2 h3 => hb i l' h1 (by omega) h3) (by omega)
    refine ⟨l', h1, h2, ?_⟩
    intro k
    rw [h3 k]
    by_cases hk : base + lo ≤ k ∧ k < base + hi
    · rw [if_pos hk, if_pos (by omega)]
    · rw [if_neg hk, if_neg (by omega)]
  · refine ⟨l, ?_, rfl, ?_⟩
    · unfold forRange
      rw [show hi - lo = 0 by omega]; rfl
    · intro k; rw [if_neg (by omega)]

/-! ## bits.h -/

theorem getBit_eq {ws : List Word} {i : Nat} (h : i < 32 * ws.length) :
    getBit ws i = some (bitAt ws i) := by
  unfold getBit bitAt
  rw [get_wd (by omega)]; rfl

theorem bit_one {j : Nat} : ((1 : Word)).getLsbD j = decide (j = 0) := by
  cases j <;> simp

theorem setBit_spec {ws : List Word} {i : Nat} (h : i < 32 * ws.length) :
    ∃ ws', setBit ws i = some ws' ∧ ws'.length = ws.length ∧
      ∀ j, bitAt ws' j = (bitAt ws j || decide (j = i)) := by
  unfold setBit
  rw [get_wd (by omega), shl_eq (by omega)]
  simp only [Option.bind_eq_bind, Option.bind_some]
  rw [wr_eq (by omega)]
  refine ⟨_, rfl, by simp, forall_bit ?_⟩
  intro k j hj
  rw [bitAt_mk hj, bitAt_mk hj, wd_set (by omega)]
  by_cases hk : k = i / 32
  · rw [if_pos hk]
    subst hk
    rw [BitVec.getLsbD_or, bit_shl hj, bit_one]
    congr 1
    rw [← Bool.decide_and, decide_eq_decide]; omega
  · rw [if_neg hk]
    rw [decide_eq_false (by omega)]; simp

theorem setBitsInRange_spec {ws : List Word} {start stop : Nat} (h1 : start ≤ stop)
    (h2 : stop ≤ 32 * ws.length) :
    ∃ ws', setBitsInRange ws start stop = some ws' ∧ ws'.length = ws.length ∧
      ∀ j, bitAt ws' j = (bitAt ws j || decide (start ≤ j ∧ j < stop)) := by
  unfold setBitsInRange
  by_cases he : start = stop
  · rw [if_pos he]
    refine ⟨ws, rfl, rfl, ?_⟩
    intro j; rw [decide_eq_false (by omega)]; simp
  · rw [if_neg he]
    dsimp only
    rw [shl_eq (k := start % 32) (by omega), shr_eq (k := ((stop - 1) / 32 + 1) * 32 - stop) (by omega),
      get_wd (ws := ws) (k := start / 32) (by omega)]
    simp only [Option.bind_eq_bind, Option.bind_some]
    by_cases hw : (stop - 1) / 32 = start / 32
    · rw [if_pos hw, wr_eq (by omega)]
      refine ⟨_, rfl, by simp, forall_bit ?_⟩
      intro k j hj
      rw [bitAt_mk hj, bitAt_mk hj, wd_set (by omega)]
      by_cases hk : k = start / 32
      · rw [if_pos hk]
        subst hk
        rw [BitVec.getLsbD_or, BitVec.getLsbD_and, bit_shl_ones hj, bit_shr_ones]
        congr 1
        rw [← Bool.decide_and, decide_eq_decide]; omega
      · rw [if_neg hk, decide_eq_false (by omega)]; simp
    · rw [if_neg hw, wr_eq (by omega)]
      simp only [Option.bind_some]
      obtain ⟨l, e1, e2, e3⟩ := forRange_set (base := 0) (g := fun _ _ => ~~~(0 : Word))
        (lo := start / 32 + 1) (hi := (stop - 1) / 32)
        (l := ws.set (start / 32) (wd ws (start / 32) ||| ~~~(0 : Word) <<< (start % 32)))
        (body := fun i ws => wr ws i (~~~0))
        (fun i l' _ _ hl => by rw [Nat.zero_add]; exact wr_eq (by simp at hl; omega))
        (by simp; omega)
      rw [e1]
      simp only [Option.bind_some]
      simp only [List.length_set] at e2
      rw [get_wd (by omega)]
      simp only [Option.bind_some]
      rw [wr_eq (by omega)]
      refine ⟨_, rfl, by simp [e2], forall_bit ?_⟩
      intro k j hj
      rw [bitAt_mk hj, bitAt_mk hj, wd_set (by omega), e3, e3, wd_set (by omega), wd_set (by omega)]
      rw [if_neg (c := 0 + (start / 32 + 1) ≤ (stop - 1) / 32 ∧ _) (by omega),
        if_neg (c := (stop - 1) / 32 = start / 32) (by omega)]
      by_cases hk : k = (stop - 1) / 32
      · rw [if_pos hk, ← hk, BitVec.getLsbD_or, bit_shr_ones]
        congr 1
        rw [decide_eq_decide]; omega
      · rw [if_neg hk]
        by_cases hk2 : k = start / 32
        · rw [if_neg (by omega), if_pos hk2, ← hk2, BitVec.getLsbD_or, bit_shl_ones hj]
          congr 1
          rw [decide_eq_decide]; omega
        · rw [if_neg hk2]
          by_cases hk3 : 0 + (start / 32 + 1) ≤ k ∧ k < 0 + (stop - 1) / 32
          · rw [if_pos hk3, bit_ones, decide_eq_true hj, decide_eq_true (by omega)]; simp
          · rw [if_neg hk3, decide_eq_false (by omega)]; simp

theorem countRange_split {b : Nat → Bool} {x y z : Nat} (h1 : x ≤ y) (h2 : y ≤ z) :
    countRange b x z = countRange b x y + countRange b y z := by
  unfold countRange
  have : z - x = (y - x) + (z - y) := by omega
  rw [this, ← List.range'_append_1, List.countP_append, show x + (y - x) = y by omega]

theorem countRange_congr {b c : Nat → Bool} {x y : Nat} (h : ∀ i, x ≤ i → i < y → b i = c i) :
    countRange b x y = countRange c x y := by
  unfold countRange
  apply List.countP_congr
  intro i hi
  rw [List.mem_range'_1] at hi
  rw [h i (by omega) (by omega)]

theorem countRange_zero {b : Nat → Bool} {x y : Nat} (h : ∀ i, x ≤ i → i < y → b i = false) :
    countRange b x y = 0 := by
  unfold countRange
  rw [List.countP_eq_zero]
  intro i hi
  rw [List.mem_range'_1] at hi
  rw [h i (by omega) (by omega)]; simp

theorem countRange_shift {b : Nat → Bool} {x n : Nat} :
    countRange b x (x + n) = (List.range n).countP (fun j => b (x + j)) := by
  unfold countRange
  rw [show x + n - x = n by omega, List.range'_eq_map_range, List.countP_map]
  rfl

theorem countOnes_eq {ws : List Word} {k : Nat} :
    countOnes (wd ws k) = countRange (bitAt ws) (32 * k) (32 * k + 32) := by
  rw [countRange_shift]
  unfold countOnes
  apply List.countP_congr
  intro j hj
  rw [bitAt_mk (List.mem_range.1 hj)]

/-- Counting a word whose bits agree with `b` on a range and vanish elsewhere. -/
theorem countOnes_masked {w : Word} {b : Nat → Bool} {k x y : Nat} (h1 : 32 * k ≤ x) (h2 : x ≤ y)
    (h3 : y ≤ 32 * k + 32)
    (h : ∀ j, j < 32 → w.getLsbD j = (decide (x ≤ 32 * k + j ∧ 32 * k + j < y) && b (32 * k + j))) :
    countOnes w = countRange b x y := by
  have e : countOnes w = countRange (fun i => decide (x ≤ i ∧ i < y) && b i) (32 * k) (32 * k + 32) := by
    rw [countRange_shift]
    unfold countOnes
    apply List.countP_congr
    intro j hj
    rw [h j (List.mem_range.1 hj)]
  rw [e, countRange_split h1 (by omega), countRange_split h2 h3]
  rw [countRange_zero (x := 32 * k), countRange_zero (x := y),
    countRange_congr (c := b) (x := x)]
  · omega
  · intro i h1 h2; simp [h1, h2]
  · intro i h1 h2; rw [decide_eq_false (by omega)]; simp
  · intro i h1 h2; rw [decide_eq_false (by omega)]; simp

theorem sumLoop_spec {ws : List Word} : ∀ (n lo s : Nat), lo + n ≤ ws.length →
    forLoop (fun i sum => do some (sum + countOnes (← ws[i]?))) lo n s =
      some (s + countRange (bitAt ws) (32 * lo) (32 * (lo + n))) := by
  intro n
  induction n with
  | zero => intro lo s h; simp [forLoop, countRange]
  | succ n ih =>
    intro lo s h
    rw [forLoop, get_wd (by omega)]
    simp only [Option.bind_eq_bind, Option.bind_some]
    have := ih (lo + 1) (s + countOnes (wd ws lo)) (by omega)
    simp only [Option.bind_eq_bind] at this
    rw [this, countOnes_eq]
    rw [countRange_split (x := 32 * lo) (y := 32 * lo + 32) (z := 32 * (lo + (n + 1)))
      (by omega) (by omega)]
    rw [show 32 * (lo + 1) = 32 * lo + 32 by omega,
      show 32 * (lo + 1 + n) = 32 * (lo + (n + 1)) by omega, Nat.add_assoc]

theorem getOnesCountInRange_spec {ws : List Word} {start stop : Nat} (h1 : start ≤ stop)
    (h2 : stop ≤ 32 * ws.length) :
    getOnesCountInRange ws start stop = some (countRange (bitAt ws) start stop) := by
  unfold getOnesCountInRange
  by_cases he : start = stop
  · rw [if_pos he]; simp [countRange, he]
  · rw [if_neg he]
    dsimp only
    rw [shl_eq (k := start % 32) (by omega), shr_eq (k := ((stop - 1) / 32 + 1) * 32 - stop) (by omega),
      get_wd (ws := ws) (k := start / 32) (by omega)]
    simp only [Option.bind_eq_bind, Option.bind_some]
    by_cases hw : (stop - 1) / 32 = start / 32
    · rw [if_pos hw]
      congr 1
      apply countOnes_masked (k := start / 32) (by omega) h1 (by omega)
      intro j hj
      rw [bitAt_mk hj, BitVec.getLsbD_and, BitVec.getLsbD_and, bit_shl_ones hj, bit_shr_ones,
        Bool.and_comm, ← Bool.and_assoc, Bool.and_right_comm, ← Bool.decide_and]
      congr 1
      rw [decide_eq_decide]; omega
    · rw [if_neg hw]
      have := sumLoop_spec (ws := ws) ((stop - 1) / 32 - (start / 32 + 1)) (start / 32 + 1)
        (countOnes (wd ws (start / 32) &&& (~~~(0 : Word)) <<< (start % 32))) (by omega)
      simp only [Option.bind_eq_bind] at this
      unfold forRange
      rw [this]
      simp only [Option.bind_some]
      rw [get_wd (by omega)]
      simp only [Option.bind_some]
      congr 1
      rw [countRange_split (x := start) (y := 32 * (start / 32 + 1)) (z := stop)
        (by omega) (by omega)]
      rw [countRange_split (x := 32 * (start / 32 + 1)) (y := 32 * ((stop - 1) / 32)) (z := stop)
        (by omega) (by omega)]
      rw [show start / 32 + 1 + ((stop - 1) / 32 - (start / 32 + 1)) = (stop - 1) / 32 by omega,
        Nat.add_assoc]
      congr 1
      · apply countOnes_masked (k := start / 32) (by omega) (by omega) (by omega)
        intro j hj
        rw [bitAt_mk hj, BitVec.getLsbD_and, bit_shl_ones hj, Bool.and_comm]
        congr 1
        rw [decide_eq_decide]; omega
      · congr 1
        apply countOnes_masked (k := (stop - 1) / 32) (by omega) (by omega) (by omega)
        intro j hj
        rw [bitAt_mk hj, BitVec.getLsbD_and, bit_shr_ones, Bool.and_comm]
        congr 1
        rw [decide_eq_decide]; omega

theorem lsb_spec {w : Word} (h : w ≠ 0) : ∃ j, findLSBSetNonZero w = some j ∧ j < 32 ∧
    w.getLsbD j = true ∧ ∀ i, i < j → w.getLsbD i = false := by
  unfold findLSBSetNonZero
  cases hf : (List.range 32).find? (fun i => w.getLsbD i) with
  | none =>
    exfalso; apply h
    rw [List.find?_eq_none] at hf
    apply BitVec.eq_of_getLsbD_eq
    intro i hi
    have := hf i (List.mem_range.2 hi)
    simpa using this
  | some j =>
    refine ⟨j, rfl, List.mem_range.1 (List.mem_of_find?_eq_some hf), ?_, ?_⟩
    · simpa using List.find?_some hf
    · rw [List.find?_range_eq_some] at hf
      intro i hi
      simpa using hf.2.2 i hi

theorem bit_eq_zero {w : Word} (h : w = 0) (j : Nat) : w.getLsbD j = false := by
  subst h; simp

theorem findNextLoop_spec {ws : List Word} {lo last : Nat} (hlast : last < ws.length) :
    ∀ (fuel idx : Nat) (w : Word), last + 1 - idx ≤ fuel → idx ≤ last → lo / 32 ≤ idx →
      (∀ i, lo ≤ i → i < 32 * idx → bitAt ws i = false) →
      (∀ j, j < 32 → w.getLsbD j = (decide (lo ≤ 32 * idx + j) && bitAt ws (32 * idx + j))) →
      (∃ r, findNextLoop ws last fuel idx w = some (.inl r) ∧ lo ≤ r ∧ r < 32 * last ∧
        bitAt ws r = true ∧ ∀ i, lo ≤ i → i < r → bitAt ws i = false) ∨
      (∃ w', findNextLoop ws last fuel idx w = some (.inr (last, w')) ∧
        (∀ i, lo ≤ i → i < 32 * last → bitAt ws i = false) ∧
        (∀ j, j < 32 → w'.getLsbD j = (decide (lo ≤ 32 * last + j) && bitAt ws (32 * last + j)))) := by
  intro fuel
  induction fuel with
  | zero => intro idx w h1 h2; omega
  | succ fuel ih =>
    intro idx w h1 h2 h3 h4 h5
    rw [findNextLoop]
    by_cases hlt : idx < last
    · rw [if_pos hlt]
      by_cases hw : w = 0
      · rw [if_neg (by simpa using hw), get_wd (by omega)]
        simp only [Option.bind_eq_bind, Option.bind_some]
        apply ih (idx + 1) _ (by omega) (by omega) (by omega)
        · intro i hi1 hi2
          by_cases hi : i < 32 * idx
          · exact h4 i hi1 hi
          · have := h5 (i - 32 * idx) (by omega)
            rw [bit_eq_zero hw, show 32 * idx + (i - 32 * idx) = i by omega, decide_eq_true hi1] at this
            simpa using this.symm
        · intro j hj
          rw [bitAt_mk hj, decide_eq_true (by omega)]; simp
      · rw [if_pos (by simpa using hw)]
        obtain ⟨j, e1, e2, e3, e4⟩ := lsb_spec hw
        rw [e1]
        left
        have h5j := h5 j e2
        rw [e3] at h5j
        have h5j := h5j.symm
        rw [Bool.and_eq_true] at h5j
        refine ⟨idx * 32 + j, rfl, by have := h5j.1; simp at this; omega, by omega, ?_, ?_⟩
        · rw [show idx * 32 + j = 32 * idx + j by omega]; exact h5j.2
        · intro i hi1 hi2
          by_cases hi : i < 32 * idx
          · exact h4 i hi1 hi
          · have := h5 (i - 32 * idx) (by omega)
            rw [e4 _ (by omega), show 32 * idx + (i - 32 * idx) = i by omega, decide_eq_true hi1] at this
            simpa using this.symm
    · rw [if_neg hlt]
      right
      have : idx = last := by omega
      subst this
      exact ⟨w, rfl, h4, h5⟩

theorem and_one_shl {w : Word} {k : Nat} (hk : k < 32) :
    (w &&& (1 : Word) <<< k ≠ 0) ↔ w.getLsbD k = true := by
  constructor
  · intro h
    cases hb : w.getLsbD k with
    | true => rfl
    | false =>
      exfalso; apply h
      apply BitVec.eq_of_getLsbD_eq
      intro i hi
      rw [BitVec.getLsbD_and, bit_shl hi, bit_one]
      by_cases hik : i = k
      · subst hik; simp [hb]
      · have : (decide (k ≤ i) && decide (i - k = 0)) = false := by
          rw [← Bool.decide_and]; apply decide_eq_false; omega
        rw [this]; simp
  · intro h hz
    have := bit_eq_zero hz k
    rw [BitVec.getLsbD_and, bit_shl hk, bit_one, h] at this
    simp at this

theorem findNext_spec {ws : List Word} {lo limit : Nat} (hlim : limit ≤ 32 * ws.length) :
    ∃ r, findNextSetBitInVector ws lo limit = some r ∧ IsNextSet (bitAt ws) lo limit r := by
  unfold findNextSetBitInVector
  by_cases hge : lo ≥ limit
  · rw [if_pos hge]
    exact ⟨limit, rfl, Or.inr ⟨rfl, fun i h1 h2 => by omega⟩⟩
  · rw [if_neg hge]
    dsimp only
    rw [get_wd (ws := ws) (k := lo / 32) (by omega), shl_eq (a := 1) (k := lo % 32) (by omega)]
    simp only [Option.bind_eq_bind, Option.bind_some]
    by_cases hfirst : wd ws (lo / 32) &&& (1 : Word) <<< (lo % 32) ≠ 0
    · rw [if_pos hfirst]
      refine ⟨lo, rfl, Or.inl ⟨Nat.le_refl _, by omega, ?_, fun i h1 h2 => by omega⟩⟩
      exact (and_one_shl (by omega)).1 hfirst
    · rw [if_neg hfirst, shl_eq (by omega)]
      simp only [Option.bind_some]
      rcases findNextLoop_spec (ws := ws) (lo := lo) (last := (limit - 1) / 32) (by omega)
        ((limit - 1) / 32 + 1 - lo / 32) (lo / 32) (wd ws (lo / 32) &&& (~~~(0 : Word)) <<< (lo % 32))
        (Nat.le_refl _) (by omega) (Nat.le_refl _) (by intro i h1 h2; omega)
        (by
          intro j hj
          rw [bitAt_mk hj, BitVec.getLsbD_and, bit_shl_ones hj, Bool.and_comm]
          congr 1
          rw [decide_eq_decide]; omega) with ⟨r, e1, e2, e3, e4, e5⟩ | ⟨w, e1, e2, e3⟩
      · rw [e1]
        exact ⟨r, rfl, Or.inl ⟨e2, by omega, e4, e5⟩⟩
      · rw [e1]
        simp only [Option.bind_some]
        rw [shl_eq (by omega)]
        simp only [Option.bind_some]
        have hm : ∀ j, j < 32 →
            (~~~((~~~(0 : Word) - 1) <<< ((limit - 1) % 32))).getLsbD j =
              decide (j ≤ (limit - 1) % 32) := by
          intro j hj
          have : (~~~(0 : Word) - 1) = ~~~(1 : Word) := by decide
          rw [this, BitVec.getLsbD_not, bit_shl hj, BitVec.getLsbD_not, bit_one, decide_eq_true hj,
            decide_eq_true (show j - (limit - 1) % 32 < 32 by omega)]
          simp only [Bool.true_and]
          rw [← decide_not, ← Bool.decide_and, ← decide_not, decide_eq_decide]
          omega
        by_cases hz : w &&& ~~~((~~~(0 : Word) - 1) <<< ((limit - 1) % 32)) = 0
        · rw [if_neg (by simpa using hz)]
          refine ⟨limit, rfl, Or.inr ⟨rfl, ?_⟩⟩
          intro i h1 h2
          by_cases hi : i < 32 * ((limit - 1) / 32)
          · exact e2 i h1 hi
          · have h4 := bit_eq_zero hz (i - 32 * ((limit - 1) / 32))
            rw [BitVec.getLsbD_and, hm _ (by omega), e3 _ (by omega), decide_eq_true (by omega),
              decide_eq_true (by omega),
              show 32 * ((limit - 1) / 32) + (i - 32 * ((limit - 1) / 32)) = i by omega] at h4
            simpa using h4
        · rw [if_pos (by simpa using hz)]
          obtain ⟨j, f1, f2, f3, f4⟩ := lsb_spec hz
          rw [f1]
          rw [BitVec.getLsbD_and, hm _ f2, e3 _ f2, Bool.and_eq_true, Bool.and_eq_true] at f3
          have g1 := f3.1.1; have g2 := f3.2
          simp only [decide_eq_true_eq] at g1 g2
          refine ⟨_, rfl, Or.inl ⟨by omega, by omega, ?_, ?_⟩⟩
          · rw [show (limit - 1) / 32 * 32 + j = 32 * ((limit - 1) / 32) + j by omega]
            exact f3.1.2
          · intro i h1 h2
            by_cases hi : i < 32 * ((limit - 1) / 32)
            · exact e2 i h1 hi
            · have h4 := f4 (i - 32 * ((limit - 1) / 32)) (by omega)
              rw [BitVec.getLsbD_and, hm _ (by omega), e3 _ (by omega), decide_eq_true (by omega),
                decide_eq_true (by omega),
                show 32 * ((limit - 1) / 32) + (i - 32 * ((limit - 1) / 32)) = i by omega] at h4
              simpa using h4

end Verif.Bits
