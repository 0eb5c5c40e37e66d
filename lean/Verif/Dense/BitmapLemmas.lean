import Verif.Dense.BitmapModel
import Verif.Util.BitsAlgoLemmas

/-! Helper lemmas for the bitmap model. -/

namespace Verif.Bitmap
open Verif.Bits

theorem bitmapSize_eq (n : Nat) : bitmapSize n = (n + 31) / 32 := rfl

theorem bit_full {j : Nat} : fullWord.getLsbD j = decide (j < 32) := bit_ones

theorem wd_ge {ws : List Word} {k : Nat} (h : ws.length ≤ k) : wd ws k = 0 := by
  simp [wd, h]

theorem bitAt_ge {ws : List Word} {i : Nat} (h : 32 * ws.length ≤ i) : bitAt ws i = false := by
  unfold bitAt; rw [wd_ge (by omega)]; simp

theorem word_ext {a b : Word} (h : ∀ j, j < 32 → a.getLsbD j = b.getLsbD j) : a = b :=
  BitVec.eq_of_getLsbD_eq (fun i hi => h i hi)

/-! ### AreAllBits* -/

theorem allSetLoop_spec {bm : List Word} : ∀ (fuel pos n : Nat), n < fuel →
    32 * pos + n ≤ 32 * bm.length →
    ∃ b, allSetLoop bm fuel pos n = some b ∧
      (b = true ↔ ∀ i, 32 * pos ≤ i → i < 32 * pos + n → bitAt bm i = true) := by
  intro fuel
  induction fuel with
  | zero => intro pos n h; omega
  | succ fuel ih =>
    intro pos n h1 h2
    rw [allSetLoop]
    by_cases hn : n ≥ 32
    · rw [if_pos hn, get_wd (by omega)]
      simp only [Option.bind_eq_bind, Option.bind_some]
      by_cases hw : wd bm pos = fullWord
      · rw [if_neg (by simpa using hw)]
        obtain ⟨b, e, hb⟩ := ih (pos + 1) (n - 32) (by omega) (by omega)
        refine ⟨b, e, hb.trans ?_⟩
        constructor
        · intro H i hi1 hi2
          by_cases hi : 32 * (pos + 1) ≤ i
          · exact H i hi (by omega)
          · rw [show i = 32 * pos + (i - 32 * pos) by omega, bitAt_mk (by omega), hw, bit_full]
            simp; omega
        · intro H i hi1 hi2; exact H i (by omega) (by omega)
      · rw [if_pos (by simpa using hw)]
        refine ⟨false, rfl, ?_⟩
        simp only [Bool.false_eq_true, false_iff]
        intro H; apply hw
        apply word_ext
        intro j hj
        rw [← bitAt_mk hj, H _ (by omega) (by omega), bit_full]; simp [hj]
    · rw [if_neg hn]
      by_cases h0 : n > 0
      · rw [if_pos h0, shr_eq (by omega), get_wd (by omega)]
        simp only [Option.bind_eq_bind, Option.bind_some]
        refine ⟨_, rfl, ?_⟩
        rw [decide_eq_true_eq]
        have hm : ∀ j, (fullWord >>> (32 - n)).getLsbD j = decide (j < n) := by
          intro j
          rw [show fullWord = ~~~(0 : Word) from rfl, bit_shr_ones, decide_eq_decide]; omega
        constructor
        · intro H i hi1 hi2
          have hj := congrArg (fun w => BitVec.getLsbD w (i - 32 * pos)) H
          rw [BitVec.getLsbD_and, hm, decide_eq_true (by omega), Bool.and_true,
            ← bitAt_mk (by omega), show 32 * pos + (i - 32 * pos) = i by omega] at hj
          exact hj
        · intro H
          apply word_ext
          intro j hj
          rw [BitVec.getLsbD_and, hm]
          by_cases hjn : j < n
          · rw [← bitAt_mk hj, H _ (by omega) (by omega)]; simp
          · simp [hjn]
      · rw [if_neg h0]
        exact ⟨true, rfl, by simp; intro i h1 h2; omega⟩

theorem allUnsetLoop_spec {bm : List Word} : ∀ (n pos : Nat), pos + n ≤ bm.length →
    ∃ b, allUnsetLoop bm pos n = some b ∧
      (b = true ↔ ∀ i, 32 * pos ≤ i → i < 32 * (pos + n) → bitAt bm i = false) := by
  intro n
  induction n with
  | zero => intro pos h; exact ⟨true, rfl, by simp; intro i h1 h2; omega⟩
  | succ n ih =>
    intro pos h
    rw [allUnsetLoop, get_wd (by omega)]
    simp only [Option.bind_eq_bind, Option.bind_some]
    by_cases hw : wd bm pos = 0
    · rw [if_neg (by simpa using hw)]
      obtain ⟨b, e, hb⟩ := ih (pos + 1) (by omega)
      refine ⟨b, e, hb.trans ?_⟩
      constructor
      · intro H i hi1 hi2
        by_cases hi : 32 * (pos + 1) ≤ i
        · exact H i hi (by omega)
        · rw [show i = 32 * pos + (i - 32 * pos) by omega, bitAt_mk (by omega), hw]; simp
      · intro H i hi1 hi2; exact H i (by omega) (by omega)
    · rw [if_pos (by simpa using hw)]
      refine ⟨false, rfl, ?_⟩
      simp only [Bool.false_eq_true, false_iff]
      intro H; apply hw
      apply word_ext
      intro j hj
      rw [← bitAt_mk hj, H _ (by omega) (by omega)]; simp

theorem areAllBitsUnset_spec {bm : List Word} {n : Nat} (h : n ≤ 32 * bm.length) :
    ∃ b, areAllBitsUnset bm n = some b ∧ (b = true ↔ ∀ i, i < n → bitAt bm i = false) := by
  unfold areAllBitsUnset
  obtain ⟨b, e, hb⟩ := allUnsetLoop_spec (bm := bm) (n / 32) 0 (by omega)
  rw [e]
  simp only [Option.bind_eq_bind, Option.bind_some]
  cases b with
  | false =>
    refine ⟨false, rfl, ?_⟩
    simp only [Bool.false_eq_true, false_iff] at hb ⊢
    intro H; apply hb; intro i _ hi; exact H i (by omega)
  | true =>
    simp only [true_iff] at hb
    simp only [if_true]
    by_cases hs : n % 32 = 0
    · rw [if_pos hs]
      refine ⟨true, rfl, ?_⟩
      simp only [true_iff]
      intro i hi; exact hb i (by omega) (by omega)
    · rw [if_neg hs, get_wd (by omega), Option.bind_some, shr_eq (k := n % 32) (by omega),
        Option.bind_some, shl_eq (k := n % 32) (by omega), Option.bind_some]
      refine ⟨_, rfl, ?_⟩
      rw [decide_eq_true_eq]
      have hm : ∀ j, j < 32 → (wd bm (n / 32) >>> (n % 32) <<< (n % 32)).getLsbD j =
          (decide (n % 32 ≤ j) && bitAt bm (32 * (n / 32) + j)) := by
        intro j hj
        rw [bit_shl hj, bit_shr, bitAt_mk hj]
        by_cases hc : n % 32 ≤ j
        · rw [show n % 32 + (j - n % 32) = j by omega]
        · simp [hc]
      constructor
      · intro H i hi
        by_cases hi2 : i < 32 * (n / 32)
        · exact hb i (by omega) (by omega)
        · have hj := congrArg (fun w => BitVec.getLsbD w (i - 32 * (n / 32))) H
          rw [hm _ (by omega), decide_eq_false (by omega), Bool.false_and, ← bitAt_mk (by omega),
            show 32 * (n / 32) + (i - 32 * (n / 32)) = i by omega] at hj
          exact hj.symm
      · intro H
        apply word_ext
        intro j hj
        rw [hm j hj, ← bitAt_mk hj]
        by_cases hc : n % 32 ≤ j
        · simp [hc]
        · rw [H _ (by omega)]; simp

/-! ### CountBits -/

theorem countRange_true {b : Nat → Bool} {x y : Nat} (h : ∀ i, x ≤ i → i < y → b i = true) :
    countRange b x y = y - x := by
  unfold countRange
  rw [List.countP_eq_length.2]
  · simp
  · intro i hi
    rw [List.mem_range'_1] at hi
    exact h i (by omega) (by omega)

theorem countBits_spec (bm : List Word) (off n : Nat) :
    countBits bm off n =
      some (countRange (fun i => decide (32 * bm.length ≤ i) || bitAt bm i) off (off + n)) := by
  unfold countBits
  dsimp only
  rw [getOnesCountInRange_spec (by omega) (by omega)]
  simp only [Option.bind_eq_bind, Option.bind_some]
  congr 1
  by_cases hc : off ≤ 32 * bm.length
  · by_cases hd : off + n ≤ 32 * bm.length
    · rw [show max 0 (min (bm.length * 32) off) = off by omega,
        show max off (min (bm.length * 32) (off + n)) = off + n by omega,
        show n - (off + n - off) = 0 by omega, Nat.zero_add]
      apply countRange_congr
      intro i h1 h2
      rw [decide_eq_false (by omega)]; simp
    · rw [show max 0 (min (bm.length * 32) off) = off by omega,
        show max off (min (bm.length * 32) (off + n)) = 32 * bm.length by omega]
      rw [countRange_split (x := off) (y := 32 * bm.length) (z := off + n) (by omega) (by omega)]
      rw [countRange_true (x := 32 * bm.length)]
      · rw [countRange_congr (x := off) (y := 32 * bm.length)
          (b := fun i => decide (32 * bm.length ≤ i) || bitAt bm i) (c := bitAt bm)]
        · omega
        · intro i h1 h2
          rw [decide_eq_false (by omega)]; simp
      · intro i h1 h2
        simp [h1]
  · rw [show max 0 (min (bm.length * 32) off) = 32 * bm.length by omega,
        show max (32 * bm.length) (min (bm.length * 32) (off + n)) = 32 * bm.length by omega]
    rw [countRange_true (x := off)]
    · simp [countRange]
    · intro i h1 h2
      rw [decide_eq_true (by omega)]; simp

/-! ### Intersect -/

theorem intersect_spec {a b res : List Word} {offA offB : Nat} (hA : offA < 32) (hB : offB < 32)
    (hl : res.length = min a.length b.length) (he : offA = offB → a.length = b.length) :
    ∃ r, intersect a b offA offB res = some r ∧ r.length = res.length ∧
      ∀ i, min offA offB + i < 32 * res.length →
        bitAt r (min offA offB + i) = (bitAt a (offA + i) && bitAt b (offB + i)) := by
  unfold intersect
  by_cases ho : offA = offB
  · rw [if_pos ho]
    have hab := he ho
    unfold intersectSame
    obtain ⟨r, e1, e2, e3⟩ := forRange_set (base := 0) (g := fun i _ => wd a i &&& wd b i)
      (lo := 0) (hi := a.length) (l := res)
      (body := fun i res => do wr res i ((← a[i]?) &&& (← b[i]?)))
      (fun i l' _ hi hl' => by
        rw [get_wd (by omega), get_wd (by omega)]
        simp only [Option.bind_eq_bind, Option.bind_some]
        rw [wr_eq (by omega), Nat.zero_add])
      (by omega)
    refine ⟨r, e1, e2, ?_⟩
    intro i hi
    subst ho
    rw [Nat.min_self] at hi ⊢
    have : bitAt r (offA + i) = (wd r ((offA + i) / 32)).getLsbD ((offA + i) % 32) := rfl
    rw [this, e3, if_pos (by omega), BitVec.getLsbD_and]; rfl
  · rw [if_neg ho]
    have key : ∀ (first second : List Word) (o1 o2 : Nat), o1 < o2 → o2 < 32 →
        res.length = min first.length second.length →
        ∃ r, intersectShifted first second (o2 - o1) res = some r ∧ r.length = res.length ∧
          ∀ i, o1 + i < 32 * res.length →
            bitAt r (o1 + i) = (bitAt first (o1 + i) && bitAt second (o2 + i)) := by
      intro first second o1 o2 h12 h2 hlen
      unfold intersectShifted
      dsimp only
      obtain ⟨r, e1, e2, e3⟩ := forRange_set (base := 0)
        (g := fun i _ => wd first i &&&
          (wd second i >>> (o2 - o1) ||| wd second (i + 1) <<< (32 - (o2 - o1))))
        (lo := 0) (hi := min first.length (second.length - 1)) (l := res)
        (body := fun i res => do
          let s := (← shr (← second[i]?) (o2 - o1)) ||| (← shl (← second[i + 1]?) (32 - (o2 - o1)))
          wr res i ((← first[i]?) &&& s))
        (fun i l' _ hi hl' => by
          rw [get_wd (ws := second) (k := i) (by omega), get_wd (ws := second) (k := i + 1) (by omega),
            get_wd (ws := first) (by omega)]
          simp only [Option.bind_eq_bind, Option.bind_some]
          rw [shr_eq (k := o2 - o1) (by omega), shl_eq (k := 32 - (o2 - o1)) (by omega)]
          simp only [Option.bind_some]
          rw [wr_eq (by omega), Nat.zero_add])
        (by omega)
      simp only [Option.bind_eq_bind] at e1
      simp only [Option.bind_eq_bind]
      rw [e1, Option.bind_some]
      -- pointwise value of one glued word
      have hglue : ∀ k j, j < 32 →
          (wd first k &&& (wd second k >>> (o2 - o1) ||| wd second (k + 1) <<< (32 - (o2 - o1)))).getLsbD j
          = (bitAt first (32 * k + j) && bitAt second (32 * k + (o2 - o1) + j)) := by
        intro k j hj
        rw [BitVec.getLsbD_and, bitAt_glue (by omega) (by omega) hj, bitAt_mk hj]
      by_cases hc : second.length > 0 ∧ second.length - 1 < first.length
      · rw [if_pos hc, get_wd (ws := first) (by omega), get_wd (ws := second) (by omega)]
        simp only [Option.bind_some]
        rw [shr_eq (k := o2 - o1) (by omega), Option.bind_some, wr_eq (by omega)]
        refine ⟨_, rfl, by simp [e2], ?_⟩
        intro i hi
        have hdm := Nat.div_add_mod (o1 + i) 32
        have hj : (o1 + i) % 32 < 32 := Nat.mod_lt _ (by omega)
        rw [show o2 + i = 32 * ((o1 + i) / 32) + (o2 - o1) + (o1 + i) % 32 by omega]
        rw [show bitAt (r.set (second.length - 1) (wd first (second.length - 1) &&&
          wd second (second.length - 1) >>> (o2 - o1))) (o1 + i) =
          (wd (r.set (second.length - 1) (wd first (second.length - 1) &&&
          wd second (second.length - 1) >>> (o2 - o1))) ((o1 + i) / 32)).getLsbD ((o1 + i) % 32) from rfl]
        rw [wd_set (by omega), e3]
        by_cases hk : (o1 + i) / 32 = second.length - 1
        · rw [if_pos hk, BitVec.getLsbD_and, ← hk]
          congr 1
          have := bitAt_glue (ws := second) (k := (o1 + i) / 32) (s := o2 - o1)
            (j := (o1 + i) % 32) (by omega) (by omega) hj
          rw [← this, wd_ge (k := (o1 + i) / 32 + 1) (by omega)]
          simp
        · rw [if_neg hk, if_pos (by omega), Nat.sub_zero, hglue _ _ hj, hdm]
      · rw [if_neg hc]
        refine ⟨_, rfl, e2, ?_⟩
        intro i hi
        have hdm := Nat.div_add_mod (o1 + i) 32
        have hj : (o1 + i) % 32 < 32 := Nat.mod_lt _ (by omega)
        rw [show o2 + i = 32 * ((o1 + i) / 32) + (o2 - o1) + (o1 + i) % 32 by omega]
        rw [show bitAt r (o1 + i) = (wd r ((o1 + i) / 32)).getLsbD ((o1 + i) % 32) from rfl, e3,
          if_pos (by omega), Nat.sub_zero, hglue _ _ hj, hdm]
    by_cases hgt : offA > offB
    · rw [if_pos hgt]
      obtain ⟨r, h1, h2, h3⟩ := key b a offB offA hgt hA (by omega)
      refine ⟨r, h1, h2, ?_⟩
      intro i hi
      rw [show min offA offB = offB by omega] at hi ⊢
      rw [h3 i hi, Bool.and_comm]
    · rw [if_neg hgt]
      obtain ⟨r, h1, h2, h3⟩ := key a b offA offB (by omega) hB hl
      refine ⟨r, h1, h2, ?_⟩
      intro i hi
      rw [show min offA offB = offA by omega] at hi ⊢
      exact h3 i hi

/-! ### IterateByGroups -/

theorem iterateLoop_spec {bm : List Word} {count base : Nat} : ∀ (fuel pos group : Nat),
    count - group < fuel → group ≤ count → (group = count ∨ 32 * pos = base + group) →
    base + count ≤ 32 * bm.length →
    iterateLoop bm count fuel pos group =
      some ((List.range' group (count - group)).map (fun i => (i, bitAt bm (base + i)))) := by
  intro fuel
  induction fuel with
  | zero => intro pos group h; omega
  | succ fuel ih =>
    intro pos group h1 h2 h3 h4
    have hword : ∀ n, n ≤ 32 → group + n ≤ count → iterateWord group (wd bm pos) n =
        (List.range' group n).map (fun i => (i, bitAt bm (base + i))) := by
      intro n hn hn2
      rw [iterateWord, List.range'_eq_map_range, List.map_map]
      apply List.map_congr_left
      intro j hj
      rw [List.mem_range] at hj
      simp only [Function.comp]
      rw [show base + (group + j) = 32 * pos + j by omega, bitAt_mk (by omega)]
    rw [iterateLoop]
    by_cases hc : group + 32 ≤ count
    · rw [if_pos hc, get_wd (by omega), ih (pos + 1) (group + 32) (by omega) (by omega) (by omega) h4]
      simp only [Option.bind_eq_bind, Option.bind_some]
      rw [hword 32 (by omega) hc, ← List.map_append, List.range'_append_1,
        show 32 + (count - (group + 32)) = count - group by omega]
    · rw [if_neg hc]
      by_cases hd : group ≠ count
      · rw [if_pos hd, get_wd (by omega)]
        simp only [Option.bind_eq_bind, Option.bind_some]
        rw [hword _ (by omega) (by omega)]
      · rw [if_neg hd, show count - group = 0 by omega]; rfl

theorem iterateByGroups_spec {bm : List Word} {first count : Nat}
    (h : first + count ≤ 32 * bm.length) :
    iterateByGroups bm first count =
      some ((List.range count).map (fun i => (i, bitAt bm (first + i)))) := by
  unfold iterateByGroups
  dsimp only
  rw [List.range_eq_range']
  by_cases hc : first % 32 > 0 ∧ count > 0
  · rw [if_pos hc, get_wd (by omega)]
    simp only [Option.bind_eq_bind, Option.bind_some]
    rw [shr_eq (by omega), Option.bind_some,
      iterateLoop_spec (base := first) _ _ _ (by omega) (by omega) (by omega) h, Option.bind_some]
    rw [iterateWord]
    congr 1
    obtain ⟨m, hm⟩ : ∃ m, min count (32 - first % 32) = m := ⟨_, rfl⟩
    rw [hm]
    obtain ⟨d, hd⟩ : ∃ d, count = m + d := ⟨count - m, by omega⟩
    rw [hd, ← List.range'_append_1, List.map_append, Nat.zero_add, Nat.add_sub_cancel_left,
      ← List.range_eq_range']
    congr 1
    apply List.map_congr_left
    intro j hj
    rw [List.mem_range] at hj
    rw [bitAt_low (by omega), Nat.zero_add]
    congr 2; omega
  · rw [if_neg hc]
    by_cases h0 : count = 0
    · subst h0; simp [iterateLoop]
    · rw [iterateLoop_spec (base := first) _ _ _ (by omega) (by omega) (by omega) h]
      rfl

theorem iterate_spec {bm : List Word} {first count : Nat}
    (h : bm = [] ∨ first + count ≤ 32 * bm.length) :
    iterate bm first count =
      some ((List.range count).map (fun i => decide (bm = []) || bitAt bm (first + i))) := by
  unfold iterate
  by_cases hb : bm = []
  · simp [hb, List.map_const']
  · rw [if_neg hb, iterateByGroups_spec (h.resolve_left hb)]
    simp [hb]

theorem intersect_elems_spec {n : Nat} {a b res : List Word} {offA offB : Nat} (hA : offA < 32)
    (hB : offB < 32) (ha : a.length = bitmapSize (n + offA)) (hb : b.length = bitmapSize (n + offB))
    (hl : res.length = min a.length b.length) :
    ∃ r, intersect a b offA offB res = some r ∧ r.length = bitmapSize (n + min offA offB) ∧
      ∀ i, i < n → bitAt r (min offA offB + i) = (bitAt a (offA + i) && bitAt b (offB + i)) := by
  obtain ⟨r, h1, h2, h3⟩ := intersect_spec hA hB hl (by intro h; rw [ha, hb, h])
  rw [bitmapSize_eq] at ha hb
  refine ⟨r, h1, ?_, ?_⟩
  · rw [bitmapSize_eq]; omega
  · intro i hi
    apply h3
    rcases Nat.le_total offA offB with h | h
    · rw [Nat.min_eq_left h]
      rw [Nat.min_eq_left (by omega)] at hl
      omega
    · rw [Nat.min_eq_right h]
      rw [Nat.min_eq_right (by omega)] at hl
      omega

end Verif.Bitmap
