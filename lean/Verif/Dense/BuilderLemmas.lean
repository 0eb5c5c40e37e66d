import Verif.Dense.BitmapLemmas

/-! Helper lemmas for the bitmap builders. -/

namespace Verif.Bitmap
open Verif.Bits

/-! ### AlmostFullBuilder -/

theorem createFull_spec (n : Nat) :
    ∃ bm, createFullBitmap n = some bm ∧ bm.length = bitmapSize n ∧
      ∀ i, bitAt bm i = decide (i < n) := by
  unfold createFullBitmap
  dsimp only
  have hrep : ∀ k, wd (List.replicate (bitmapSize n) fullWord) k =
      if k < bitmapSize n then fullWord else 0 := by
    intro k
    simp only [wd, List.getElem?_replicate]
    split <;> rfl
  have hsz := bitmapSize_eq n
  by_cases hn : n % 32 = 0
  · rw [if_neg (by simpa using hn)]
    refine ⟨_, rfl, by simp, forall_bit ?_⟩
    intro k j hj
    rw [bitAt_mk hj, hrep]
    split
    · rw [bit_full, decide_eq_decide]; omega
    · rw [decide_eq_false (by omega)]; simp
  · rw [if_pos hn, get_wd (by simp; omega), shl_eq (by omega)]
    simp only [Option.bind_eq_bind, Option.bind_some]
    rw [wr_eq (by simp; omega)]
    refine ⟨_, rfl, by simp, forall_bit ?_⟩
    intro k j hj
    rw [bitAt_mk hj, wd_set (by simp; omega), hrep, hrep]
    simp only [List.length_replicate]
    by_cases hk : k = bitmapSize n - 1
    · rw [if_pos hk, if_pos (by omega), BitVec.getLsbD_and, bit_full, decide_eq_true hj,
        Bool.true_and]
      have : ((1 : Word) <<< (n % 32) - 1) = BitVec.ofNat 32 (2 ^ (n % 32) - 1) := by
        apply BitVec.eq_of_toNat_eq
        have hlt : 2 ^ (n % 32) < 2 ^ 32 := Nat.pow_lt_pow_right (by omega) (by omega)
        have hpos : 0 < 2 ^ (n % 32) := Nat.pow_pos (by omega)
        simp [BitVec.toNat_sub, Nat.shiftLeft_eq]
        omega
      rw [this, BitVec.getLsbD_ofNat, decide_eq_true hj, Bool.true_and, Nat.testBit_two_pow_sub_one,
        decide_eq_decide]
      omega
    · rw [if_neg hk]
      split
      · rw [bit_full, decide_eq_decide]; omega
      · rw [decide_eq_false (by omega)]; simp

theorem unsetBit_spec {bm : List Word} {i : Nat} (h : i < 32 * bm.length) :
    ∃ bm', unsetBit bm i = some bm' ∧ bm'.length = bm.length ∧
      ∀ j, bitAt bm' j = (bitAt bm j && decide (j ≠ i)) := by
  unfold unsetBit
  rw [get_wd (by omega), shl_eq (by omega)]
  simp only [Option.bind_eq_bind, Option.bind_some]
  rw [wr_eq (by omega)]
  refine ⟨_, rfl, by simp, forall_bit ?_⟩
  intro k j hj
  rw [bitAt_mk hj, bitAt_mk hj, wd_set (by omega)]
  by_cases hk : k = i / 32
  · rw [if_pos hk]
    subst hk
    rw [BitVec.getLsbD_and, BitVec.getLsbD_not, decide_eq_true hj, bit_shl hj, bit_one,
      Bool.true_and, ← Bool.decide_and, ← decide_not]
    congr 1
    rw [decide_eq_decide]; omega
  · rw [if_neg hk, decide_eq_true (by omega)]; simp

theorem almostFull_addAll {n : Nat} : ∀ (ids : List Nat) (done : List Nat) (s : AlmostFull),
    s.bitCount = n → (∀ id ∈ ids, id < n) →
    (s.bitmap = none ∧ done = [] ∨ ∃ bm, s.bitmap = some bm ∧ done ≠ [] ∧
      bm.length = bitmapSize n ∧ ∀ i, bitAt bm i = decide (i < n ∧ i ∉ done)) →
    ∃ s', s.addAll ids = some s' ∧
      (s'.bitmap = none ∧ done ++ ids = [] ∨ ∃ bm, s'.bitmap = some bm ∧ done ++ ids ≠ [] ∧
        bm.length = bitmapSize n ∧ ∀ i, bitAt bm i = decide (i < n ∧ i ∉ done ++ ids)) := by
  intro ids
  induction ids with
  | nil => intro done s hs hid hinv; exact ⟨s, rfl, by simpa using hinv⟩
  | cons id ids ih =>
    intro done s hs hid hinv
    have hidn : id < n := hid id (by simp)
    have hsz := bitmapSize_eq n
    have hstep : ∃ s1, s.addMissed id = some s1 ∧ s1.bitCount = n ∧
        ∃ bm, s1.bitmap = some bm ∧ bm.length = bitmapSize n ∧
          ∀ i, bitAt bm i = decide (i < n ∧ i ∉ done ++ [id]) := by
      unfold AlmostFull.addMissed
      rcases hinv with ⟨h1, h2⟩ | ⟨bm, h1, h2, h3, h4⟩
      · rw [h1, hs]
        obtain ⟨bm, e1, e2, e3⟩ := createFull_spec n
        simp only [Option.bind_eq_bind, e1, Option.bind_some]
        obtain ⟨bm', f1, f2, f3⟩ := unsetBit_spec (bm := bm) (i := id) (by omega)
        rw [f1]
        refine ⟨_, rfl, rfl, bm', rfl, by omega, ?_⟩
        intro i
        rw [f3, e3, ← Bool.decide_and, decide_eq_decide]
        simp [h2]
      · rw [h1]
        simp only [Option.bind_eq_bind, Option.bind_some]
        obtain ⟨bm', f1, f2, f3⟩ := unsetBit_spec (bm := bm) (i := id) (by omega)
        rw [f1]
        refine ⟨_, rfl, hs, bm', rfl, by omega, ?_⟩
        intro i
        rw [f3, h4, ← Bool.decide_and, decide_eq_decide]
        simp [and_assoc]
    obtain ⟨s1, g1, g2, bm, g3, g4, g5⟩ := hstep
    obtain ⟨s', k1, k2⟩ := ih (done ++ [id]) s1 g2 (fun x hx => hid x (by simp [hx]))
      (Or.inr ⟨bm, g3, by simp, g4, g5⟩)
    refine ⟨s', ?_, by simpa using k2⟩
    rw [AlmostFull.addAll, g1]
    exact k1

/-! ### Builder -/

theorem groupLoop_spec {f : Nat → Bool} : ∀ (n i : Nat) (res : Word) (ap : Bool), i + n ≤ 32 →
    ∃ w, groupLoop f i n res ap = some (w, ap && (List.range' i n).all f) ∧
      ∀ j, w.getLsbD j = (res.getLsbD j || (decide (i ≤ j ∧ j < i + n) && f j)) := by
  intro n
  induction n with
  | zero =>
    intro i res ap h
    refine ⟨res, by simp [groupLoop], ?_⟩
    intro j; rw [decide_eq_false (by omega)]; simp
  | succ n ih =>
    intro i res ap h
    rw [groupLoop]
    cases hf : f i with
    | true =>
      rw [if_pos rfl, shl_eq (by omega)]
      simp only [Option.bind_eq_bind, Option.bind_some]
      obtain ⟨w, e1, e2⟩ := ih (i + 1) (res ||| (1 : Word) <<< i) ap (by omega)
      refine ⟨w, ?_, ?_⟩
      · rw [e1]
        simp [List.range'_succ, hf]
      · intro j
        rw [e2, BitVec.getLsbD_or]
        by_cases hj : j < 32
        · rw [bit_shl hj, bit_one]
          by_cases hij : j = i
          · subst hij; simp [hf]
          · have : (decide (i ≤ j) && decide (j - i = 0)) = false := by
              rw [← Bool.decide_and]; apply decide_eq_false; omega
            rw [this, Bool.or_false]
            congr 2
            rw [decide_eq_decide]; omega
        · rw [bit_ge (a := (1 : Word) <<< i) (by omega), decide_eq_false (by omega), decide_eq_false (by omega)]
          simp
    | false =>
      rw [if_neg (by simp)]
      obtain ⟨w, e1, e2⟩ := ih (i + 1) res false (by omega)
      refine ⟨w, ?_, ?_⟩
      · rw [e1]
        simp [List.range'_succ, hf]
      · intro j
        rw [e2]
        by_cases hij : j = i
        · subst hij; simp [hf]
        · congr 2
          rw [decide_eq_decide]; omega

theorem group_spec {f : Nat → Bool} {n : Nat} {ap : Bool} (h : n ≤ 32) :
    ∃ w, group n f ap = some (w, ap && (List.range n).all f) ∧
      ∀ j, w.getLsbD j = (decide (j < n) && f j) := by
  obtain ⟨w, e1, e2⟩ := groupLoop_spec (f := f) n 0 0 ap (by omega)
  refine ⟨w, ?_, ?_⟩
  · rw [group, e1, List.range_eq_range']
  · intro j; rw [e2]; simp

/-- Invariant of the builder buffer: the first `cur` bits are `g`, and the remaining bits of the
current word are zero. -/
def BInv (len : Nat) (g : Nat → Bool) (cur : Nat) (data : List Word) : Prop :=
  data.length = len ∧ (∀ i, i < cur → bitAt data i = g i) ∧
  (∀ i, cur ≤ i → i < 32 * ((cur + 31) / 32) → bitAt data i = false)

/-- What a word-storing step must do. -/
def AddOk (add : Nat → Word → List Word → Option (List Word)) (len base : Nat) (g : Nat → Bool)
    (count : Nat) : Prop :=
  ∀ offset k w data, offset % 32 = 0 → 0 < k → k ≤ 32 → offset + k ≤ count →
    BInv len g (base + offset) data →
    (∀ j, w.getLsbD j = (decide (j < k) && g (base + offset + j))) →
    ∃ data', add offset w data = some data' ∧ BInv len g (base + offset + k) data'

theorem addLoop_spec {add : Nat → Word → List Word → Option (List Word)} {len base count : Nat}
    {g : Nat → Bool} (hadd : AddOk add len base g count) :
    ∀ (fuel offset : Nat) (data : List Word) (ap : Bool), count - offset < fuel →
      offset ≤ count → offset % 32 = 0 → BInv len g (base + offset) data →
      ∃ data', addLoop add count (fun i => g (base + i)) fuel offset data ap =
          some (data', ap && (List.range' offset (count - offset)).all (fun i => g (base + i))) ∧
        BInv len g (base + count) data' := by
  intro fuel
  induction fuel with
  | zero => intro offset data ap h; omega
  | succ fuel ih =>
    intro offset data ap h1 h2 h3 hinv
    rw [addLoop]
    by_cases hc : offset + 32 ≤ count
    · rw [if_pos hc]
      obtain ⟨w, e1, e2⟩ := group_spec (f := fun i => g (base + (offset + i))) (n := 32) (ap := ap)
        (by omega)
      rw [e1]
      simp only [Option.bind_eq_bind, Option.bind_some]
      obtain ⟨d, f1, f2⟩ := hadd offset 32 w data h3 (by omega) (by omega) hc hinv (by
        intro j; rw [e2]; simp only [Nat.add_assoc])
      rw [f1, Option.bind_some]
      obtain ⟨d', k1, k2⟩ := ih (offset + 32) d (ap && (List.range 32).all
        (fun i => g (base + (offset + i)))) (by omega) (by omega) (by omega)
        (by rw [← Nat.add_assoc]; exact f2)
      refine ⟨d', ?_, k2⟩
      rw [k1]
      rw [show count - offset = 32 + (count - (offset + 32)) by omega, ← List.range'_append_1,
        List.all_append, Bool.and_assoc, List.range'_eq_map_range (s := offset) (n := 32), List.all_map]
      rfl
    · rw [if_neg hc]
      by_cases hd : offset < count
      · rw [if_pos hd]
        obtain ⟨w, e1, e2⟩ := group_spec (f := fun i => g (base + (offset + i)))
          (n := count - offset) (ap := ap) (by omega)
        rw [e1]
        simp only [Option.bind_eq_bind, Option.bind_some]
        obtain ⟨d, f1, f2⟩ := hadd offset (count - offset) w data h3 (by omega) (by omega) (by omega)
          hinv (by intro j; rw [e2]; simp only [Nat.add_assoc])
        rw [f1]
        refine ⟨d, ?_, by rw [show base + count = base + offset + (count - offset) by omega]; exact f2⟩
        simp only [Option.bind_some]
        rw [List.range'_eq_map_range, List.all_map]
        rfl
      · rw [if_neg hd]
        have : offset = count := by omega
        subst this
        exact ⟨data, by simp, hinv⟩

theorem aligned_ok {len cur count : Nat} {g : Nat → Bool} (hcur : cur % 32 = 0)
    (hlen : cur + count ≤ 32 * len) :
    AddOk (fun offset w data => wr data (cur / 32 + offset / 32) w) len cur g count := by
  intro offset k w data h1 h2 h3 h4 ⟨i1, i2, i3⟩ hw
  dsimp only
  rw [wr_eq (by omega)]
  refine ⟨_, rfl, by simpa using i1, ?_, ?_⟩
  · refine forall_bit (P := fun i => i < cur + offset + k → _) ?_
    intro m j hj hm
    rw [bitAt_mk hj, wd_set (by omega)]
    by_cases hmk : m = cur / 32 + offset / 32
    · rw [if_pos hmk, hw, decide_eq_true (by omega), Bool.true_and]
      congr 1; omega
    · rw [if_neg hmk, ← bitAt_mk hj]
      exact i2 _ (by omega)
  · refine forall_bit (P := fun i => cur + offset + k ≤ i → i < _ → _) ?_
    intro m j hj hm hm2
    rw [bitAt_mk hj, wd_set (by omega), if_pos (by omega), hw, decide_eq_false (by omega)]
    simp

theorem unaligned_ok {len cur count : Nat} {g : Nat → Bool} (hcur : cur % 32 ≠ 0)
    (hlen : cur + count ≤ 32 * len) :
    AddOk (addWordUnaligned cur (cur % 32)) len cur g count := by
  intro offset k w data h1 h2 h3 h4 ⟨i1, i2, i3⟩ hw
  unfold addWordUnaligned
  dsimp only
  rw [get_wd (ws := data) (by omega), shl_eq (k := cur % 32) (by omega)]
  simp only [Option.bind_eq_bind, Option.bind_some]
  rw [wr_eq (by omega), Option.bind_some]
  -- bits of the first word
  have hfst : ∀ m j, j < 32 → m = (cur + offset) / 32 →
      (wd data m ||| w <<< (cur % 32)).getLsbD j =
        if 32 * m + j < cur + offset then g (32 * m + j)
        else (decide (32 * m + j < cur + offset + k) && g (32 * m + j)) := by
    intro m j hj hm
    rw [BitVec.getLsbD_or, bit_shl hj, hw, ← bitAt_mk hj]
    by_cases hc : 32 * m + j < cur + offset
    · rw [if_pos hc, i2 _ hc, decide_eq_false (p := cur % 32 ≤ j) (by omega)]; simp
    · rw [if_neg hc, i3 _ (by omega) (by omega), decide_eq_true (p := cur % 32 ≤ j) (by omega)]
      rw [Bool.false_or, Bool.true_and]
      congr 1
      · rw [decide_eq_decide]; omega
      · congr 1; omega
  by_cases hnext : (cur + offset) / 32 + 1 < data.length
  · rw [if_pos (by simpa using hnext), shr_eq (k := 32 - cur % 32) (by omega), Option.bind_some,
      wr_eq (by simpa using hnext)]
    have hsnd : ∀ m j, j < 32 → m = (cur + offset) / 32 + 1 →
        (w >>> (32 - cur % 32)).getLsbD j =
          (decide (32 * m + j < cur + offset + k) && g (32 * m + j)) := by
      intro m j hj hm
      rw [bit_shr, hw]
      congr 1
      · rw [decide_eq_decide]; omega
      · congr 1; omega
    refine ⟨_, rfl, by simpa using i1, ?_, ?_⟩
    · refine forall_bit (P := fun i => i < cur + offset + k → _) ?_
      intro m j hj hm
      rw [bitAt_mk hj, wd_set (by simpa using hnext), wd_set (by omega)]
      by_cases hm1 : m = (cur + offset) / 32 + 1
      · rw [if_pos hm1, hsnd m j hj hm1, decide_eq_true hm, Bool.true_and]
      · rw [if_neg hm1]
        by_cases hm2 : m = (cur + offset) / 32
        · rw [if_pos hm2, ← hm2, hfst m j hj hm2]
          split
          · rfl
          · rw [decide_eq_true hm, Bool.true_and]
        · rw [if_neg hm2, ← bitAt_mk hj]
          exact i2 _ (by omega)
    · refine forall_bit (P := fun i => cur + offset + k ≤ i → i < _ → _) ?_
      intro m j hj hm hm2
      rw [bitAt_mk hj, wd_set (by simpa using hnext), wd_set (by omega)]
      by_cases hm1 : m = (cur + offset) / 32 + 1
      · rw [if_pos hm1, hsnd m j hj hm1, decide_eq_false (by omega), Bool.false_and]
      · rw [if_neg hm1, if_pos (by omega), ← show m = (cur + offset) / 32 by omega,
          hfst m j hj (by omega), if_neg (by omega), decide_eq_false (by omega), Bool.false_and]
  · rw [if_neg (by simpa using hnext)]
    refine ⟨_, rfl, by simpa using i1, ?_, ?_⟩
    · refine forall_bit (P := fun i => i < cur + offset + k → _) ?_
      intro m j hj hm
      rw [bitAt_mk hj, wd_set (by omega)]
      by_cases hm2 : m = (cur + offset) / 32
      · rw [if_pos hm2, ← hm2, hfst m j hj hm2]
        split
        · rfl
        · rw [decide_eq_true hm, Bool.true_and]
      · rw [if_neg hm2, ← bitAt_mk hj]
        exact i2 _ (by omega)
    · refine forall_bit (P := fun i => cur + offset + k ≤ i → i < _ → _) ?_
      intro m j hj hm hm2
      rw [bitAt_mk hj, wd_set (by omega)]
      rw [if_pos (by omega), ← show m = (cur + offset) / 32 by omega,
        hfst m j hj (by omega), if_neg (by omega), decide_eq_false (by omega), Bool.false_and]

/-- Full invariant of the builder. -/
def Builder.Inv (len : Nat) (g : Nat → Bool) (s : Builder) : Prop :=
  BInv len g s.currentBit s.data ∧ s.allPresent = (List.range s.currentBit).all g

theorem addByGroups_spec {len count : Nat} {g : Nat → Bool} {s : Builder}
    (hinv : s.Inv len g) (hlen : s.currentBit + count ≤ 32 * len) :
    ∃ s', s.addByGroups count (fun i => g (s.currentBit + i)) = some s' ∧
      s'.currentBit = s.currentBit + count ∧ s'.Inv len g := by
  obtain ⟨h1, h2⟩ := hinv
  unfold Builder.addByGroups
  dsimp only
  have hall : (s.allPresent && (List.range' 0 (count - 0)).all (fun i => g (s.currentBit + i))) =
      (List.range (s.currentBit + count)).all g := by
    rw [h2, List.range_add, List.all_append, List.all_map, Nat.sub_zero, ← List.range_eq_range']
    rfl
  by_cases hc : s.currentBit % 32 = 0
  · rw [if_pos hc]
    obtain ⟨d, e1, e2⟩ := addLoop_spec (aligned_ok hc hlen) (count + 1) 0 s.data s.allPresent
      (by omega) (by omega) rfl h1
    rw [e1]
    exact ⟨_, rfl, rfl, e2, hall⟩
  · rw [if_neg hc]
    obtain ⟨d, e1, e2⟩ := addLoop_spec (unaligned_ok hc hlen) (count + 1) 0 s.data s.allPresent
      (by omega) (by omega) rfl h1
    rw [e1]
    exact ⟨_, rfl, rfl, e2, hall⟩

theorem builder_new_inv (mem : List Word) (g : Nat → Bool) : (Builder.new mem).Inv mem.length g :=
  ⟨⟨rfl, fun i h => by simp [Builder.new] at h, fun i h1 h2 => by simp [Builder.new] at h2⟩, rfl⟩

theorem getD_lt {α : Type} {l : List α} {i : Nat} {d : α} (h : i < l.length) :
    l.getD i d = l[i] := by
  rw [List.getD_eq_getElem?_getD, List.getElem?_eq_getElem h]; rfl

theorem getD_ge {α : Type} {l : List α} {i : Nat} {d : α} (h : l.length ≤ i) :
    l.getD i d = d := by
  rw [List.getD_eq_getElem?_getD, List.getElem?_eq_none h]; rfl

theorem addChunks_inv {len : Nat} {g : Nat → Bool} : ∀ (cs : List (List Bool)) (s : Builder),
    s.Inv len g → s.currentBit + cs.flatten.length ≤ 32 * len →
    (∀ i, i < cs.flatten.length → g (s.currentBit + i) = cs.flatten.getD i false) →
    ∃ s', s.addChunks cs = some s' ∧ s'.currentBit = s.currentBit + cs.flatten.length ∧
      s'.Inv len g := by
  intro cs
  induction cs with
  | nil => intro s h _ _; exact ⟨s, rfl, rfl, h⟩
  | cons c cs ih =>
    intro s h hl hg
    simp only [List.flatten_cons, List.length_append] at hl hg
    rw [Builder.addChunks]
    -- the builder only calls the generator on indices below the length
    obtain ⟨s1, e1, e2, e3⟩ := addByGroups_spec (len := len) (count := c.length)
      (g := fun i => if i < s.currentBit then g i else
        if i < s.currentBit + c.length then c.getD (i - s.currentBit) false else false)
      (s := s)
      (by
        obtain ⟨⟨a1, a2, a3⟩, a4⟩ := h
        refine ⟨⟨a1, ?_, a3⟩, ?_⟩
        · intro i hi; dsimp only; rw [if_pos hi]; exact a2 i hi
        · rw [a4, Bool.eq_iff_iff, List.all_eq_true, List.all_eq_true]
          constructor
          · intro H i hi
            rw [if_pos (List.mem_range.1 hi)]; exact H i hi
          · intro H i hi
            have := H i hi
            rwa [if_pos (List.mem_range.1 hi)] at this)
      (by omega)
    have hfun : (fun i => if s.currentBit + i < s.currentBit then g (s.currentBit + i) else
        if s.currentBit + i < s.currentBit + c.length then
          c.getD (s.currentBit + i - s.currentBit) false else false) =
        fun i => c.getD i false := by
      funext i
      rw [if_neg (by omega), show s.currentBit + i - s.currentBit = i by omega]
      split
      · rfl
      · rw [getD_ge (by omega)]
    rw [hfun] at e1
    have hinv1 : s1.Inv len g := by
      obtain ⟨⟨a1, a2, a3⟩, a4⟩ := e3
      have hcg : ∀ i, i < s1.currentBit → (if i < s.currentBit then g i else
          if i < s.currentBit + c.length then c.getD (i - s.currentBit) false else false) = g i := by
        intro i hi
        split
        · rfl
        · rw [if_pos (by omega)]
          have := hg (i - s.currentBit) (by omega)
          rw [show s.currentBit + (i - s.currentBit) = i by omega] at this
          rw [this]
          simp only [List.getD_eq_getElem?_getD]
          rw [List.getElem?_append_left (by omega)]
      refine ⟨⟨a1, ?_, a3⟩, ?_⟩
      · intro i hi; rw [a2 i hi]; exact hcg i hi
      · rw [a4, Bool.eq_iff_iff, List.all_eq_true, List.all_eq_true]
        constructor
        · intro H i hi; rw [← hcg i (List.mem_range.1 hi)]; exact H i hi
        · intro H i hi; rw [hcg i (List.mem_range.1 hi)]; exact H i hi
    obtain ⟨s', k1, k2, k3⟩ := ih s1 hinv1 (by omega) (by
      intro i hi
      rw [e2, Nat.add_assoc, hg (c.length + i) (by omega)]
      simp only [List.getD_eq_getElem?_getD]
      rw [List.getElem?_append_right (by omega), Nat.add_sub_cancel_left])
    refine ⟨s', ?_, ?_, k3⟩
    · unfold Builder.addForEach
      rw [e1]
      exact k1
    · rw [k2, e2]; simp; omega

end Verif.Bitmap
