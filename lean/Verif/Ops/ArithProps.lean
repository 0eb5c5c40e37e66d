import Verif.Ops.ArithModel

/-!
# C48: integer operators

`x` wrapped to `n` bits is the only number in the range of the type which differs from `x` by a multiple of `2 ^ n`.
-/

namespace Verif.Ops

variable {n : Nat}

/-- `r` is the mathematical result `x` modulo `2 ^ n`. -/
def Wraps (r : BitVec n) (x : Int) : Prop := ∃ k : Int, r.toInt = x + k * 2 ^ n

/-- The numbers of the type. -/
def InRange (n : Nat) (x : Int) : Prop := -2 ^ (n - 1) ≤ x ∧ x < 2 ^ (n - 1)

theorem pow_pred (hn : 0 < n) : (2 : Int) ^ n = 2 * 2 ^ (n - 1) := by
  obtain ⟨m, rfl⟩ : ∃ m, n = m + 1 := ⟨n - 1, by omega⟩
  simp only [Nat.add_sub_cancel, Int.pow_succ]; omega

theorem inRange_toInt (a : BitVec n) (hn : 0 < n) : InRange n a.toInt := by
  have h1 := BitVec.le_toInt a
  have h2 := BitVec.toInt_lt (x := a)
  exact ⟨by simpa using h1, by simpa using h2⟩

theorem ofInt_toInt {x : Int} (hn : 0 < n) (h : InRange n x) : (BitVec.ofInt n x).toInt = x := by
  rw [BitVec.toInt_ofInt]
  have := pow_pred hn
  obtain ⟨h1, h2⟩ := h
  apply Int.bmod_eq_of_le <;> push_cast <;> omega

theorem wraps_ofInt (x : Int) : Wraps (BitVec.ofInt n x) x := by
  rw [Wraps, BitVec.toInt_ofInt]
  have h := Int.bmod_add_bdiv x (2 ^ n)
  refine ⟨-(x.bdiv (2 ^ n)), ?_⟩
  push_cast at h ⊢
  rw [Int.neg_mul, Int.mul_comm (x.bdiv _)]; omega

/-- The wrapped number is unique, and it is the number itself if that is in range. -/
theorem wraps_unique {r s : BitVec n} {x : Int} (h1 : Wraps r x) (h2 : Wraps s x) : r = s := by
  obtain ⟨k, hk⟩ := h1
  obtain ⟨l, hl⟩ := h2
  apply BitVec.eq_of_toInt_eq
  rw [← BitVec.toInt_bmod_cancel r, ← BitVec.toInt_bmod_cancel s, hk, hl]
  have hc : ((2 : Int) ^ n) = ((2 ^ n : Nat) : Int) := by push_cast; rfl
  rw [hc, Int.add_mul_bmod_self_right, Int.add_mul_bmod_self_right]

theorem wraps_exact {r : BitVec n} {x : Int} (hn : 0 < n) (h : Wraps r x) (hx : InRange n x) : r.toInt = x := by
  rw [wraps_unique h (wraps_ofInt x), ofInt_toInt hn hx]

theorem wraps_add (a b : BitVec n) : Wraps (a + b) (a.toInt + b.toInt) := by
  have h := wraps_ofInt (n := n) (a.toInt + b.toInt)
  have e : a + b = BitVec.ofInt n (a.toInt + b.toInt) := by
    apply BitVec.eq_of_toInt_eq; rw [BitVec.toInt_add, BitVec.toInt_ofInt]
  rw [e]; exact h

theorem wraps_sub (a b : BitVec n) : Wraps (a - b) (a.toInt - b.toInt) := by
  have h := wraps_ofInt (n := n) (a.toInt - b.toInt)
  have e : a - b = BitVec.ofInt n (a.toInt - b.toInt) := by
    apply BitVec.eq_of_toInt_eq; rw [BitVec.toInt_sub, BitVec.toInt_ofInt]
  rw [e]; exact h

theorem wraps_mul (a b : BitVec n) : Wraps (a * b) (a.toInt * b.toInt) := by
  have h := wraps_ofInt (n := n) (a.toInt * b.toInt)
  have e : a * b = BitVec.ofInt n (a.toInt * b.toInt) := by
    apply BitVec.eq_of_toInt_eq; rw [BitVec.toInt_mul, BitVec.toInt_ofInt]
  rw [e]; exact h

theorem Wraps.trans {r : BitVec n} {x y : Int} (h : Wraps r x) (hxy : ∃ k : Int, x = y + k * 2 ^ n) : Wraps r y := by
  obtain ⟨k, hk⟩ := h
  obtain ⟨l, hl⟩ := hxy
  exact ⟨k + l, by rw [hk, hl, Int.add_mul]; omega⟩

/-- `add` of any number of arguments is the sum, wrapped. -/
theorem add_op (a : BitVec n) (args : List (BitVec n)) :
    Wraps (addOp a args) (a.toInt + (args.map BitVec.toInt).sum) := by
  induction args generalizing a with
  | nil => exact ⟨0, by simp [addOp]⟩
  | cons b rest ih =>
    have h := ih (a + b)
    have e : addOp a (b :: rest) = addOp (a + b) rest := rfl
    rw [e]
    obtain ⟨k, hk⟩ := wraps_add a b
    exact h.trans ⟨k, by rw [hk, List.map_cons, List.sum_cons]; omega⟩

/-- `subtract`, `multiply` and `neg` are the mathematical results, wrapped. -/
theorem subtract_op (a b : BitVec n) : Wraps (subtractOp a b) (a.toInt - b.toInt) := wraps_sub a b
theorem multiply_op (a b : BitVec n) : Wraps (multiplyOp a b) (a.toInt * b.toInt) := wraps_mul a b
theorem neg_op (a : BitVec n) : Wraps (negOp a) (-a.toInt) := by
  have h := wraps_sub 0#n a
  simpa [negOp] using h

theorem signed_some {x : Int} (h : InRange n x) : signed n x = some (BitVec.ofInt n x) := if_pos h

theorem intMin_iff (hn : 0 < n) (a : BitVec n) : a = BitVec.intMin n ↔ a.toInt = -2 ^ (n - 1) := by
  rw [← BitVec.toInt_inj, BitVec.toInt_intMin_of_pos hn]

/-- `abs` is the absolute value, except that it keeps the lowest number; no undefined behaviour. -/
theorem abs_op (hn : 0 < n) (a : BitVec n) :
    ∃ r, absOp a = some r ∧ (a.toInt ≠ -2 ^ (n - 1) → r.toInt = a.toInt.natAbs) ∧ (a.toInt = -2 ^ (n - 1) → r = a) := by
  obtain ⟨h1, h2⟩ := inRange_toInt a hn
  simp only [absOp, intMin_iff hn]
  split
  next h => exact ⟨_, rfl, fun h' => absurd h h', fun _ => ((intMin_iff hn a).2 h).symm⟩
  next h =>
    split
    · have hr : InRange n (-a.toInt) := ⟨by omega, by omega⟩
      exact ⟨_, signed_some hr, fun _ => by rw [ofInt_toInt hn hr]; omega, fun h' => absurd h' h⟩
    · exact ⟨a, rfl, fun _ => by omega, fun _ => rfl⟩

/-- `sign`. -/
theorem sign_op (hn : 2 ≤ n) (a : BitVec n) : ∃ r, signOp a = some r ∧ r.toInt = a.toInt.sign := by
  have hp : (2 : Int) ≤ 2 ^ (n - 1) := by
    obtain ⟨m, rfl⟩ : ∃ m, n = m + 2 := ⟨n - 2, by omega⟩
    have := Int.pow_pos (n := 2) (m := m) (by decide)
    rw [show m + 2 - 1 = m + 1 from by omega, Int.pow_succ]; omega
  have key : ((if a.toInt > 0 then 1 else 0) - (if a.toInt < 0 then 1 else 0) : Int) = a.toInt.sign := by
    rcases Int.lt_trichotomy a.toInt 0 with h | h | h
    · rw [Int.sign_eq_neg_one_of_neg h, if_neg (by omega), if_pos h]; rfl
    · rw [h]; rfl
    · rw [Int.sign_eq_one_of_pos h, if_pos h, if_neg (by omega)]; rfl
  have hs : InRange n a.toInt.sign := by
    rcases Int.lt_trichotomy a.toInt 0 with h | h | h
    · rw [Int.sign_eq_neg_one_of_neg h]; constructor <;> omega
    · rw [h]; constructor <;> simp <;> omega
    · rw [Int.sign_eq_one_of_pos h]; constructor <;> omega
  rw [signOp, key]
  exact ⟨_, signed_some hs, ofInt_toInt (by omega) hs⟩

/-- `max` and `min`. -/
theorem max_op (a b : BitVec n) : (maxOp a b).toInt = max a.toInt b.toInt := by
  simp only [maxOp]; split <;> omega
theorem min_op (a b : BitVec n) : (minOp a b).toInt = min a.toInt b.toInt := by
  simp only [minOp]; split <;> omega

/-- The sign of `a ^ b`. -/
theorem xor_sign (a b : BitVec n) : (a ^^^ b).toInt ≥ 0 ↔ (a.toInt < 0 ↔ b.toInt < 0) := by
  have h : ∀ c : BitVec n, c.toInt < 0 ↔ c.msb = true := fun c => (BitVec.msb_eq_toInt (x := c)).symm ▸ by simp
  rw [ge_iff_le, ← Int.not_lt, h, h, h, BitVec.msb_xor]
  cases a.msb <;> cases b.msb <;> simp

theorem tmod_nonpos {a : Int} (b : Int) (h : a ≤ 0) : a.tmod b ≤ 0 := by
  have := Int.tmod_nonneg b (a := -a) (by omega)
  rw [Int.neg_tmod] at this; omega

theorem natAbs_range {a : BitVec n} (hn : 0 < n) {x : Int} (h : x.natAbs ≤ a.toInt.natAbs)
    (h' : a.toInt = -2 ^ (n - 1) → x ≠ 2 ^ (n - 1)) : InRange n x := by
  obtain ⟨h1, h2⟩ := inRange_toInt a hn
  constructor <;> omega

/-- The built-in division, where it is defined. -/
theorem cDiv_some (hn : 0 < n) {a b : BitVec n} (hb : b.toInt ≠ 0) (h : a.toInt = -2 ^ (n - 1) → b.toInt ≠ -1) :
    ∃ q, cDiv a b = some q ∧ q.toInt = a.toInt.tdiv b.toInt := by
  have hr : InRange n (a.toInt.tdiv b.toInt) := by
    refine natAbs_range hn (by rw [Int.natAbs_tdiv]; exact Nat.div_le_self _ _) fun ha hq => ?_
    have hp := Int.pow_pos (n := 2) (m := n - 1) (by decide)
    have hm := Int.mul_tdiv_add_tmod a.toInt b.toInt
    rw [hq] at hm
    have hab : a.toInt.tdiv b.toInt = 2 ^ (n - 1) := hq
    have hnat : a.toInt.natAbs / b.toInt.natAbs = a.toInt.natAbs := by
      have := Int.natAbs_tdiv a.toInt b.toInt
      rw [hab] at this
      exact this.symm.trans (by omega)
    have hpos : 0 < a.toInt.natAbs := by rw [ha]; omega
    have hb1 : b.toInt.natAbs = 1 := by
      by_cases h2 : 2 ≤ b.toInt.natAbs
      · have := Nat.div_lt_self hpos h2; omega
      · omega
    have hb2 : b.toInt = 1 := by have := h ha; omega
    rw [hb2, Int.tdiv_one] at hab
    omega
  exact ⟨_, by rw [cDiv, if_neg hb, signed_some hr], ofInt_toInt hn hr⟩

theorem cMod_some (hn : 0 < n) {a b : BitVec n} (hb : b.toInt ≠ 0) (h : a.toInt = -2 ^ (n - 1) → b.toInt ≠ -1) :
    ∃ r, cMod a b = some r ∧ r.toInt = a.toInt.tmod b.toInt := by
  obtain ⟨q, hq, -⟩ := cDiv_some hn hb h
  have hr : InRange n (a.toInt.tmod b.toInt) := by
    refine natAbs_range hn (by rw [Int.natAbs_tmod]; exact Nat.mod_le _ _) fun ha hq => ?_
    have h1 := Int.pow_pos (n := 2) (m := n - 1) (by decide)
    have h2 : a.toInt.tmod b.toInt ≤ 0 := tmod_nonpos _ (by omega)
    omega
  exact ⟨_, by simp [cMod, hq, signed_some hr], ofInt_toInt hn hr⟩

/-- Floor division and remainder, as mathematicians define them. -/
structure FloorDivMod (x y q m : Int) : Prop where
  decomposition : x = q * y + m
  positive : 0 < y → 0 ≤ m ∧ m < y
  negative : y < 0 → y < m ∧ m ≤ 0

/-- There is only one such pair. -/
theorem FloorDivMod.unique {x y q m q' m' : Int} (hy : y ≠ 0) (h : FloorDivMod x y q m) (h' : FloorDivMod x y q' m') :
    q = q' ∧ m = m' := by
  have e : (q - q') * y = m' - m := by
    have := h.decomposition; have := h'.decomposition; rw [Int.sub_mul]; omega
  have hq : q - q' = 0 := by
    rcases Int.lt_or_gt_of_ne hy with hneg | hpos
    · have := h.negative hneg; have := h'.negative hneg
      rcases Int.lt_trichotomy (q - q') 0 with h0 | h0 | h0
      · have : (q - q') * y ≥ -1 * y := Int.mul_le_mul_of_nonpos_right (by omega) (by omega)
        omega
      · exact h0
      · have : (q - q') * y ≤ 1 * y := Int.mul_le_mul_of_nonpos_right (by omega) (by omega)
        omega
    · have := h.positive hpos; have := h'.positive hpos
      rcases Int.lt_trichotomy (q - q') 0 with h0 | h0 | h0
      · have : (q - q') * y ≤ -1 * y := Int.mul_le_mul_of_nonneg_right (by omega) (by omega)
        omega
      · exact h0
      · have : (q - q') * y ≥ 1 * y := Int.mul_le_mul_of_nonneg_right (by omega) (by omega)
        omega
  rw [hq] at e
  constructor <;> omega

theorem fdiv_spec (x : Int) {y : Int} (hy : y ≠ 0) : FloorDivMod x y (x.fdiv y) (x.fmod y) where
  decomposition := by have := Int.mul_fdiv_add_fmod x y; rw [Int.mul_comm] at this; omega
  positive h := ⟨Int.fmod_nonneg_of_pos _ h, Int.fmod_lt_of_pos _ h⟩
  negative h := by
    have h1 := Int.fmod_nonneg_of_pos (-x) (b := -y) (by omega)
    have h2 := Int.fmod_lt_of_pos (-x) (b := -y) (by omega)
    rw [Int.neg_fmod_neg] at h1 h2
    omega

/-- Floor division and `mod` report an error exactly for a zero divisor.  Otherwise the results are those of
mathematics, except that the quotient of the lowest number and -1 wraps to the lowest number.  There is no undefined
behaviour. -/
theorem floordiv_mod (h2n : 2 ≤ n) (a b : BitVec n) :
    (b.toInt = 0 → floorDivOp a b = some (.error .divisionByZero) ∧ modOp a b = some (.error .divisionByZero)) ∧
    (b.toInt ≠ 0 → ∃ q m, floorDivOp a b = some (.ok q) ∧ modOp a b = some (.ok m) ∧
      (¬(a.toInt = -2 ^ (n - 1) ∧ b.toInt = -1) → FloorDivMod a.toInt b.toInt q.toInt m.toInt) ∧
      (a.toInt = -2 ^ (n - 1) ∧ b.toInt = -1 → q = a ∧ m.toInt = 0)) := by
  have hn : 0 < n := by omega
  have hp2 : (2 : Int) ≤ 2 ^ (n - 1) := by
    obtain ⟨m, rfl⟩ : ∃ m, n = m + 2 := ⟨n - 2, by omega⟩
    have := Int.pow_pos (n := 2) (m := m) (by decide)
    rw [show m + 2 - 1 = m + 1 from by omega, Int.pow_succ]; omega
  refine ⟨fun h => ⟨if_pos h, if_pos h⟩, fun hb => ?_⟩
  have hdm := Int.mul_tdiv_add_tmod a.toInt b.toInt
  have hp := Int.pow_pos (n := 2) (m := n - 1) (by decide)
  obtain ⟨ha1, ha2⟩ := inRange_toInt a hn
  by_cases hs : (a ^^^ b).toInt ≥ 0
  · have hsign := (xor_sign a b).1 hs
    by_cases hb1 : b.toInt = -1
    · refine ⟨0#n - a, 0#n, ?_, ?_, ?_, ?_⟩
      · simp only [floorDivOp, if_neg hb, if_pos hs, hb1, ne_eq, not_true_eq_false, if_false]; rfl
      · simp only [modOp, if_neg hb, if_pos hs, hb1, ne_eq, not_true_eq_false, if_false]; rfl
      · intro hmin
        have e : (0#n - a).toInt = -a.toInt := by
          have := wraps_sub 0#n a
          rw [wraps_exact hn this ⟨by simp; omega, by simp; omega⟩]; simp
        rw [e, hb1]
        exact ⟨by simp, by omega, by simp⟩
      · rintro ⟨hmin, -⟩
        refine ⟨?_, by simp⟩
        refine wraps_unique (wraps_sub 0#n a) ⟨-1, ?_⟩
        have := pow_pred hn
        simp; omega
    · obtain ⟨q, hq, hq'⟩ := cDiv_some hn hb (a := a) (fun _ => hb1)
      obtain ⟨m, hm, hm'⟩ := cMod_some hn hb (a := a) (fun _ => hb1)
      refine ⟨q, m, ?_, ?_, fun _ => ?_, fun h => absurd h.2 hb1⟩
      · simp only [floorDivOp, if_neg hb, if_pos hs, if_pos hb1, hq, ne_eq, not_false_eq_true, Option.map_some]
      · simp only [modOp, if_neg hb, if_pos hs, if_pos hb1, hm, ne_eq, not_false_eq_true, Option.map_some]
      · rw [hq', hm']
        refine ⟨by rw [Int.mul_comm]; omega, fun hpos => ?_, fun hneg => ?_⟩
        · exact ⟨Int.tmod_nonneg _ (by omega), Int.tmod_lt_of_pos _ hpos⟩
        · have h1 := Int.tmod_lt_of_pos (-a.toInt) (b := -b.toInt) (by omega)
          have h2 := tmod_nonpos b.toInt (a := a.toInt) (by omega)
          rw [Int.tmod_neg, Int.neg_tmod] at h1
          omega
  · have hsign : ¬ (a.toInt < 0 ↔ b.toInt < 0) := fun h => hs ((xor_sign a b).2 h)
    have hno : ¬ (a.toInt = -2 ^ (n - 1) ∧ b.toInt = -1) := by omega
    obtain ⟨q, hq, hq'⟩ := cDiv_some hn hb (a := a) (by omega)
    obtain ⟨r, hr, hr'⟩ := cMod_some hn hb (a := a) (by omega)
    -- `|r| < |b|` and `r` has the sign of `a`
    have hrb : r.toInt.natAbs < b.toInt.natAbs := by
      rw [hr', Int.natAbs_tmod]; exact Nat.mod_lt _ (by omega)
    have hrs : (0 ≤ a.toInt → 0 ≤ r.toInt) ∧ (a.toInt ≤ 0 → r.toInt ≤ 0) :=
      ⟨fun h => hr' ▸ Int.tmod_nonneg _ h, fun h => hr' ▸ tmod_nonpos _ h⟩
    obtain ⟨hb1, hb2⟩ := inRange_toInt b hn
    obtain ⟨hr1, hr2⟩ := inRange_toInt r hn
    have hbr : (b + r).toInt = b.toInt + r.toInt := wraps_exact hn (wraps_add b r) ⟨by omega, by omega⟩
    obtain ⟨m, hm, hm'⟩ := cMod_some hn hb (a := b + r) (by omega)
    have hmv : m.toInt = if r.toInt = 0 then 0 else b.toInt + r.toInt := by
      rw [hm', hbr]
      split
      next h => rw [h]; simp
      next h =>
        rcases Int.lt_or_gt_of_ne hb with hneg | hpos
        · have : (-(b.toInt + r.toInt)).tmod (-b.toInt) = -(b.toInt + r.toInt) :=
            Int.tmod_eq_of_lt (by omega) (by omega)
          rw [Int.tmod_neg, Int.neg_tmod] at this
          omega
        · exact Int.tmod_eq_of_lt (by omega) (by omega)
    have hqa : r.toInt ≠ 0 → q.toInt.natAbs < a.toInt.natAbs := by
      intro h0
      have hq2 : q.toInt.natAbs = a.toInt.natAbs / b.toInt.natAbs := by rw [hq']; exact Int.natAbs_tdiv _ _
      have ha0 : 0 < a.toInt.natAbs := by
        rcases Nat.eq_zero_or_pos a.toInt.natAbs with h | h
        · have : a.toInt = 0 := by omega
          rw [this, Int.zero_tmod] at hr'; omega
        · exact h
      rw [hq2]
      exact Nat.div_lt_self ha0 (by omega)
    have hq1 : (q - (if r.toInt ≠ 0 then 1#n else 0#n)).toInt = q.toInt - (if r.toInt ≠ 0 then 1 else 0) := by
      obtain ⟨hq1, hq2⟩ := inRange_toInt q hn
      split
      next h =>
        have h1 : (1#n).toInt = 1 := by
          have := ofInt_toInt (n := n) (x := 1) hn ⟨by omega, by omega⟩
          simpa using this
        have h2 := hqa h
        rw [wraps_exact hn (wraps_sub q 1#n) ⟨by rw [h1]; omega, by rw [h1]; omega⟩, h1]
      next h => simp
    refine ⟨q - (if r.toInt ≠ 0 then 1#n else 0#n), m, ?_, ?_, fun _ => ?_, fun h => absurd h hno⟩
    · simp only [floorDivOp, if_neg hb, if_neg hs, hq, hr, Option.bind_eq_bind, Option.bind_some, Option.pure_def]
    · simp only [modOp, if_neg hb, if_neg hs, hr, hm, Option.bind_eq_bind, Option.bind_some, Option.pure_def]
    · rw [hq1, hmv]
      rw [← hq', ← hr', Int.mul_comm] at hdm
      refine ⟨?_, fun hpos => ?_, fun hneg => ?_⟩
      · by_cases h : r.toInt = 0
        · rw [if_pos h, if_neg (by simpa using h)]; simpa [h] using hdm.symm
        · rw [if_neg h, if_pos h, Int.sub_mul]; omega
      · split <;> omega
      · split <;> omega

/-- Unsigned division and remainder. -/
theorem unsigned_floordiv_mod (a b : BitVec n) :
    (b.toNat = 0 → floorDivUnsigned a b = .error .divisionByZero ∧ modUnsigned a b = .error .divisionByZero) ∧
    (b.toNat ≠ 0 → ∃ q m, floorDivUnsigned a b = .ok q ∧ modUnsigned a b = .ok m ∧
      a.toNat = q.toNat * b.toNat + m.toNat ∧ m.toNat < b.toNat) := by
  have hz : b = 0 ↔ b.toNat = 0 := by rw [← BitVec.toNat_inj]; simp
  refine ⟨fun h => ⟨if_pos (hz.2 h), if_pos (hz.2 h)⟩, fun h => ⟨_, _, if_neg (fun e => h (hz.1 e)),
    if_neg (fun e => h (hz.1 e)), ?_, ?_⟩⟩
  · simp only [BitVec.udiv_eq, BitVec.umod_eq, BitVec.toNat_udiv, BitVec.toNat_umod]
    exact (Nat.div_add_mod' _ _).symm
  · simp only [BitVec.umod_eq, BitVec.toNat_umod]
    exact Nat.mod_lt _ (by omega)

/-! Non-trivial cases: `-7 // 2`, `7 // -2`, `MIN // -1` and a sum which wraps. -/

example : floorDivOp (BitVec.ofInt 32 (-7)) 2#32 = some (.ok (BitVec.ofInt 32 (-4))) ∧
    modOp (BitVec.ofInt 32 (-7)) 2#32 = some (.ok 1#32) := ⟨rfl, rfl⟩
example : floorDivOp 7#32 (BitVec.ofInt 32 (-2)) = some (.ok (BitVec.ofInt 32 (-4))) ∧
    modOp 7#32 (BitVec.ofInt 32 (-2)) = some (.ok (BitVec.ofInt 32 (-1))) := ⟨rfl, rfl⟩
example : floorDivOp (BitVec.intMin 64) (BitVec.ofInt 64 (-1)) = some (.ok (BitVec.intMin 64)) ∧
    modOp (BitVec.intMin 64) (BitVec.ofInt 64 (-1)) = some (.ok 0#64) := ⟨rfl, rfl⟩
example : addOp (BitVec.intMax 32) [1#32, 1#32] = BitVec.ofInt 32 (-2 ^ 31 + 1) ∧
    absOp (BitVec.intMin 32) = some (BitVec.intMin 32) ∧ absOp (BitVec.ofInt 32 (-5)) = some 5#32 := by decide +kernel
example : FloorDivMod (-7) 2 (-4) 1 := ⟨by decide, by decide, by decide⟩

end Verif.Ops
