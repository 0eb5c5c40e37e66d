import Mathlib.Tactic.Linarith
import Mathlib.Tactic.NormNum
import Mathlib.Tactic.Positivity
import Mathlib.Tactic.FieldSimp
import Mathlib.Tactic.Ring
import Mathlib.Tactic.ByContra
import Verif.Cast.CastModel

/-!
# Properties of the casts between numeric types (C143)
-/

namespace Verif.Cast

/-! ## Specification -/

/-- The value is representable in the integer type. -/
def InRange (t : IType) (n : Int) : Prop := t.min ≤ n ∧ n ≤ t.max

/-- A finite value of a floating point type with a significand of `p` bits. -/
def Rep (p : Nat) (x : Rat) : Prop := ∃ m e : Int, |m| < 2 ^ p ∧ x = (m : Rat) * (2 : Rat) ^ e

/-- `n` is `x` without its fractional part. -/
def IsTrunc (x : Rat) (n : Int) : Prop := (0 ≤ x → (n : Rat) ≤ x ∧ x < n + 1) ∧ (x < 0 → (n : Rat) - 1 < x ∧ x ≤ n)

/-! ## Integers -/

theorem wrap_eq (t : IType) (x : Int) (h : InRange t x) : t.wrap x = x := by
  unfold InRange at h
  unfold IType.wrap
  cases t with
  | bool => simp only [IType.min, IType.max] at *; split <;> omega
  | i32 => simp only [IType.min, IType.max] at *; rw [Int.emod_eq_of_lt (by omega) (by omega)]; omega
  | i64 => simp only [IType.min, IType.max] at *; rw [Int.emod_eq_of_lt (by omega) (by omega)]; omega
  | u64 => simp only [IType.min, IType.max] at *; rw [Int.emod_eq_of_lt (by omega) (by omega)]; omega

/-- A cast between integer types returns the same number if the type can represent it, and is an error otherwise. -/
theorem cast_int (dst src : IType) (x : Int) (hx : InRange src x) :
    (InRange dst x → castInt dst src x = .ok x) ∧ (¬ InRange dst x → castInt dst src x = .error ()) := by
  unfold castInt
  cases hs : safeRange dst src with
  | none =>
    have hin : InRange dst x := by
      unfold safeRange at hs
      unfold InRange at *
      split at hs
      · rename_i h; rw [← h]; exact hx
      · simp only at hs
        split at hs
        · omega
        · cases hs
    exact ⟨fun _ => by simp only; rw [wrap_eq dst x hin], fun h => absurd hin h⟩
  | some r =>
    obtain ⟨lo, hi⟩ := r
    have hin : (lo ≤ x ∧ x ≤ hi) ↔ InRange dst x := by
      unfold safeRange at hs
      unfold InRange at *
      split at hs
      · cases hs
      · simp only at hs
        split at hs
        · cases hs
        · obtain ⟨rfl, rfl⟩ := Prod.mk.inj (Option.some.inj hs)
          omega
    simp only
    constructor
    · intro h; rw [if_pos (hin.2 h), wrap_eq dst x h]
    · intro h; rw [if_neg (fun hc => h (hin.1 hc))]

/-! ## Floating point numbers -/

theorem two_zpow_pos (e : Int) : (0 : Rat) < (2 : Rat) ^ e := zpow_pos (by norm_num) e

/-- Numbers that are at least `2 ^ N` in absolute value are multiples of `2 ^ (N - p + 1)`. -/
theorem rep_grid {p : Nat} {x : Rat} (h : Rep p x) {N : Int} (hx : (2 : Rat) ^ N ≤ |x|) : ∃ k : Int, x = k * (2 : Rat) ^ (N - p + 1) := by
  obtain ⟨m, e, hm, rfl⟩ := h
  have he : N - p + 1 ≤ e := by
    by_contra hc
    have h1 : e ≤ N - p := by omega
    have h2 : |(m : Rat) * (2 : Rat) ^ e| < (2 : Rat) ^ N := by
      rw [abs_mul, abs_of_pos (two_zpow_pos e)]
      have h3 : (|m| : Rat) < 2 ^ p := by exact_mod_cast hm
      calc |(m : Rat)| * (2 : Rat) ^ e < 2 ^ p * (2 : Rat) ^ e := mul_lt_mul_of_pos_right h3 (two_zpow_pos e)
        _ ≤ 2 ^ p * (2 : Rat) ^ (N - p) := mul_le_mul_of_nonneg_left (zpow_le_zpow_right₀ (by norm_num) h1) (by positivity)
        _ = (2 : Rat) ^ N := by
          rw [← zpow_natCast, ← zpow_add₀ (by norm_num)]
          congr 1
          omega
    linarith
  obtain ⟨d, hd⟩ : ∃ d : Nat, e = (N - p + 1) + d := ⟨(e - (N - p + 1)).toNat, by omega⟩
  refine ⟨m * 2 ^ d, ?_⟩
  rw [hd, zpow_add₀ (by norm_num), zpow_natCast]
  push_cast
  ring

/-- Numbers less than `2 ^ N` are at most the number before it. -/
theorem rep_below {p : Nat} (hp : 0 < p) {x : Rat} (h : Rep p x) {N : Int} (hx : x < (2 : Rat) ^ N) : x ≤ (2 : Rat) ^ N - (2 : Rat) ^ (N - p) := by
  by_cases hs : (2 : Rat) ^ (N - 1) ≤ |x|
  · obtain ⟨k, hk⟩ := rep_grid h hs
    rw [show N - 1 - p + 1 = N - p by ring] at hk
    have hN : (2 : Rat) ^ N = 2 ^ p * (2 : Rat) ^ (N - p) := by
      rw [← zpow_natCast, ← zpow_add₀ (by norm_num)]
      congr 1
      omega
    have h1 := two_zpow_pos (N - p)
    rw [hN, hk] at hx
    have h2 : (k : Rat) < 2 ^ p := lt_of_mul_lt_mul_right hx h1.le
    have h3 : k + 1 ≤ 2 ^ p := by
      have : k < 2 ^ p := by exact_mod_cast h2
      omega
    have h4 : (k : Rat) + 1 ≤ 2 ^ p := by exact_mod_cast h3
    rw [hN, hk]
    nlinarith
  · have h1 : x < (2 : Rat) ^ (N - 1) := lt_of_le_of_lt (le_abs_self x) (not_le.1 hs)
    have h2 : (2 : Rat) ^ N = 2 * (2 : Rat) ^ (N - 1) := by
      rw [← zpow_one_add₀ (by norm_num)]
      congr 1
      ring
    have h3 : (2 : Rat) ^ (N - p) ≤ (2 : Rat) ^ (N - 1) := zpow_le_zpow_right₀ (by norm_num) (by omega)
    linarith

theorem isTrunc_iff (x : Rat) (n : Int) : IsTrunc x n ↔ n = if 0 ≤ x then ⌊x⌋ else ⌈x⌉ := by
  unfold IsTrunc
  by_cases h : 0 ≤ x
  · rw [if_pos h]
    constructor
    · rintro ⟨h1, _⟩; exact (Int.floor_eq_iff.2 (h1 h)).symm
    · rintro rfl; exact ⟨fun _ => ⟨Int.floor_le x, Int.lt_floor_add_one x⟩, fun hc => absurd h (not_le.2 hc)⟩
  · rw [if_neg h]
    constructor
    · rintro ⟨_, h1⟩; exact (Int.ceil_eq_iff.2 (h1 (not_le.1 h))).symm
    · rintro rfl
      exact ⟨fun hc => absurd hc h, fun _ => ⟨by have := Int.ceil_lt_add_one x; linarith, Int.le_ceil x⟩⟩

/-- The range that is accepted. -/
theorem accepted (src : FType) (dst : IType) (hd : dst ≠ .bool) {x : Rat} (h : Rep src.digits x) :
    (-(minSafe src dst).val ≤ x ∧ x ≤ (maxSafe src dst).val) ↔
      (if dst.signed then (dst.min : Rat) - 1 < x else 0 ≤ x) ∧ x < dst.max + 1 := by
  have hmax : (maxSafe src dst).val = (2 : Rat) ^ (dst.digits : Int) - (2 : Rat) ^ ((dst.digits : Int) - src.digits) := by
    cases src <;> cases dst
    · exact absurd rfl hd
    · rw [show maxSafe .f32 .i32 = ⟨2147483520, 0⟩ by decide +kernel]; norm_num [Dyadic.val, IType.digits, FType.digits]
    · rw [show maxSafe .f32 .i64 = ⟨9223371487098961920, 0⟩ by decide +kernel]; norm_num [Dyadic.val, IType.digits, FType.digits]
    · rw [show maxSafe .f32 .u64 = ⟨18446742974197923840, 0⟩ by decide +kernel]; norm_num [Dyadic.val, IType.digits, FType.digits]
    · exact absurd rfl hd
    · rw [show maxSafe .f64 .i32 = ⟨9007199254740991, 22⟩ by decide +kernel]; norm_num [Dyadic.val, IType.digits, FType.digits]
    · rw [show maxSafe .f64 .i64 = ⟨9223372036854774784, 0⟩ by decide +kernel]; norm_num [Dyadic.val, IType.digits, FType.digits]
    · rw [show maxSafe .f64 .u64 = ⟨18446744073709549568, 0⟩ by decide +kernel]; norm_num [Dyadic.val, IType.digits, FType.digits]
  have hpow : (2 : Rat) ^ (dst.digits : Int) = dst.max + 1 := by
    cases dst
    · exact absurd rfl hd
    all_goals norm_num [IType.digits, IType.max]
  have hupper : x ≤ (maxSafe src dst).val ↔ x < dst.max + 1 := by
    rw [hmax, ← hpow]
    constructor
    · intro hx
      have := two_zpow_pos ((dst.digits : Int) - src.digits)
      linarith
    · exact rep_below (by cases src <;> decide) h
  rw [hupper]
  refine and_congr_left fun _ => ?_
  cases hsg : dst.signed with
  | false =>
    have : minSafe src dst = ⟨0, 0⟩ := by unfold minSafe; rw [hsg]; rfl
    rw [this]
    simp [Dyadic.val]
  | true =>
    rw [if_pos rfl]
    have hmin : (dst.min : Rat) = -(2 : Rat) ^ (dst.digits : Int) := by
      cases dst
      · cases hsg
      · norm_num [IType.digits, IType.min]
      · norm_num [IType.digits, IType.min]
      · cases hsg
    have hpw := two_zpow_pos (dst.digits : Int)
    -- what is known of numbers outside of the range
    have hgrid : x < dst.min → ∃ k : Int, x = k * (2 : Rat) ^ ((dst.digits : Int) - src.digits + 1) := by
      intro hx
      apply rep_grid h
      rw [hmin] at hx
      rw [abs_of_neg (by linarith)]
      linarith
    have hcases : (src = .f64 ∧ dst = .i32) ∨ ((minSafe src dst).val = -(dst.min : Rat) ∧ ∃ j : Nat, (dst.digits : Int) - src.digits + 1 = j) := by
      cases src <;> cases dst
      · exact absurd rfl hd
      · right; exact ⟨by rw [show minSafe .f32 .i32 = ⟨2147483648, 0⟩ by decide +kernel]; norm_num [Dyadic.val, IType.min], ⟨8, rfl⟩⟩
      · right; exact ⟨by rw [show minSafe .f32 .i64 = ⟨9223372036854775808, 0⟩ by decide +kernel]; norm_num [Dyadic.val, IType.min], ⟨40, rfl⟩⟩
      · cases hsg
      · exact absurd rfl hd
      · left; exact ⟨rfl, rfl⟩
      · right; exact ⟨by rw [show minSafe .f64 .i64 = ⟨9223372036854775808, 0⟩ by decide +kernel]; norm_num [Dyadic.val, IType.min], ⟨11, rfl⟩⟩
      · cases hsg
    rcases hcases with ⟨rfl, rfl⟩ | ⟨hval, j, hj⟩
    · rw [show minSafe .f64 .i32 = ⟨9007199258935294, 22⟩ by decide +kernel]
      simp only [Dyadic.val, IType.min] at *
      constructor
      · intro hx
        refine lt_of_lt_of_le ?_ hx
        norm_num
      · intro hx
        by_cases hlt : x < ((-2147483648 : Int) : Rat)
        · obtain ⟨k, rfl⟩ := hgrid hlt
          simp only [IType.digits, FType.digits] at hx ⊢
          norm_num at hx ⊢
          have h1 : (-4503599629467648 : Rat) < k := by linarith
          have h2 : (-4503599629467648 : Int) < k := by exact_mod_cast h1
          have h3 : (-4503599629467647 : Int) ≤ k := by omega
          have h4 : (-4503599629467647 : Rat) ≤ k := by exact_mod_cast h3
          linarith
        · norm_num at hlt ⊢
          linarith
    · rw [hval, neg_neg]
      constructor
      · intro hx; linarith
      · intro hx
        by_contra hc
        obtain ⟨k, hk⟩ := hgrid (not_le.1 hc)
        rw [hj, zpow_natCast] at hk
        have hxi : x = ((k * 2 ^ j : Int) : Rat) := by rw [hk]; push_cast; rfl
        rw [hxi] at hx hc
        have h1 : dst.min - 1 < k * 2 ^ j := by exact_mod_cast hx
        have h2 : ¬ dst.min ≤ k * 2 ^ j := by exact_mod_cast hc
        omega

/-- A cast of a finite number of a floating point type to a signed integer type succeeds exactly if the truncated number is
representable, and returns it; to an unsigned type, exactly if the number is moreover not negative.  It never has undefined behaviour. -/
theorem cast_float (src : FType) (dst : IType) (hd : dst ≠ .bool) {x : Rat} (h : Rep src.digits x) :
    (∀ n, IsTrunc x n → InRange dst n → (dst.signed = true ∨ 0 ≤ x) → castFlt src dst (.fin x) = some (.ok n)) ∧
    (∀ n, IsTrunc x n → ¬ (InRange dst n ∧ (dst.signed = true ∨ 0 ≤ x)) → castFlt src dst (.fin x) = some (.error ())) := by
  have hacc := accepted src dst hd h
  have hrange : ∀ n, IsTrunc x n → ((InRange dst n ∧ (dst.signed = true ∨ 0 ≤ x)) ↔
      (if dst.signed then (dst.min : Rat) - 1 < x else 0 ≤ x) ∧ x < dst.max + 1) := by
    intro n hn
    unfold IsTrunc at hn
    unfold InRange
    have hneg : dst.min ≤ 0 := by cases dst <;> decide
    have hposm : 0 ≤ dst.max := by cases dst <;> decide
    have hneg' : (dst.min : Rat) ≤ 0 := by exact_mod_cast hneg
    have hpos' : (0 : Rat) ≤ dst.max := by exact_mod_cast hposm
    by_cases h0 : 0 ≤ x
    · obtain ⟨n1, n2⟩ := hn.1 h0
      have hn0 : 0 ≤ n := by
        have : (-1 : Rat) < n := by linarith
        have : (-1 : Int) < n := by exact_mod_cast this
        omega
      have hup : n ≤ dst.max ↔ x < dst.max + 1 := by
        constructor
        · intro hc
          have : (n : Rat) ≤ dst.max := by exact_mod_cast hc
          linarith
        · intro hc
          have : (n : Rat) < dst.max + 1 := by linarith
          have : n < dst.max + 1 := by exact_mod_cast this
          omega
      have hlow : if dst.signed then (dst.min : Rat) - 1 < x else 0 ≤ x := by
        split
        · linarith
        · exact h0
      constructor
      · rintro ⟨⟨_, hc⟩, _⟩; exact ⟨hlow, hup.1 hc⟩
      · rintro ⟨_, hc⟩; exact ⟨⟨by omega, hup.2 hc⟩, Or.inr h0⟩
    · have hlt := not_le.1 h0
      obtain ⟨n1, n2⟩ := hn.2 hlt
      have hn0 : n ≤ 0 := by
        have : (n : Rat) < 1 := by linarith
        have : n < 1 := by exact_mod_cast this
        omega
      have hlo : dst.min ≤ n ↔ (dst.min : Rat) - 1 < x := by
        constructor
        · intro hc
          have : (dst.min : Rat) ≤ n := by exact_mod_cast hc
          linarith
        · intro hc
          have : (dst.min : Rat) - 1 < n := by linarith
          have : dst.min - 1 < n := by exact_mod_cast this
          omega
      cases hsg : dst.signed with
      | false => simp [h0]
      | true =>
        simp only [true_or, and_true, if_true]
        rw [hlo]
        exact ⟨fun hc => ⟨hc.1, by linarith⟩, fun hc => ⟨hc.1, by omega⟩⟩
  unfold castFlt Flt.within
  simp only [Bool.and_eq_true, decide_eq_true_iff]
  constructor
  · intro n hn hr hs
    rw [if_pos (hacc.2 ((hrange n hn).1 ⟨hr, hs⟩))]
    unfold truncTo
    simp only
    rw [if_neg hd, ← (isTrunc_iff x n).1 hn]
    unfold InRange at hr
    rw [if_pos hr]
    rfl
  · intro n hn hr
    rw [if_neg (fun hc => hr ((hrange n hn).2 (hacc.1 hc)))]

/-- A cast of an infinity or of NaN to an integer type is an error. -/
theorem cast_not_finite (src : FType) (dst : IType) :
    (∀ negative, castFlt src dst (.inf negative) = some (.error ())) ∧ castFlt src dst .nan = some (.error ()) :=
  ⟨fun _ => rfl, rfl⟩

/-- A cast to an unsigned type rejects numbers between -1 and 0, although they would be truncated to 0. -/
theorem cast_unsigned_counterexample : castFlt .f64 .u64 (.fin (-1 / 2)) = some (.error ()) ∧ IsTrunc (-1 / 2) 0 ∧ InRange .u64 0 ∧
    castFlt .f64 .i64 (.fin (-1 / 2)) = some (.ok 0) := by
  have hrep : Rep FType.f64.digits (-1 / 2) := ⟨-1, -1, by norm_num [FType.digits], by norm_num⟩
  have ht : IsTrunc (-1 / 2) 0 := by unfold IsTrunc; norm_num
  refine ⟨?_, ht, by unfold InRange; decide, ?_⟩
  · exact (cast_float .f64 .u64 (by decide) hrep).2 0 ht (by norm_num [IType.signed])
  · exact (cast_float .f64 .i64 (by decide) hrep).1 0 ht (by unfold InRange; decide) (Or.inl rfl)

example : castInt .i32 .u64 4294967296 = .error () ∧ castInt .u64 .i32 (-1) = .error () ∧ castInt .i64 .i32 (-5) = .ok (-5) ∧
    InRange .u64 4294967296 := by
  refine ⟨by rfl, by rfl, by rfl, by unfold InRange; decide⟩

/-- The greatest doubles that are truncated to the least `int32`, and the next ones. -/
example : castFlt .f64 .i32 (.fin (-2147483648 - 3 / 4)) = some (.ok (-2147483648)) ∧
    castFlt .f64 .i32 (.fin (-2147483649)) = some (.error ()) ∧ castFlt .f32 .i32 (.fin 2147483648) = some (.error ()) := by
  have r1 : Rep FType.f64.digits (-2147483648 - 3 / 4) := ⟨-8589934595, -2, by norm_num [FType.digits], by norm_num⟩
  have r2 : Rep FType.f64.digits (-2147483649) := ⟨-2147483649, 0, by norm_num [FType.digits], by norm_num⟩
  have r3 : Rep FType.f32.digits 2147483648 := ⟨1, 31, by norm_num [FType.digits], by norm_num⟩
  refine ⟨(cast_float .f64 .i32 (by decide) r1).1 _ (by unfold IsTrunc; norm_num) (by unfold InRange; decide) (Or.inl rfl),
    (cast_float .f64 .i32 (by decide) r2).2 (-2147483649) (by unfold IsTrunc; norm_num) (by unfold InRange; simp [IType.min]),
    (cast_float .f32 .i32 (by decide) r3).2 2147483648 (by unfold IsTrunc; norm_num) (by unfold InRange; simp [IType.max])⟩

/-! ## The rounding in the computation of the limits -/

/-- The natural numbers with `p` significant bits. -/
def HasBits (p v : Nat) : Prop := ∃ q t, q < 2 ^ p ∧ v = q * 2 ^ t

/-- Rounding as the processor does it: the result has `p` significant bits and no number with `p`
significant bits is nearer to the exact value. -/
theorem roundNat_nearest (p m : Nat) (hp : 0 < p) :
    HasBits p (roundNat p m) ∧
    ∀ v, HasBits p v → ((m : Int) - roundNat p m).natAbs ≤ ((m : Int) - v).natAbs := by
  by_cases hs : (if m = 0 then 0 else Nat.log2 m + 1) - p = 0
  · have hr : roundNat p m = m := by simp [roundNat, hs]
    rw [hr]
    refine ⟨⟨m, 0, ?_, by simp⟩, by simp⟩
    by_cases h0 : m = 0
    · subst h0; exact Nat.two_pow_pos p
    · simp only [h0, if_false] at hs
      exact (Nat.log2_lt h0).1 (by omega)
  · have h0 : m ≠ 0 := by rintro rfl; simp at hs
    simp only [h0, if_false] at hs
    obtain ⟨s, hsd⟩ : ∃ s, s = Nat.log2 m + 1 - p := ⟨_, rfl⟩
    have hL : Nat.log2 m = p - 1 + s := by omega
    have hlo : 2 ^ (p - 1) * 2 ^ s ≤ m := by
      rw [← pow_add, ← hL]; exact Nat.log2_self_le h0
    have hhi : m < 2 ^ p * 2 ^ s := by
      rw [← pow_add]; exact (Nat.log2_lt h0).1 (by omega)
    have hS := Nat.two_pow_pos s
    have hdm := Nat.div_add_mod m (2 ^ s)
    have hml := Nat.mod_lt m hS
    have hqlo : 2 ^ (p - 1) ≤ m / 2 ^ s := (Nat.le_div_iff_mul_le hS).2 hlo
    have hqhi : m / 2 ^ s < 2 ^ p := (Nat.div_lt_iff_lt_mul hS).2 hhi
    have hdef : roundNat p m =
        (if 2 * (m % 2 ^ s) > 2 ^ s ∨ (2 * (m % 2 ^ s) = 2 ^ s ∧ (m / 2 ^ s) % 2 = 1)
          then m / 2 ^ s + 1 else m / 2 ^ s) * 2 ^ s := by
      have : ¬ s = 0 := by omega
      simp only [roundNat, h0, if_false, ← hsd, this]
    generalize m / 2 ^ s = q at *
    generalize m % 2 ^ s = r at *
    have hbits : HasBits p (roundNat p m) := by
      rw [hdef]
      split
      · by_cases h : q + 1 < 2 ^ p
        · exact ⟨q + 1, s, h, rfl⟩
        · refine ⟨1, p + s, Nat.one_lt_two_pow (by omega), ?_⟩
          have : q + 1 = 2 ^ p := by omega
          rw [this, pow_add]; ring
      · exact ⟨q, s, hqhi, rfl⟩
    refine ⟨hbits, ?_⟩
    rintro v ⟨k, t, hk, rfl⟩
    -- every such number is at most the multiple below or at least the multiple above
    have key : k * 2 ^ t ≤ q * 2 ^ s ∨ (q + 1) * 2 ^ s ≤ k * 2 ^ t := by
      by_cases hts : s ≤ t
      · obtain ⟨d, rfl⟩ := Nat.exists_eq_add_of_le hts
        have e : k * 2 ^ (s + d) = (k * 2 ^ d) * 2 ^ s := by rw [pow_add]; ring
        rw [e]
        rcases Nat.lt_or_ge q (k * 2 ^ d) with h | h
        · exact .inr (Nat.mul_le_mul_right _ h)
        · exact .inl (Nat.mul_le_mul_right _ h)
      · left
        have h1 : k * 2 ^ t ≤ 2 ^ p * 2 ^ (s - 1) :=
          Nat.mul_le_mul hk.le (Nat.pow_le_pow_right (by omega) (by omega))
        have h2 : 2 ^ p * 2 ^ (s - 1) = 2 ^ (p - 1) * 2 ^ s := by
          rw [← pow_add, ← pow_add]; congr 1; omega
        exact h1.trans (h2.le.trans (Nat.mul_le_mul_right _ hqlo))
    rw [hdef]
    have e1 : (q + 1) * 2 ^ s = q * 2 ^ s + 2 ^ s := by ring
    have e2 : 2 ^ s * q = q * 2 ^ s := by ring
    rw [e1] at key
    split
    · rw [e1]; omega
    · omega

/-- A value half way between two neighbours is rounded to the one with the even significand. -/
theorem roundNat_ties_even (p q s : Nat) (hp : 0 < p) (hlo : 2 ^ (p - 1) ≤ q) (hhi : q < 2 ^ p) :
    roundNat p (q * 2 ^ (s + 1) + 2 ^ s) =
      (if q % 2 = 0 then q else q + 1) * 2 ^ (s + 1) := by
  have hS := Nat.two_pow_pos s
  have e : 2 ^ (s + 1) = 2 * 2 ^ s := by ring
  have h0 : q * 2 ^ (s + 1) + 2 ^ s ≠ 0 := by omega
  have hlog : Nat.log2 (q * 2 ^ (s + 1) + 2 ^ s) = p + s := by
    refine (Nat.log2_eq_iff h0).2 ⟨?_, ?_⟩
    · have : 2 ^ (p + s) = 2 ^ (p - 1) * 2 ^ (s + 1) := by
        rw [← pow_add]; congr 1; omega
      have := Nat.mul_le_mul_right (2 ^ (s + 1)) hlo
      omega
    · have : 2 ^ (p + s + 1) = 2 ^ p * 2 ^ (s + 1) := by rw [← pow_add]; rfl
      have := Nat.mul_le_mul_right (2 ^ (s + 1)) (Nat.succ_le_of_lt hhi)
      have e3 : q.succ * 2 ^ (s + 1) = q * 2 ^ (s + 1) + 2 ^ (s + 1) := by rw [Nat.succ_mul]
      omega
  have hsub : p + s + 1 - p = s + 1 := by omega
  have hdiv : (q * 2 ^ (s + 1) + 2 ^ s) / 2 ^ (s + 1) = q := by
    rw [Nat.mul_comm, Nat.mul_add_div (by omega), Nat.div_eq_of_lt (by omega)]; omega
  have hmod : (q * 2 ^ (s + 1) + 2 ^ s) % 2 ^ (s + 1) = 2 ^ s := by
    rw [Nat.mul_comm, Nat.mul_add_mod, Nat.mod_eq_of_lt (by omega)]
  simp only [roundNat, h0, if_false, hlog, hsub, hdiv, hmod]
  rw [if_neg (by omega)]
  congr 1
  rcases Nat.mod_two_eq_zero_or_one q with h | h <;> simp [h, e]

example : roundNat 24 (2 ^ 24 + 1) = 2 ^ 24 ∧ roundNat 24 (2 ^ 24 + 3) = 2 ^ 24 + 4 := by
  decide +kernel

end Verif.Cast
