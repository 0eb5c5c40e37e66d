import Verif.Forest.SingleModel
import Mathlib.Tactic.Ring
import Mathlib.Tactic.Linarith

/-!
# Rounding of `float`s: nearest value and midpoints
-/

namespace Verif.Forest

/-- A number with at most 24 significant bits, as a multiple of 2^-149 (the range of exponents is not limited here). -/
def Rep (n : Int) : Prop := ∃ (m : Int) (e : Nat), n = m * 2 ^ e ∧ m.natAbs < 2 ^ 24

/-- The finite `float`s: at most 24 significant bits and at most `FLT_MAX`. -/
def Fl.Ok : Fl → Prop
  | .num n => Rep n ∧ n.natAbs ≤ maxF
  | _ => True

theorem rep_nat {n : Int} (h : Rep n) : ∃ m e : Nat, n.natAbs = m * 2 ^ e ∧ m < 2 ^ 24 := by
  obtain ⟨m, e, rfl, hm⟩ := h
  exact ⟨m.natAbs, e, by rw [Int.natAbs_mul, Int.natAbs_pow]; rfl, hm⟩

/-- Nothing representable lies strictly between the two candidates of `roundNat`. -/
theorem gap {n m f : Nat} (he : 24 ≤ n.log2) (hm : m < 2 ^ 24) :
    m * 2 ^ f ≤ n / 2 ^ (n.log2 + 1 - 24) * 2 ^ (n.log2 + 1 - 24) ∨
    (n / 2 ^ (n.log2 + 1 - 24) + 1) * 2 ^ (n.log2 + 1 - 24) ≤ m * 2 ^ f := by
  generalize hE : n.log2 + 1 - 24 = e
  by_cases hf : e ≤ f
  · obtain ⟨d, rfl⟩ := Nat.exists_eq_add_of_le hf
    have : m * 2 ^ (e + d) = (m * 2 ^ d) * 2 ^ e := by rw [Nat.pow_add]; ring
    rw [this]
    rcases Nat.lt_or_ge (n / 2 ^ e) (m * 2 ^ d) with h | h
    · right; exact Nat.mul_le_mul_right _ h
    · left; exact Nat.mul_le_mul_right _ h
  · left
    have h0 : n ≠ 0 := by rintro rfl; simp at he
    have h1 : 2 ^ n.log2 ≤ n := Nat.log2_self_le h0
    have h2 : n.log2 = e + 23 := by omega
    have h3 : 2 ^ 23 ≤ n / 2 ^ e := by
      rw [Nat.le_div_iff_mul_le (Nat.two_pow_pos e), ← Nat.pow_add]
      rw [h2, Nat.add_comm] at h1; exact h1
    calc m * 2 ^ f ≤ 2 ^ 24 * 2 ^ f := Nat.mul_le_mul_right _ (by omega)
      _ = 2 ^ 23 * 2 ^ (f + 1) := by rw [Nat.pow_succ 2 f]; ring
      _ ≤ 2 ^ 23 * 2 ^ e := Nat.mul_le_mul_left _ (Nat.pow_le_pow_right (by omega) (by omega))
      _ ≤ n / 2 ^ e * 2 ^ e := Nat.mul_le_mul_right _ h3

theorem roundNat_small {n : Nat} (h : n.log2 < 24) : roundNat n = n := by
  have he : n.log2 + 1 - 24 = 0 := by omega
  simp only [roundNat, he]
  simp [Nat.mod_one]

/-- `roundNat` finds the nearest representable number. -/
theorem roundNat_nearest (n : Nat) {m f : Nat} (hm : m < 2 ^ 24) :
    ((roundNat n : Int) - n).natAbs ≤ ((m * 2 ^ f : Nat) - (n : Int)).natAbs := by
  rcases Nat.lt_or_ge n.log2 24 with h | h
  · rw [roundNat_small h]; simp
  · have hg := gap (n := n) (m := m) (f := f) h hm
    simp only [roundNat]
    generalize hE : 2 ^ (n.log2 + 1 - 24) = E at *
    have hn : n / E * E + n % E = n := Nat.div_add_mod' n E
    have hlt : n % E < E := Nat.mod_lt _ (by rw [← hE]; exact Nat.two_pow_pos _)
    have hs : (n / E + 1) * E = n / E * E + E := by ring
    rw [hs] at hg ⊢
    generalize m * 2 ^ f = y at *
    generalize n / E * E = a at *
    generalize n % E = r at *
    split
    · omega
    · omega

/-- The result is exact or even. -/
theorem roundNat_even (n : Nat) : roundNat n = n ∨ roundNat n % 2 = 0 := by
  rcases Nat.lt_or_ge n.log2 24 with h | h
  · exact .inl (roundNat_small h)
  · right
    have h2 : 2 ∣ 2 ^ (n.log2 + 1 - 24) := dvd_pow_self 2 (by omega)
    apply Nat.mod_eq_zero_of_dvd
    simp only [roundNat]
    split <;> exact Dvd.dvd.mul_left h2 _

theorem roundNat_max {n : Nat} (h : n ≤ maxF) : roundNat n ≤ maxF := by
  have := roundNat_nearest n (m := 2 ^ 24 - 1) (f := 253) (by decide)
  rw [show (2 ^ 24 - 1) * 2 ^ 253 = maxF from rfl] at this
  omega

/-- The computed midpoint of two numbers lies strictly between them if there is a representable number between them and
the sum does not overflow. -/
theorem mid_between {l r x : Int} (hx : Rep x) (h1 : l < x) (h2 : x < r) (hs : (l + r).natAbs ≤ maxF) :
    ∃ m, Fl.half (Fl.add (.num l) (.num r)) = .num m ∧ l < m ∧ m < r := by
  have hmax := roundNat_max hs
  have heven := roundNat_even (l + r).natAbs
  have hnear : ((roundNat (l + r).natAbs : Int) - (l + r).natAbs).natAbs ≤
      (((2 * x).natAbs : Int) - (l + r).natAbs).natAbs := by
    obtain ⟨m, e, h, hm⟩ := hx
    have := roundNat_nearest (l + r).natAbs (m := m.natAbs) (f := e + 1) hm
    have h' : (2 * x).natAbs = m.natAbs * 2 ^ (e + 1) := by
      rw [h, Nat.pow_succ, Int.natAbs_mul, Int.natAbs_mul, Int.natAbs_pow]
      show 2 * (m.natAbs * 2 ^ e) = _
      ring
    rw [h']; exact this
  simp only [Fl.add, Fl.round]
  rw [if_neg (by omega)]
  generalize roundNat (l + r).natAbs = R at *
  simp only [Fl.half, Fl.num.injEq, exists_eq_left']
  split <;> split <;> (try split) <;> omega

end Verif.Forest
