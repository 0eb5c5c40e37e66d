import Mathlib.Tactic.Ring
import Mathlib.Tactic.Linarith
import Mathlib.Tactic.FieldSimp
import Mathlib.Tactic.Positivity
import Verif.Series.SeriesModel
import Verif.Series.SeriesSpec

/-!
# Lemmas about exponentially weighted averages
-/

namespace Verif.Series

/-- The value in row `i`. -/
abbrev at' (xs : List (Option Rat)) (i : Nat) : Option Rat := xs[i]?.join

instance (xs : List (Option Rat)) (i : Nat) : Decidable (Present xs i) := by unfold Present; infer_instance

theorem present_iff {xs : List (Option Rat)} {i : Nat} : Present xs i ↔ ∃ x, at' xs i = some x := Option.isSome_iff_exists

theorem present_lt {xs : List (Option Rat)} {i : Nat} (h : Present xs i) : i < xs.length := by
  by_contra hc
  unfold Present at h
  rw [List.getElem?_eq_none (by omega)] at h
  cases h

theorem not_present {xs : List (Option Rat)} {i : Nat} (h : ¬ Present xs i) : at' xs i = none := by
  unfold Present at h
  simpa using h

/-! ## Sums -/

theorem age_self (ig : Bool) (xs : List (Option Rat)) (i : Nat) : age ig xs i i = 0 := by
  unfold age
  split
  · rw [List.drop_eq_nil_of_le (by rw [List.length_take]; omega)]; rfl
  · omega

theorem age_succ (ig : Bool) (xs : List (Option Rat)) {i j : Nat} (hi : i + 1 < xs.length) (hj : j ≤ i) :
    age ig xs (i + 1) j = age ig xs i j + (if ig then (if Present xs (i + 1) then 1 else 0) else 1) := by
  unfold age
  cases ig with
  | false => simp only [Bool.false_eq_true, if_false]; omega
  | true =>
    simp only [if_true]
    have h1 : (xs.take (i + 1 + 1)).drop (j + 1) = (xs.take (i + 1)).drop (j + 1) ++ (xs[i + 1]?).toList := by
      rw [List.take_add_one, List.drop_append_of_le_length (by rw [List.length_take]; omega)]
    rw [h1, List.countP_append]
    congr 1
    by_cases hp : Present xs (i + 1)
    · rw [if_pos hp]
      obtain ⟨x, hx⟩ := present_iff.1 hp
      unfold at' at hx
      rw [List.getElem?_eq_getElem hi] at hx ⊢
      rw [show xs[i + 1] = some x from hx]
      rfl
    · rw [if_neg hp]
      have hx := not_present hp
      unfold at' at hx
      rw [List.getElem?_eq_getElem hi] at hx ⊢
      rw [show xs[i + 1] = none from hx]
      rfl

theorem sum_mul (c : Rat) (g : Nat → Rat) (l : List Nat) : (l.map (fun j => c * g j)).sum = c * (l.map g).sum := by
  induction l with
  | nil => simp
  | cons a l ih => rw [List.map_cons, List.sum_cons, ih, List.map_cons, List.sum_cons]; ring

theorem weightedSum_succ (f : Rat → Rat) (q : Rat) (ig : Bool) (xs : List (Option Rat)) {i : Nat} (hi : i + 1 < xs.length) :
    weightedSum f q ig xs (i + 1) = ((at' xs (i + 1)).map f).getD 0 +
      q ^ (if ig then (if Present xs (i + 1) then 1 else 0) else 1) * weightedSum f q ig xs i := by
  unfold weightedSum
  rw [List.range_succ (n := i + 1), List.map_append, List.sum_append, add_comm]
  congr 1
  · simp only [List.map_cons, List.map_nil, List.sum_cons, List.sum_nil, add_zero, age_self, pow_zero, one_mul]
  · rw [← sum_mul]
    congr 1
    apply List.map_congr_left
    intro j hj
    rw [List.mem_range] at hj
    rw [age_succ ig xs hi (by omega)]
    cases xs[j]?.join with
    | none => simp
    | some x =>
      simp only [Option.map_some, Option.getD_some]
      rw [pow_add]
      ring

theorem weightedSum_zero (f : Rat → Rat) (q : Rat) (ig : Bool) (xs : List (Option Rat)) :
    weightedSum f q ig xs 0 = ((at' xs 0).map f).getD 0 := by
  unfold weightedSum
  simp only [List.range_one, List.map_cons, List.map_nil, List.sum_cons, List.sum_nil, add_zero, age_self, pow_zero, one_mul, zero_add]

theorem weightedSum_none (f : Rat → Rat) (q : Rat) (ig : Bool) (xs : List (Option Rat)) : ∀ i, i < xs.length →
    (∀ j, j ≤ i → ¬ Present xs j) → weightedSum f q ig xs i = 0 := by
  intro i
  induction i with
  | zero => intro _ h; rw [weightedSum_zero, not_present (h 0 (by omega))]; rfl
  | succ i ih =>
    intro hi h
    rw [weightedSum_succ f q ig xs hi, not_present (h (i + 1) (by omega)), ih (by omega) (fun j hj => h j (by omega))]
    simp

/-- The weight of everything before, at a present row. -/
def decay (q : Rat) (ig : Bool) (gap : Nat) : Rat := if ig then q else q ^ (gap + 1)

theorem weightedSum_gap (f : Rat → Rat) (q : Rat) (ig : Bool) (xs : List (Option Rat)) (p : Nat) : ∀ gap, p + gap < xs.length →
    (∀ j, p < j → j ≤ p + gap → ¬ Present xs j) →
    weightedSum f q ig xs (p + gap) = (if ig then 1 else q ^ gap) * weightedSum f q ig xs p := by
  intro gap
  induction gap with
  | zero => intro _ _; cases ig <;> simp
  | succ gap ih =>
    intro hl h
    rw [show p + (gap + 1) = p + gap + 1 by omega, weightedSum_succ f q ig xs (by omega),
      not_present (h (p + gap + 1) (by omega) (by omega)), ih (by omega) (fun j h1 h2 => h j h1 (by omega)),
      if_neg (h (p + gap + 1) (by omega) (by omega))]
    cases ig with
    | true => simp
    | false =>
      simp only [Option.map_none, Option.getD_none, Bool.false_eq_true, if_false, zero_add, pow_one]
      rw [pow_succ]; ring

theorem weightedSum_next (f : Rat → Rat) (q : Rat) (ig : Bool) (xs : List (Option Rat)) {p i : Nat} {x : Rat} (hpi : p < i)
    (hx : at' xs i = some x) (h : ∀ j, p < j → j < i → ¬ Present xs j) :
    weightedSum f q ig xs i = f x + decay q ig (i - p - 1) * weightedSum f q ig xs p := by
  have hl : i < xs.length := present_lt (present_iff.2 ⟨x, hx⟩)
  obtain ⟨g, rfl⟩ : ∃ g, i = p + g + 1 := ⟨i - p - 1, by omega⟩
  rw [weightedSum_succ f q ig xs hl, hx, weightedSum_gap f q ig xs p g (by omega) (fun j h1 h2 => h j h1 (by omega)),
    if_pos (present_iff.2 ⟨x, hx⟩), show p + g + 1 - p - 1 = g by omega]
  unfold decay
  cases ig with
  | true => simp
  | false =>
    simp only [Option.map_some, Option.getD_some, Bool.false_eq_true, if_false, pow_one]
    rw [pow_succ]; ring

theorem weightedSum_first (f : Rat → Rat) (q : Rat) (ig : Bool) (xs : List (Option Rat)) {i : Nat} {x : Rat}
    (hx : at' xs i = some x) (h : ∀ j, j < i → ¬ Present xs j) : weightedSum f q ig xs i = f x := by
  have hl : i < xs.length := present_lt (present_iff.2 ⟨x, hx⟩)
  cases i with
  | zero => rw [weightedSum_zero, hx]; rfl
  | succ i =>
    rw [weightedSum_succ f q ig xs hl, hx, weightedSum_none f q ig xs i (by omega) (fun j hj => h j (by omega))]
    simp

/-! ## Rows -/

theorem at_set (rows : List (Option Rat)) (i k : Nat) (v : Rat) :
    at' (rows.set i (some v)) k = if i = k ∧ k < rows.length then some v else at' rows k := by
  unfold at'
  rw [List.getElem?_set]
  by_cases h : i = k
  · subst h
    by_cases hl : i < rows.length
    · rw [if_pos rfl, if_pos hl, if_pos ⟨rfl, hl⟩]; rfl
    · rw [if_pos rfl, if_neg hl, if_neg (fun hh => hl hh.2), List.getElem?_eq_none (by omega)]
  · rw [if_neg h, if_neg (fun hh => h hh.1)]

/-- The rows computed so far: the present rows up to `L` have the values `val`, and the missing ones are filled. -/
structure RowsOk (xs : List (Option Rat)) (L : Int) (val : Nat → Rat) (rows : List (Option Rat)) : Prop where
  length : rows.length = xs.length
  present : ∀ i : Nat, (i : Int) ≤ L → Present xs i → at' rows i = some (val i)
  missing : ∀ p i : Nat, (i : Int) < L → p < i → Present xs p → (∀ j, p < j → j ≤ i → ¬ Present xs j) → at' rows i = some (val p)
  before : ∀ i : Nat, (∀ p, p ≤ i → ¬ Present xs p) → at' rows i = none
  after : ∀ i : Nat, L < (i : Int) → at' rows i = none

theorem rowsOk_empty (xs : List (Option Rat)) (val : Nat → Rat) : RowsOk xs (-1) val (List.replicate xs.length none) := by
  have h : ∀ i : Nat, at' (List.replicate xs.length (none : Option Rat)) i = none := by
    intro i
    unfold at'
    rw [List.getElem?_replicate]
    split <;> rfl
  exact ⟨by simp, fun i hi => by omega, fun p i hi => by omega, fun i _ => h i, fun i _ => h i⟩

/-- The rows after a present row `i` and the rows skipped before. -/
theorem rowsOk_step {xs rows rows' : List (Option Rat)} {L : Int} {val : Nat → Rat} {i : Nat} (h : RowsOk xs L val rows)
    (hL : L < i) (hi : Present xs i) (hgap : ∀ j : Nat, L < j → j < i → ¬ Present xs j) (hLp : 0 ≤ L → Present xs L.toNat)
    (hlen : rows'.length = xs.length)
    (hrows : ∀ k : Nat, at' rows' k = if k = i then some (val i) else if 0 ≤ L ∧ L < k ∧ k < i then some (val L.toNat) else at' rows k)
    (hneg : -1 ≤ L) (hnone : L = -1 → ∀ j, j < i → ¬ Present xs j) : RowsOk xs i val rows' := by
  refine ⟨hlen, ?_, ?_, ?_, ?_⟩
  · intro k hk hp
    rw [hrows]
    by_cases hki : k = i
    · rw [if_pos hki, hki]
    · rw [if_neg hki]
      have hkL : (k : Int) ≤ L := by
        by_contra hc
        exact hgap k (by omega) (by omega) hp
      rw [if_neg (by omega)]
      exact h.present k hkL hp
  · intro p k hk hpk hp hno
    rw [hrows, if_neg (by omega)]
    by_cases hkL : L < (k : Int)
    · have hL0 : 0 ≤ L := by
        by_contra hc
        have : L = -1 := by omega
        exact hnone this p (by omega) hp
      have hpL : p = L.toNat := by
        by_contra hc
        by_cases hlt : (p : Int) < L
        · exact hno L.toNat (by omega) (by omega) (hLp hL0)
        · exact hgap p (by omega) (by omega) hp
      rw [if_pos ⟨hL0, hkL, by omega⟩, hpL]
    · rw [if_neg (by omega)]
      by_cases hkL' : (k : Int) = L
      · exfalso
        have := hLp (by omega)
        rw [show L.toNat = k by omega] at this
        exact hno k hpk (by omega) this
      · exact h.missing p k (by omega) hpk hp hno
  · intro k hk
    rw [hrows]
    by_cases hki : k = i
    · exact absurd (hki ▸ hi) (hk k (by omega))
    · rw [if_neg hki, if_neg]
      · exact h.before k hk
      · rintro ⟨h0, h1, h2⟩
        exact hk L.toNat (by omega) (hLp h0)
  · intro k hk
    rw [hrows, if_neg (by omega), if_neg (by omega)]
    exact h.after k (by omega)

theorem rowsOk_filled {xs rows : List (Option Rat)} {L : Int} {val : Nat → Rat} (h : RowsOk xs L val rows)
    (hlast : ∀ j : Nat, L < j → ¬ Present xs j) (hL : 0 ≤ L → Present xs L.toNat) : Filled xs rows := by
  refine ⟨h.length, ?_, h.before, ?_⟩
  · intro p i n hpi hin hp hn hno
    have hnL : (n : Int) ≤ L := by
      by_contra hc
      exact hlast n (by omega) hn
    have h1 := h.missing p i (by omega) hpi hp hno
    have h2 := h.present p (by omega) hp
    exact h1.trans h2.symm
  · intro i hi
    refine h.after i ?_
    by_contra hc
    refine hi L.toNat (by omega) (hL (by omega))

/-! ## Adjusted -/

theorem adjFill_spec (alpha : Rat) (ig : Bool) : ∀ (n i : Nat) (s : AdjState),
    (adjFill alpha ig i n s).prev = s.prev ∧ (adjFill alpha ig i n s).prevId = s.prevId ∧
    (adjFill alpha ig i n s).num = (if ig then 1 else (1 - alpha) ^ n) * s.num ∧
    (adjFill alpha ig i n s).den = (if ig then 1 else (1 - alpha) ^ n) * s.den ∧
    (adjFill alpha ig i n s).rows.length = s.rows.length ∧
    ∀ k, at' (adjFill alpha ig i n s).rows k = if i ≤ k ∧ k < i + n ∧ k < s.rows.length then some s.prev else at' s.rows k := by
  intro n
  induction n with
  | zero =>
    intro i s
    rw [adjFill]
    refine ⟨rfl, rfl, by cases ig <;> simp, by cases ig <;> simp, rfl, ?_⟩
    intro k
    rw [if_neg (by omega)]
  | succ n ih =>
    intro i s
    rw [adjFill]
    simp only
    have key : ∀ k, at' (s.rows.set i (some s.prev)) k = if i = k ∧ k < s.rows.length then some s.prev else at' s.rows k :=
      fun k => at_set s.rows i k s.prev
    cases ig with
    | true =>
      simp only [Bool.not_true, Bool.false_eq_true, if_false, if_true, one_mul]
      obtain ⟨h1, h2, h3, h4, h5, h6⟩ := ih (i + 1) { s with rows := s.rows.set i (some s.prev) }
      refine ⟨h1, h2, by rw [h3]; simp, by rw [h4]; simp, by rw [h5]; simp, ?_⟩
      intro k
      rw [h6]
      simp only [List.length_set]
      rw [key]
      by_cases ha : i + 1 ≤ k ∧ k < i + 1 + n ∧ k < s.rows.length
      · rw [if_pos ha, if_pos (by omega)]
      · rw [if_neg ha]
        by_cases hb : i = k ∧ k < s.rows.length
        · rw [if_pos hb, if_pos (by omega)]
        · rw [if_neg hb, if_neg (by omega)]
    | false =>
      simp only [Bool.not_false, Bool.false_eq_true, if_false, if_true]
      obtain ⟨h1, h2, h3, h4, h5, h6⟩ := ih (i + 1)
        { s with rows := s.rows.set i (some s.prev), num := s.num * (1 - alpha), den := s.den * (1 - alpha) }
      refine ⟨h1, h2, ?_, ?_, by rw [h5]; simp, ?_⟩
      · rw [h3]; simp only [Bool.false_eq_true, if_false]; rw [pow_succ]; ring
      · rw [h4]; simp only [Bool.false_eq_true, if_false]; rw [pow_succ]; ring
      intro k
      rw [h6]
      simp only [List.length_set]
      rw [key]
      by_cases ha : i + 1 ≤ k ∧ k < i + 1 + n ∧ k < s.rows.length
      · rw [if_pos ha, if_pos (by omega)]
      · rw [if_neg ha]
        by_cases hb : i = k ∧ k < s.rows.length
        · rw [if_pos hb, if_pos (by omega)]
        · rw [if_neg hb, if_neg (by omega)]

/-- What holds when the rows below `n` have been visited. -/
structure AdjInv (xs : List (Option Rat)) (alpha : Rat) (ig : Bool) (n : Nat) (s : AdjState) : Prop where
  rows : RowsOk xs s.prevId (weightedMean alpha ig xs) s.rows
  lt : s.prevId < n
  ge : -1 ≤ s.prevId
  last : 0 ≤ s.prevId → Present xs s.prevId.toNat
  gap : ∀ j : Nat, s.prevId < j → j < n → ¬ Present xs j
  zero : s.prevId = -1 → s.num = 0 ∧ s.den = 0
  num : 0 ≤ s.prevId → s.num = weightedSum (fun x => x) (1 - alpha) ig xs s.prevId.toNat ∧
    s.den = weightedSum (fun _ => 1) (1 - alpha) ig xs s.prevId.toNat ∧ s.prev = s.num / s.den

theorem adjStep_inv {xs : List (Option Rat)} {alpha : Rat} {ig : Bool} {n : Nat} {s : AdjState} (h : AdjInv xs alpha ig n s)
    (hn : n < xs.length) : AdjInv xs alpha ig (n + 1) (adjStep alpha ig n xs[n] s) := by
  have hat : at' xs n = xs[n] := by unfold at'; rw [List.getElem?_eq_getElem hn]; rfl
  generalize xs[n] = v at hat
  cases v with
  | none =>
    have hnp : ¬ Present xs n := by
      intro hp
      obtain ⟨x, hx⟩ := present_iff.1 hp
      rw [hat] at hx; cases hx
    have hlt := h.lt
    refine ⟨h.rows, by show s.prevId < _; push_cast; omega, h.ge, h.last, ?_, h.zero, h.num⟩
    intro j h1 h2
    by_cases hj : j = n
    · rw [hj]; exact hnp
    · exact h.gap j h1 (by omega)
  | some x =>
    have hp : Present xs n := present_iff.2 ⟨x, hat⟩
    have hlen := h.rows.length
    have hlt := h.lt
    have hge := h.ge
    by_cases h0 : s.prevId ≥ 0
    · unfold adjStep
      simp only
      rw [if_pos h0]
      obtain ⟨f1, f2, f3, f4, f5, f6⟩ := adjFill_spec alpha ig (n - (s.prevId + 1).toNat) (s.prevId + 1).toNat s
      generalize adjFill alpha ig (s.prevId + 1).toNat (n - (s.prevId + 1).toNat) s = s' at *
      obtain ⟨g1, g2, g3⟩ := h.num h0
      obtain ⟨L, hL⟩ : ∃ L : Nat, s.prevId = L := ⟨s.prevId.toNat, by omega⟩
      rw [hL] at hlt f3 f4 f6 g1 g2
      have hLn : L < n := by omega
      have hgap : ∀ j, L < j → j < n → ¬ Present xs j := fun j h1 h2 => h.gap j (by rw [hL]; omega) h2
      have hdec : (1 - alpha) * (if ig then 1 else (1 - alpha) ^ (n - ((L : Int) + 1).toNat)) = decay (1 - alpha) ig (n - L - 1) := by
        unfold decay
        cases ig with
        | true => simp
        | false =>
          simp only [Bool.false_eq_true, if_false]
          rw [show n - ((L : Int) + 1).toNat = n - L - 1 by omega, pow_succ]; ring
      have hnum : x + (1 - alpha) * s'.num = weightedSum (fun x => x) (1 - alpha) ig xs n := by
        rw [f3, ← mul_assoc, hdec, g1, weightedSum_next _ _ _ _ hLn hat hgap]
        rfl
      have hden : 1 + (1 - alpha) * s'.den = weightedSum (fun _ => 1) (1 - alpha) ig xs n := by
        rw [f4, ← mul_assoc, hdec, g2, weightedSum_next _ _ _ _ hLn hat hgap]
        rfl
      refine ⟨?_, by show (n : Int) < _; push_cast; omega, by show -1 ≤ (n : Int); omega, fun _ => by show Present xs (n : Int).toNat; simpa using hp, ?_, ?_, ?_⟩
      · show RowsOk xs (n : Int) _ _
        refine rowsOk_step h.rows (i := n) (by rw [hL]; omega) hp (fun j h1 h2 => h.gap j h1 h2) h.last ?_ ?_ h.ge ?_
        · show (s'.rows.set n _).length = _
          rw [List.length_set, f5, hlen]
        · intro k
          rw [hL]
          show at' (s'.rows.set n _) k = _
          rw [at_set, f5, hlen, hnum, hden, f6, hlen]
          by_cases hk : k = n
          · rw [if_pos ⟨hk.symm, by omega⟩, if_pos hk]; rfl
          · rw [if_neg (fun hh => hk hh.1.symm), if_neg hk]
            by_cases hc : (0 : Int) ≤ L ∧ (L : Int) < k ∧ k < n
            · rw [if_pos hc, if_pos (by omega), g3, g1, g2]; rfl
            · rw [if_neg hc, if_neg (by omega)]
        · intro hm; rw [hL] at hm; omega
      · intro j h1 h2
        have h1 : (n : Int) < j := h1
        omega
      · intro hm
        have hm : (n : Int) = -1 := hm
        omega
      · intro _
        refine ⟨?_, ?_, rfl⟩
        · show x + (1 - alpha) * s'.num = weightedSum _ _ _ _ (n : Int).toNat
          rw [hnum]; rfl
        · show 1 + (1 - alpha) * s'.den = weightedSum _ _ _ _ (n : Int).toNat
          rw [hden]; rfl
    · have hm : s.prevId = -1 := by omega
      obtain ⟨z1, z2⟩ := h.zero hm
      have hno : ∀ j, j < n → ¬ Present xs j := fun j hj => h.gap j (by omega) hj
      have hnum : x + (1 - alpha) * s.num = weightedSum (fun x => x) (1 - alpha) ig xs n := by
        rw [z1, weightedSum_first _ _ _ _ hat hno]; ring
      have hden : 1 + (1 - alpha) * s.den = weightedSum (fun _ => 1) (1 - alpha) ig xs n := by
        rw [z2, weightedSum_first _ _ _ _ hat hno]; ring
      unfold adjStep
      simp only
      rw [if_neg h0]
      refine ⟨?_, by show (n : Int) < _; push_cast; omega, by show -1 ≤ (n : Int); omega, fun _ => by show Present xs (n : Int).toNat; simpa using hp, ?_, ?_, ?_⟩
      · show RowsOk xs (n : Int) _ _
        refine rowsOk_step h.rows (i := n) (by omega) hp (fun j h1 h2 => h.gap j h1 h2) h.last ?_ ?_ h.ge (fun _ => hno)
        · show (s.rows.set n _).length = _
          rw [List.length_set, hlen]
        · intro k
          show at' (s.rows.set n _) k = _
          rw [at_set, hlen, hnum, hden]
          by_cases hk : k = n
          · rw [if_pos ⟨hk.symm, by omega⟩, if_pos hk]; rfl
          · rw [if_neg (fun hh => hk hh.1.symm), if_neg hk, if_neg (by omega)]
      · intro j h1 h2
        have h1 : (n : Int) < j := h1
        omega
      · intro hm
        have hm : (n : Int) = -1 := hm
        omega
      · intro _
        refine ⟨?_, ?_, rfl⟩
        · show x + (1 - alpha) * s.num = weightedSum _ _ _ _ (n : Int).toNat
          rw [hnum]; rfl
        · show 1 + (1 - alpha) * s.den = weightedSum _ _ _ _ (n : Int).toNat
          rw [hden]; rfl

theorem adjLoop_inv {xs : List (Option Rat)} {alpha : Rat} {ig : Bool} : ∀ (rest : List (Option Rat)) (n : Nat) (s : AdjState),
    xs.drop n = rest → n ≤ xs.length → AdjInv xs alpha ig n s → AdjInv xs alpha ig xs.length (adjLoop alpha ig n rest s) := by
  intro rest
  induction rest with
  | nil =>
    intro n s hd hn h
    rw [adjLoop]
    have : n = xs.length := by
      have := congrArg List.length hd
      rw [List.length_drop] at this
      simp at this
      omega
    rw [← this]; exact h
  | cons v rest ih =>
    intro n s hd hn h
    have hlt : n < xs.length := by
      have := congrArg List.length hd
      rw [List.length_drop] at this
      simp at this
      omega
    rw [List.drop_eq_getElem_cons hlt] at hd
    obtain ⟨h1, h2⟩ := List.cons.inj hd
    rw [adjLoop, ← h1]
    exact ih (n + 1) _ h2 hlt (adjStep_inv h hlt)

theorem adjusted_inv (xs : List (Option Rat)) (alpha : Rat) (ig : Bool) :
    AdjInv xs alpha ig xs.length (adjLoop alpha ig 0 xs ⟨List.replicate xs.length none, -1, 0, 0, 0⟩) := by
  refine adjLoop_inv xs 0 _ rfl (by omega) ⟨rowsOk_empty xs _, by show (-1 : Int) < _; omega, by show (-1 : Int) ≤ -1; omega, ?_, ?_, ?_, ?_⟩
  · intro h; exact absurd (show (0 : Int) ≤ -1 from h) (by omega)
  · intro j _ h; omega
  · intro _; exact ⟨rfl, rfl⟩
  · intro h; exact absurd (show (0 : Int) ≤ -1 from h) (by omega)

/-! ## Unadjusted -/

theorem unadjFill_spec (alpha prev : Rat) (ig : Bool) : ∀ (n i : Nat) (rows : List (Option Rat)) (w : Rat),
    (unadjFill alpha prev ig i n rows w).2 = (if ig then 1 else (1 - alpha) ^ n) * w ∧
    (unadjFill alpha prev ig i n rows w).1.length = rows.length ∧
    ∀ k, at' (unadjFill alpha prev ig i n rows w).1 k = if i ≤ k ∧ k < i + n ∧ k < rows.length then some prev else at' rows k := by
  intro n
  induction n with
  | zero =>
    intro i rows w
    rw [unadjFill]
    refine ⟨by cases ig <;> simp, rfl, ?_⟩
    intro k
    rw [if_neg (by omega)]
  | succ n ih =>
    intro i rows w
    rw [unadjFill]
    obtain ⟨h1, h2, h3⟩ := ih (i + 1) (rows.set i (some prev)) (if !ig then w * (1 - alpha) else w)
    refine ⟨?_, by rw [h2]; simp, ?_⟩
    · rw [h1]
      cases ig with
      | true => simp
      | false =>
        simp only [Bool.not_false, Bool.false_eq_true, if_false, if_true]
        rw [pow_succ]; ring
    · intro k
      rw [h3]
      simp only [List.length_set]
      rw [at_set]
      by_cases ha : i + 1 ≤ k ∧ k < i + 1 + n ∧ k < rows.length
      · rw [if_pos ha, if_pos (by omega)]
      · rw [if_neg ha]
        by_cases hb : i = k ∧ k < rows.length
        · rw [if_pos hb, if_pos (by omega)]
        · rw [if_neg hb, if_neg (by omega)]

/-- The state after `n` rows. -/
def uState (alpha : Rat) (ig : Bool) (xs : List (Option Rat)) : Nat → UnadjState
  | 0 => ⟨List.replicate xs.length none, -1, 0⟩
  | n + 1 => unadjStep alpha ig n (at' xs n) (uState alpha ig xs n)

/-- The value computed at row `i`. -/
def uVal (alpha : Rat) (ig : Bool) (xs : List (Option Rat)) (i : Nat) : Rat := (uState alpha ig xs (i + 1)).prev

/-- What holds when the rows below `n` have been visited. -/
structure UnadjInv (alpha : Rat) (ig : Bool) (xs : List (Option Rat)) (n : Nat) (s : UnadjState) : Prop where
  rows : RowsOk xs s.prevId (uVal alpha ig xs) s.rows
  lt : s.prevId < n
  ge : -1 ≤ s.prevId
  last : 0 ≤ s.prevId → Present xs s.prevId.toNat
  gap : ∀ j : Nat, s.prevId < j → j < n → ¬ Present xs j
  prev : 0 ≤ s.prevId → s.prev = uVal alpha ig xs s.prevId.toNat

theorem uState_inv (alpha : Rat) (ig : Bool) (xs : List (Option Rat)) : ∀ n, n ≤ xs.length →
    UnadjInv alpha ig xs n (uState alpha ig xs n) := by
  intro n
  induction n with
  | zero =>
    intro _
    refine ⟨rowsOk_empty xs _, by show (-1 : Int) < _; omega, by show (-1 : Int) ≤ -1; omega, ?_, ?_, ?_⟩
    · intro h; exact absurd (show (0 : Int) ≤ -1 from h) (by omega)
    · intro j _ h; omega
    · intro h; exact absurd (show (0 : Int) ≤ -1 from h) (by omega)
  | succ n ih =>
    intro hn
    have h := ih (by omega)
    have hlt := h.lt
    have hge := h.ge
    have hlen := h.rows.length
    by_cases hp : Present xs n
    · obtain ⟨x, hx⟩ := present_iff.1 hp
      have hv : uVal alpha ig xs n = (unadjStep alpha ig n (some x) (uState alpha ig xs n)).prev := by
        rw [uVal, uState, hx]
      rw [uState, hx]
      generalize uState alpha ig xs n = s at *
      refine ⟨?_, by show (n : Int) < _; push_cast; omega, by show -1 ≤ (n : Int); omega,
        fun _ => by show Present xs (n : Int).toNat; simpa using hp, ?_, ?_⟩
      · show RowsOk xs (n : Int) _ _
        refine rowsOk_step h.rows (i := n) (by omega) hp (fun j h1 h2 => h.gap j h1 h2) h.last ?_ ?_ h.ge ?_
        · unfold unadjStep
          simp only [List.length_set]
          split
          · rw [(unadjFill_spec _ _ _ _ _ _ _).2.1, hlen]
          · exact hlen
        · intro k
          rw [hv]
          unfold unadjStep
          simp only
          by_cases h0 : s.prevId ≥ 0
          · simp only [if_pos h0]
            rw [at_set, (unadjFill_spec _ _ _ _ _ _ _).2.1, (unadjFill_spec _ _ _ _ _ _ _).2.2, hlen]
            by_cases hk : k = n
            · rw [if_pos ⟨hk.symm, by omega⟩, if_pos hk]
            · rw [if_neg (fun hh => hk hh.1.symm), if_neg hk]
              by_cases hc : (0 : Int) ≤ s.prevId ∧ s.prevId < k ∧ k < n
              · rw [if_pos hc, if_pos (by omega), h.prev h0]
              · rw [if_neg hc, if_neg (by omega)]
          · simp only [if_neg h0]
            rw [at_set, hlen]
            by_cases hk : k = n
            · rw [if_pos ⟨hk.symm, by omega⟩, if_pos hk]
            · rw [if_neg (fun hh => hk hh.1.symm), if_neg hk, if_neg (by omega)]
        · intro hm j hj
          exact h.gap j (by omega) hj
      · intro j h1 h2
        have h1 : (n : Int) < j := h1
        omega
      · intro _
        exact hv.symm
    · rw [uState, not_present hp]
      generalize uState alpha ig xs n = s at *
      refine ⟨h.rows, by show s.prevId < _; push_cast; omega, h.ge, h.last, ?_, h.prev⟩
      intro j h1 h2
      by_cases hj : j = n
      · rw [hj]; exact hp
      · exact h.gap j h1 (by omega)

theorem unadjLoop_eq (alpha : Rat) (ig : Bool) (xs : List (Option Rat)) : ∀ (rest : List (Option Rat)) (n : Nat),
    xs.drop n = rest → n ≤ xs.length →
    unadjLoop alpha ig n rest (uState alpha ig xs n) = uState alpha ig xs xs.length := by
  intro rest
  induction rest with
  | nil =>
    intro n hd hn
    rw [unadjLoop]
    have : n = xs.length := by
      have := congrArg List.length hd
      rw [List.length_drop] at this
      simp at this
      omega
    rw [this]
  | cons v rest ih =>
    intro n hd hn
    have hlt : n < xs.length := by
      have := congrArg List.length hd
      rw [List.length_drop] at this
      simp at this
      omega
    rw [List.drop_eq_getElem_cons hlt] at hd
    obtain ⟨h1, h2⟩ := List.cons.inj hd
    rw [unadjLoop, ← ih (n + 1) h2 hlt]
    congr 1
    rw [uState]
    congr 1
    unfold at'
    rw [List.getElem?_eq_getElem hlt, ← h1]
    rfl

theorem uVal_first {alpha : Rat} {ig : Bool} {xs : List (Option Rat)} {i : Nat} {x : Rat}
    (hx : at' xs i = some x) (h : ∀ j, j < i → ¬ Present xs j) : uVal alpha ig xs i = x := by
  have hl : i < xs.length := present_lt (present_iff.2 ⟨x, hx⟩)
  have hi := uState_inv alpha ig xs i (by omega)
  rw [uVal, uState, hx]
  generalize uState alpha ig xs i = s at *
  have hlt := hi.lt
  have h0 : ¬ s.prevId ≥ 0 := by
    intro hc
    exact h s.prevId.toNat (by omega) (hi.last hc)
  unfold unadjStep
  simp only [if_neg h0]
  rw [show alpha + (1 - alpha) = 1 by ring, div_one]
  ring

theorem uVal_next {alpha : Rat} {ig : Bool} {xs : List (Option Rat)} {p i : Nat} {x : Rat} (hpi : p < i) (hp : Present xs p)
    (hx : at' xs i = some x) (h : ∀ j, p < j → j < i → ¬ Present xs j) :
    uVal alpha ig xs i = (alpha * x + decay (1 - alpha) ig (i - p - 1) * uVal alpha ig xs p) /
      (alpha + decay (1 - alpha) ig (i - p - 1)) := by
  have hl : i < xs.length := present_lt (present_iff.2 ⟨x, hx⟩)
  have hi := uState_inv alpha ig xs i (by omega)
  rw [uVal, uState, hx]
  generalize uState alpha ig xs i = s at *
  have hlt := hi.lt
  have hs : s.prevId = p := by
    by_contra hc
    by_cases h1 : s.prevId < p
    · exact hi.gap p h1 hpi hp
    · exact h s.prevId.toNat (by omega) (by omega) (hi.last (by omega))
  have h0 : s.prevId ≥ 0 := by omega
  have hw : (if ig then 1 else (1 - alpha) ^ (i - (s.prevId + 1).toNat)) * (1 - alpha) = decay (1 - alpha) ig (i - p - 1) := by
    unfold decay
    cases ig with
    | true => simp
    | false =>
      simp only [Bool.false_eq_true, if_false]
      rw [show i - (s.prevId + 1).toNat = i - p - 1 by omega, pow_succ]
  unfold unadjStep
  simp only [if_pos h0]
  rw [(unadjFill_spec _ _ _ _ _ _ _).1, hw, hi.prev h0, hs]
  rfl

/-! ## Bounds -/

theorem weightedSum_bounds {q lo hi : Rat} (hq : 0 ≤ q) (ig : Bool) (xs : List (Option Rat))
    (hb : ∀ i x, at' xs i = some x → lo ≤ x ∧ x ≤ hi) (i : Nat) :
    lo * weightedSum (fun _ => 1) q ig xs i ≤ weightedSum (fun x => x) q ig xs i ∧
    weightedSum (fun x => x) q ig xs i ≤ hi * weightedSum (fun _ => 1) q ig xs i := by
  unfold weightedSum
  generalize List.range (i + 1) = l
  induction l with
  | nil => simp
  | cons j l ih =>
    simp only [List.map_cons, List.sum_cons, mul_add]
    have hq' : 0 ≤ q ^ age ig xs i j := pow_nonneg hq _
    cases hx : xs[j]?.join with
    | none => simp only [Option.map_none, Option.getD_none, mul_zero, zero_add]; exact ih
    | some x =>
      obtain ⟨h1, h2⟩ := hb j x hx
      simp only [Option.map_some, Option.getD_some]
      have e1 := mul_le_mul_of_nonneg_left h1 hq'
      have e2 := mul_le_mul_of_nonneg_left h2 hq'
      constructor <;> nlinarith [ih.1, ih.2, mul_comm lo (q ^ age ig xs i j), mul_comm hi (q ^ age ig xs i j)]

theorem weightedSum_pos {q : Rat} (hq : 0 ≤ q) (ig : Bool) (xs : List (Option Rat)) {i : Nat} (hp : Present xs i) :
    0 < weightedSum (fun _ => 1) q ig xs i := by
  have hnn : ∀ l : List Nat, 0 ≤ (l.map fun j => ((xs[j]?.join).map fun _ => q ^ age ig xs i j * (1 : Rat)).getD 0).sum := by
    intro l
    induction l with
    | nil => simp
    | cons j l ih =>
      rw [List.map_cons, List.sum_cons]
      have : 0 ≤ ((xs[j]?.join).map fun _ => q ^ age ig xs i j * (1 : Rat)).getD 0 := by
        cases xs[j]?.join with
        | none => simp
        | some x => simpa using pow_nonneg hq _
      linarith
  obtain ⟨x, hx⟩ := present_iff.1 hp
  unfold weightedSum
  rw [List.range_succ, List.map_append, List.sum_append]
  simp only [List.map_cons, List.map_nil, List.sum_cons, List.sum_nil, add_zero]
  rw [show xs[i]?.join = some x from hx, age_self]
  have := hnn (List.range i)
  simp only [Option.map_some, Option.getD_some, pow_zero, one_mul]
  linarith

theorem weightedMean_bounds {alpha lo hi : Rat} (ha : alpha ≤ 1) (ig : Bool) (xs : List (Option Rat))
    (hb : ∀ i x, at' xs i = some x → lo ≤ x ∧ x ≤ hi) {i : Nat} (hp : Present xs i) :
    lo ≤ weightedMean alpha ig xs i ∧ weightedMean alpha ig xs i ≤ hi := by
  have hq : 0 ≤ 1 - alpha := by linarith
  have hpos := weightedSum_pos hq ig xs hp
  obtain ⟨h1, h2⟩ := weightedSum_bounds hq ig xs hb i
  unfold weightedMean
  exact ⟨(le_div_iff₀ hpos).2 h1, (div_le_iff₀ hpos).2 h2⟩

theorem uVal_bounds {alpha lo hi : Rat} (h0 : 0 < alpha) (ha : alpha ≤ 1) (ig : Bool) (xs : List (Option Rat))
    (hb : ∀ i x, at' xs i = some x → lo ≤ x ∧ x ≤ hi) : ∀ i, Present xs i → lo ≤ uVal alpha ig xs i ∧ uVal alpha ig xs i ≤ hi := by
  intro i
  induction i using Nat.strong_induction_on with
  | _ i ih =>
    intro hp
    obtain ⟨x, hx⟩ := present_iff.1 hp
    obtain ⟨b1, b2⟩ := hb i x hx
    by_cases hf : ∀ j, j < i → ¬ Present xs j
    · rw [uVal_first hx hf]; exact ⟨b1, b2⟩
    · have : ∃ p, p < i ∧ Present xs p ∧ ∀ j, p < j → j < i → ¬ Present xs j := by
        have hi := uState_inv alpha ig xs i (Nat.le_of_lt (present_lt hp))
        have hlt := hi.lt
        have hge := hi.ge
        by_cases hn : 0 ≤ (uState alpha ig xs i).prevId
        · exact ⟨_, by omega, hi.last hn, fun j h1 h2 => hi.gap j (by omega) h2⟩
        · exact absurd (fun j hj => hi.gap j (by omega) hj) hf
      obtain ⟨p, hpi, hpp, hgap⟩ := this
      rw [uVal_next hpi hpp hx hgap]
      obtain ⟨c1, c2⟩ := ih p hpi hpp
      have hd : 0 ≤ decay (1 - alpha) ig (i - p - 1) := by
        unfold decay
        split
        · linarith
        · exact pow_nonneg (by linarith) _
      generalize decay (1 - alpha) ig (i - p - 1) = d at hd
      generalize uVal alpha ig xs p = y at c1 c2
      have hpos : 0 < alpha + d := by linarith
      constructor
      · rw [le_div_iff₀ hpos]
        nlinarith [mul_le_mul_of_nonneg_left b1 h0.le, mul_le_mul_of_nonneg_left c1 hd]
      · rw [div_le_iff₀ hpos]
        nlinarith [mul_le_mul_of_nonneg_left b2 h0.le, mul_le_mul_of_nonneg_left c2 hd]

theorem rows_bounds {xs rows : List (Option Rat)} {L : Int} {val : Nat → Rat} {lo hi : Rat} (h : RowsOk xs L val rows)
    (hv : ∀ i, Present xs i → lo ≤ val i ∧ val i ≤ hi) (hlast : 0 ≤ L → Present xs L.toNat) (i : Nat) (y : Rat)
    (hy : at' rows i = some y) : lo ≤ y ∧ y ≤ hi := by
  by_cases hL : (i : Int) ≤ L
  · by_cases hp : Present xs i
    · have := h.present i hL hp
      rw [hy] at this
      obtain rfl := Option.some.inj this
      exact hv i hp
    · have hiL : (i : Int) ≠ L := by
        intro hc
        apply hp
        have := hlast (by omega)
        rwa [show L.toNat = i by omega] at this
      by_cases hb : ∀ p, p ≤ i → ¬ Present xs p
      · rw [h.before i hb] at hy; cases hy
      · have : ∀ m, (∃ p, p ≤ m ∧ Present xs p) → ∃ p, p ≤ m ∧ Present xs p ∧ ∀ j, p < j → j ≤ m → ¬ Present xs j := by
          intro m
          induction m with
          | zero =>
            rintro ⟨p, hp, hpp⟩
            exact ⟨p, hp, hpp, fun j h1 h2 => by omega⟩
          | succ m ih =>
            rintro ⟨p, hp, hpp⟩
            by_cases hm : Present xs (m + 1)
            · exact ⟨m + 1, by omega, hm, fun j h1 h2 => by omega⟩
            · have hpm : p ≤ m := by
                by_contra hc
                exact hm ((show p = m + 1 by omega) ▸ hpp)
              obtain ⟨p', h1, h2, h3⟩ := ih ⟨p, hpm, hpp⟩
              refine ⟨p', by omega, h2, fun j hj hj' => ?_⟩
              by_cases hjm : j = m + 1
              · rw [hjm]; exact hm
              · exact h3 j hj (by omega)
        obtain ⟨p, h1, h2, h3⟩ := this i (by
          by_contra hc
          exact hb (fun p hp1 hp2 => hc ⟨p, hp1, hp2⟩))
        have hpi : p < i := by
          rcases Nat.lt_or_eq_of_le h1 with h | h
          · exact h
          · exact absurd (h ▸ h2) hp
        have := h.missing p i (by omega) hpi h2 h3
        rw [hy] at this
        obtain rfl := Option.some.inj this
        exact hv p h2
  · rw [h.after i (by omega)] at hy; cases hy

end Verif.Series
