import Verif.Util.SearchModel
import Mathlib.Order.Basic
import Mathlib.Data.Nat.Log
import Mathlib.Data.Nat.Bitwise

/-! Helper lemmas for the searches: everything is phrased with the partition point. -/

namespace Verif.Search
variable {α : Type}

/-- `n` is the partition point of `arr` for `p`: `p` fails before `n` and holds from `n` on. -/
structure IsPoint (arr : List α) (p : α → Bool) (n : Nat) : Prop where
  le : n ≤ arr.length
  before : ∀ i a, arr[i]? = some a → i < n → p a = false
  after : ∀ i a, arr[i]? = some a → n ≤ i → p a = true

theorem IsPoint.val {arr : List α} {p : α → Bool} {n : Nat} (h : IsPoint arr p n)
    {i : Nat} {a : α} (ha : arr[i]? = some a) : p a = decide (n ≤ i) := by
  by_cases hi : n ≤ i
  · simp [h.after i a ha hi, hi]
  · simp [h.before i a ha (by omega), hi]

theorem get_some {arr : List α} {i : Nat} (h : i < arr.length) : ∃ a, arr[i]? = some a :=
  ⟨arr[i], by simp [h]⟩

theorem small_spec {arr : List α} {p : α → Bool} {n : Nat} (h : IsPoint arr p n) :
    smallLinearSearch arr p = some (if arr.length ≤ 2 then some n else none) := by
  have hle := h.le
  unfold smallLinearSearch
  by_cases h2 : arr.length ≤ 2
  · rw [if_pos h2, if_pos h2]
    by_cases h0 : arr.length = 0
    · rw [if_pos h0]; exact congrArg some (congrArg some (by omega))
    · rw [if_neg h0]
      obtain ⟨a, ha⟩ := get_some (arr := arr) (i := 0) (by omega)
      simp only [ha, Option.bind_eq_bind, Option.bind_some]
      rw [h.val ha]
      by_cases hn : n = 0
      · simp [hn]
      · rw [if_neg (by simpa using hn)]
        by_cases h1 : arr.length = 1
        · rw [if_pos h1]; exact congrArg some (congrArg some (by omega))
        · rw [if_neg h1]
          obtain ⟨b, hb⟩ := get_some (arr := arr) (i := 1) (by omega)
          simp only [hb, Option.bind_some]
          rw [h.val hb]
          by_cases hn1 : n ≤ 1
          · rw [if_pos (by simpa using hn1)]; exact congrArg some (congrArg some (by omega))
          · rw [if_neg (by simpa using hn1)]; exact congrArg some (congrArg some (by omega))
  · rw [if_neg h2, if_neg h2]

theorem fastLoop_spec {arr : List α} {p : α → Bool} {n : Nat} (h : IsPoint arr p n)
    (base : Nat) : ∀ (e fuel offset : Nat), 2 ^ e - 1 < fuel →
      base + offset ≤ n → n ≤ base + offset + (2 ^ e - 1) →
      base + offset + (2 ^ e - 1) ≤ arr.length →
      fastLoop arr base p fuel (2 ^ e - 1) offset = some (n - base) := by
  intro e
  induction e with
  | zero =>
    intro fuel offset hf h1 h2 h3
    obtain ⟨f, rfl⟩ : ∃ f, fuel = f + 1 := ⟨fuel - 1, by omega⟩
    rw [fastLoop]
    rw [if_neg (by simp)]
    simp at h2; exact congrArg some (by omega)
  | succ e ih =>
    intro fuel offset hf h1 h2 h3
    have hp : 0 < 2 ^ e := Nat.two_pow_pos e
    have hd : (2 ^ (e + 1) - 1) / 2 = 2 ^ e - 1 := by rw [Nat.pow_succ]; omega
    rw [Nat.pow_succ] at hf h2 h3
    obtain ⟨f, rfl⟩ : ∃ f, fuel = f + 1 := ⟨fuel - 1, by omega⟩
    rw [fastLoop, if_pos (by rw [Nat.pow_succ]; omega)]
    simp only [hd]
    obtain ⟨a, ha⟩ := get_some (arr := arr) (i := base + (offset + (2 ^ e - 1))) (by omega)
    simp only [ha, Option.bind_eq_bind, Option.bind_some]
    rw [h.val ha]
    by_cases hn : n ≤ base + (offset + (2 ^ e - 1))
    · rw [if_neg (by simp only [hn]; simp)]
      exact ih _ _ (by omega) h1 (by omega) (by omega)
    · rw [if_pos (by simp only [hn]; simp)]
      exact ih _ _ (by omega) (by omega) (by omega) (by omega)

theorem binarySearch_spec {arr : List α} {p : α → Bool} {n : Nat} (h : IsPoint arr p n)
    (hne : arr ≠ []) : binarySearch arr p = some n := by
  have hlen := List.length_pos_iff.2 hne
  have h1 : 2 ^ Nat.log2 arr.length ≤ arr.length := Nat.log2_self_le (by omega)
  have h2 : arr.length < 2 ^ (Nat.log2 arr.length + 1) := Nat.lt_log2_self
  have hp : 0 < 2 ^ Nat.log2 arr.length := Nat.two_pow_pos _
  rw [Nat.pow_succ] at h2
  unfold binarySearch
  obtain ⟨a, ha⟩ := get_some (arr := arr) (i := 2 ^ Nat.log2 arr.length - 1) (by omega)
  simp only [ha, Option.bind_eq_bind, Option.bind_some, fastBinarySearch]
  rw [h.val ha]
  have hle := h.le
  by_cases hn : n ≤ 2 ^ Nat.log2 arr.length - 1
  · rw [if_neg (by simp only [hn]; simp)]
    rw [fastLoop_spec h 0 _ _ _ (by omega) (by omega) (by omega) (by omega)]
    simp
  · rw [if_pos (by simp only [hn]; simp)]
    rw [fastLoop_spec h _ _ _ _ (by omega) (by omega) (by omega) (by omega)]
    simp only [Option.bind_some]; congr 1; omega

theorem bound_spec {arr : List α} {p q : α → Bool} {n : Nat} (h : IsPoint arr p n)
    (hpq : ∀ a ∈ arr, q a = p a) :
    ((smallLinearSearch arr p).bind fun
      | some r => some r
      | none => binarySearch arr q) = some n := by
  rw [small_spec h]
  by_cases h2 : arr.length ≤ 2
  · simp [h2]
  · simp only [h2, if_false, Option.bind_some]
    apply binarySearch_spec
    · refine ⟨h.le, ?_, ?_⟩
      · intro i a ha hi
        rw [hpq a (List.mem_of_getElem? ha)]; exact h.before i a ha hi
      · intro i a ha hi
        rw [hpq a (List.mem_of_getElem? ha)]; exact h.after i a ha hi
    · rintro rfl; simp at h2

/-- Counting the elements where `p` fails gives the partition point of a partitioned list. -/
theorem isPoint_countP {arr : List α} {p : α → Bool}
    (h : arr.Pairwise (fun a b => p a = true → p b = true)) :
    IsPoint arr p (arr.countP (fun a => !p a)) := by
  induction arr with
  | nil => exact ⟨by simp, by simp, by simp⟩
  | cons a t ih =>
    rw [List.pairwise_cons] at h
    have ih := ih h.2
    by_cases hp : p a = true
    · have h0 : t.countP (fun a => !p a) = 0 := by
        rw [List.countP_eq_zero]
        intro b hb
        simp [h.1 b hb hp]
      refine ⟨by simpa using List.countP_le_length (l := a :: t), ?_, ?_⟩
      · intro i b hb hi
        simp [List.countP_cons, hp, h0] at hi
      · intro i b hb _
        rcases List.mem_cons.1 (List.mem_of_getElem? hb) with rfl | hb
        · exact hp
        · exact h.1 b hb hp
    · have hpa : p a = false := by simpa using hp
      have hc : (a :: t).countP (fun a => !p a) = t.countP (fun a => !p a) + 1 := by
        simp [List.countP_cons, hpa]
      rw [hc]
      refine ⟨by have := ih.le; simp; omega, ?_, ?_⟩
      · intro i b hb hi
        cases i with
        | zero => simp at hb; subst hb; exact hpa
        | succ i => exact ih.before i b (by simpa using hb) (by omega)
      · intro i b hb hi
        cases i with
        | zero => omega
        | succ i => exact ih.after i b (by simpa using hb) (by omega)

theorem gallopUp_spec {arr : List α} {less : α → Bool} {n : Nat}
    (h : IsPoint arr (fun a => !less a) n) :
    ∀ (fuel i d : Nat), arr.length ≤ i + fuel → i < n → 0 < d → (∃ e, d = 2 ^ e) →
      ∃ i' e, gallopUp arr less (fuel + 1) i d = some (i', 2 ^ e) ∧ i' < n ∧ n ≤ i' + 2 ^ e := by
  intro fuel
  induction fuel with
  | zero =>
    intro i d h1 h2 h3 h4
    have := h.le
    omega
  | succ fuel ih =>
    intro i d h1 h2 h3 ⟨e, he⟩
    have hle := h.le
    rw [gallopUp]
    by_cases hlt : i + d < arr.length
    · rw [if_pos hlt]
      obtain ⟨a, ha⟩ := get_some (arr := arr) hlt
      have hv := h.val ha
      simp only [ha, Option.bind_eq_bind, Option.bind_some]
      by_cases hless : less a = true
      · rw [if_pos hless]
        have : i + d < n := by simpa [hless] using hv
        exact ih _ _ (by omega) this (by omega) ⟨e + 1, by rw [he, Nat.pow_succ]; omega⟩
      · rw [if_neg hless]
        have : n ≤ i + d := by simpa [hless] using hv
        exact ⟨i, e, by rw [he], h2, by omega⟩
    · rw [if_neg hlt]
      exact ⟨i, e, by rw [he], h2, by omega⟩

theorem gallopDown_spec {arr : List α} {less : α → Bool} {n : Nat}
    (h : IsPoint arr (fun a => !less a) n) :
    ∀ (e fuel i : Nat), 2 ^ e < fuel → i < n → n ≤ i + 2 ^ e →
      gallopDown arr less fuel i (2 ^ e) = some (n - 1) := by
  intro e
  induction e with
  | zero =>
    intro fuel i hf h1 h2
    obtain ⟨f, rfl⟩ : ∃ f, fuel = f + 1 := ⟨fuel - 1, by omega⟩
    rw [gallopDown, if_neg (by simp)]
    simp at h2; exact congrArg some (by omega)
  | succ e ih =>
    intro fuel i hf h1 h2
    have hp : 0 < 2 ^ e := Nat.two_pow_pos e
    have hd : 2 ^ (e + 1) / 2 = 2 ^ e := by rw [Nat.pow_succ]; omega
    rw [Nat.pow_succ] at hf h2
    obtain ⟨f, rfl⟩ : ∃ f, fuel = f + 1 := ⟨fuel - 1, by omega⟩
    rw [gallopDown, if_pos (by rw [Nat.pow_succ]; omega)]
    simp only [hd]
    have hle := h.le
    by_cases hlt : i + 2 ^ e < arr.length
    · rw [if_pos hlt]
      obtain ⟨a, ha⟩ := get_some (arr := arr) hlt
      have hv := h.val ha
      simp only [ha, Option.bind_eq_bind, Option.bind_some]
      by_cases hless : less a = true
      · rw [if_pos hless]
        have : i + 2 ^ e < n := by simpa [hless] using hv
        exact ih _ _ (by omega) (by omega) (by omega)
      · rw [if_neg hless]
        have : n ≤ i + 2 ^ e := by simpa [hless] using hv
        exact ih _ _ (by omega) h1 (by omega)
    · rw [if_neg hlt]
      exact ih _ _ (by omega) h1 (by omega)

theorem galloping_spec {arr : List α} {less : α → Bool} {n : Nat}
    (h : IsPoint arr (fun a => !less a) n) : gallopingLowerBound arr less = some n := by
  unfold gallopingLowerBound
  have hle := h.le
  by_cases h0 : arr.length = 0
  · rw [if_pos h0]; exact congrArg some (by omega)
  · rw [if_neg h0]
    obtain ⟨a, ha⟩ := get_some (arr := arr) (i := 0) (by omega)
    have hv := h.val ha
    simp only [ha, Option.bind_eq_bind, Option.bind_some]
    by_cases hless : less a = true
    · rw [if_neg (by simp [hless])]
      have hn : 0 < n := by
        by_contra hc
        have : n = 0 := by omega
        simp [hless, this] at hv
      obtain ⟨i, e, h1, h2, h3⟩ := gallopUp_spec h arr.length 0 1 (by omega) hn (by omega)
        ⟨0, rfl⟩
      simp only [h1, Option.bind_some]
      rw [gallopDown_spec h e _ i (by omega) h2 h3]
      simp only [Option.bind_some]; congr 1; omega
    · rw [if_pos (by simp [hless])]
      have : n = 0 := by simpa [hless] using hv
      rw [this]

theorem stdLowerBound_spec {arr : List α} {comp : α → Bool} {n : Nat}
    (h : IsPoint arr (fun a => !comp a) n) {first last : Nat}
    (h1 : first ≤ n) (h2 : n ≤ last) : stdLowerBound arr comp first last = n := by
  unfold stdLowerBound
  have hle := h.le
  induction hm : n - first generalizing first with
  | zero =>
    have : first = n := by omega
    subst this
    have hnil : (((arr.drop first).take (last - first)).takeWhile comp) = [] := by
      cases hq : (arr.drop first).take (last - first) with
      | nil => rfl
      | cons b t =>
        have hb : arr[first]? = some b := by
          have : ((arr.drop first).take (last - first))[0]? = some b := by rw [hq]; rfl
          rw [List.getElem?_take] at this
          split at this
          · simpa using this
          · simp at this
        have := h.after first b hb (Nat.le_refl _)
        rw [List.takeWhile_cons]
        rw [if_neg (by simpa using this)]
    rw [hnil]; simp
  | succ m ih =>
    obtain ⟨a, ha⟩ := get_some (arr := arr) (i := first) (by omega)
    have hlt : first < arr.length := by omega
    have hd : arr.drop first = a :: arr.drop (first + 1) := by
      rw [List.drop_eq_getElem_cons hlt]
      congr
      simpa [hlt] using ha
    have hs : last - first = (last - (first + 1)) + 1 := by omega
    have hc : comp a = true := by simpa using h.before first a ha (by omega)
    rw [hd, hs, List.take_succ_cons, List.takeWhile_cons, if_pos hc]
    have := ih (first := first + 1) (by omega) (by omega)
    simp only [List.length_cons]
    omega

theorem expLoop_spec {arr : List α} {comp : α → Bool} {n : Nat}
    (h : IsPoint arr (fun a => !comp a) n) :
    ∀ (fuel k : Nat) (s : ExpState),
      (arr.length : Int) - 2 ^ k + 1 < fuel → s.last = arr.length → s.first ≤ n →
      s.it = k + 2 ^ k - 1 → s.first ≤ s.it → 2 ^ k ≤ arr.length + 1 →
      ∃ s', expLoop false arr comp fuel ((arr.length : Int) - 2 ^ k + 1) (2 ^ k) s = some s' ∧
        s'.first ≤ n ∧ n ≤ s'.last := by
  intro fuel
  induction fuel with
  | zero =>
    intro k s h1 h2 h3 h4 h5 h6
    have : ((2 ^ k : Nat) : Int) ≤ ((arr.length + 1 : Nat) : Int) := Int.ofNat_le.2 h6
    push_cast at this
    omega
  | succ fuel ih =>
    intro k s h1 h2 h3 h4 h5 h6
    have hle := h.le
    rw [expLoop]
    have hc : ((2 : Int) ^ k) = ((2 ^ k : Nat) : Int) := by push_cast; rfl
    have hk : k < 2 ^ k := Nat.lt_two_pow_self
    rw [hc] at h1 ⊢
    by_cases hlt : ((2 ^ k : Nat) : Int) < (arr.length : Int) - ((2 ^ k : Nat) : Int) + 1
    · rw [if_pos hlt]
      have hit : s.it < arr.length := by omega
      obtain ⟨a, ha⟩ := get_some hit
      have hv := h.val ha
      simp only [ha, Option.bind_eq_bind, Option.bind_some]
      by_cases hless : comp a = true
      · rw [if_pos hless]
        have : s.it < n := by simpa [hless] using hv
        simp only [advance, Bool.false_and, Option.bind_some]
        have := ih (k + 1) { s with first := s.it + 1, it := s.it + 1 + 2 ^ k }
          (by rw [pow_succ, hc]; omega) h2 (by simp only; omega)
          (by simp only [Nat.pow_succ]; omega) (by simp) (by rw [Nat.pow_succ]; omega)
        rw [pow_succ, hc] at this
        obtain ⟨s', h1', h2'⟩ := this
        refine ⟨s', ?_, h2'⟩
        rw [← h1']
        have e1 : (arr.length : Int) - ((2 ^ k : Nat) : Int) + 1 - ((2 ^ k : Nat) : Int) =
          (arr.length : Int) - ((2 ^ k : Nat) : Int) * 2 + 1 := by omega
        rw [e1]
        rfl
      · rw [if_neg hless]
        have : n ≤ s.it := by simpa [hless] using hv
        exact ⟨_, rfl, h3, this⟩
    · rw [if_neg hlt]
      exact ⟨s, rfl, h3, by omega⟩

theorem exp_spec {arr : List α} {comp : α → Bool} {n : Nat}
    (h : IsPoint arr (fun a => !comp a) n) : expLowerBound false arr comp = some n := by
  obtain ⟨s, h1, h2, h3⟩ := expLoop_spec h (arr.length + 1) 0
    { first := 0, last := arr.length, it := 0 } (by simp; omega) rfl (by simp) (by simp) (by simp)
    (by simp)
  unfold expLowerBound
  have e : (arr.length : Int) - 2 ^ 0 + 1 = arr.length := by simp
  rw [e, pow_zero] at h1
  rw [h1]
  simp [stdLowerBound_spec h h2 h3]

end Verif.Search
