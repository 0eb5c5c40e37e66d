import Verif.Interleave.InterleaveModel

/-! # The rows of the inputs alternate in the result -/

namespace Verif.Interleave

variable {V : Type}

/-- The rows `i, i + 1, …, i + n - 1` one after another. -/
def expected (inputs : List (List (Option V))) (i n : Nat) : List (Option V) := (List.range' i n).flatMap (rowAt inputs)

theorem rowLoop_ok (vs pre rest : List (Option V)) (hv : vs.length ≤ rest.length) (hm : pre.length + vs.length ≤ maxInt) :
    rowLoop vs pre.length (pre ++ rest) = some (pre.length + vs.length, pre ++ vs ++ rest.drop vs.length) := by
  induction vs generalizing pre rest with
  | nil => simp [rowLoop]
  | cons v vs ih =>
    cases rest with
    | nil => simp at hv
    | cons r rest =>
      simp only [List.length_cons] at hv hm
      rw [rowLoop, setNext, if_pos (by simp), if_neg (by omega)]
      dsimp only
      have hset : (pre ++ r :: rest).set pre.length v = (pre ++ [v]) ++ rest := by simp
      have := ih (pre ++ [v]) rest (by omega) (by simp; omega)
      rw [hset, show pre.length + 1 = (pre ++ [v]).length by simp, this]
      simp [Nat.add_assoc, Nat.add_comm 1]

theorem rowLoop_overflow (vs : List (Option V)) (id : Nat) (out : List (Option V)) (hm : id + vs.length > maxInt) (hid : id ≤ maxInt) :
    rowLoop vs id out = none := by
  induction vs generalizing id out with
  | nil => simp at hm; omega
  | cons v vs ih =>
    simp only [List.length_cons] at hm
    rw [rowLoop, setNext]
    by_cases h1 : id < out.length
    · rw [if_pos h1]
      by_cases h2 : id + 1 > maxInt
      · rw [if_pos h2]
      · rw [if_neg h2]
        exact ih (id + 1) _ (by omega) (by omega)
    · rw [if_neg h1]

theorem rowAt_length (inputs : List (List (Option V))) (i : Nat) : (rowAt inputs i).length = inputs.length := by simp [rowAt]

theorem expected_length (inputs : List (List (Option V))) (i n : Nat) : (expected inputs i n).length = n * inputs.length := by
  induction n generalizing i with
  | zero => simp [expected]
  | succ n ih =>
    have := ih (i + 1)
    unfold expected at this ⊢
    rw [List.range'_succ, List.flatMap_cons, List.length_append, this, rowAt_length, Nat.succ_mul, Nat.add_comm]

theorem rowsLoop_ok (inputs : List (List (Option V))) (n i : Nat) (pre : List (Option V)) (hm : pre.length + n * inputs.length ≤ maxInt) :
    rowsLoop inputs i n pre.length (pre ++ List.replicate (n * inputs.length) none) =
      some (pre.length + n * inputs.length, pre ++ expected inputs i n) := by
  induction n generalizing i pre with
  | zero => simp [rowsLoop, expected]
  | succ n ih =>
    have hmul : (n + 1) * inputs.length = inputs.length + n * inputs.length := by rw [Nat.succ_mul, Nat.add_comm]
    rw [hmul] at hm ⊢
    rw [rowsLoop, rowLoop_ok _ _ _ (by simp [rowAt_length]) (by rw [rowAt_length]; omega)]
    dsimp only
    have hdrop : (List.replicate (inputs.length + n * inputs.length) (none : Option V)).drop (rowAt inputs i).length =
        List.replicate (n * inputs.length) none := by
      rw [rowAt_length, List.drop_replicate]; congr 1; omega
    have hlen : pre.length + (rowAt inputs i).length = (pre ++ rowAt inputs i).length := by simp
    rw [hdrop, hlen, ih (i + 1) (pre ++ rowAt inputs i) (by rw [List.length_append, rowAt_length]; omega)]
    simp [expected, List.range'_succ, rowAt_length, Nat.add_assoc]

theorem rowsLoop_overflow (inputs : List (List (Option V))) (n i id : Nat) (out : List (Option V)) (hm : id + n * inputs.length > maxInt)
    (hid : id ≤ maxInt) : rowsLoop inputs i n id out = none := by
  induction n generalizing i id out with
  | zero => simp at hm; omega
  | succ n ih =>
    have hmul : (n + 1) * inputs.length = inputs.length + n * inputs.length := by rw [Nat.succ_mul, Nat.add_comm]
    rw [hmul] at hm
    rw [rowsLoop]
    cases hr : rowLoop (rowAt inputs i) id out with
    | none => rfl
    | some x =>
      obtain ⟨id', out'⟩ := x
      have hle : ¬ id + (rowAt inputs i).length > maxInt := by
        intro h; rw [rowLoop_overflow _ _ _ h hid] at hr; cases hr
      have hid' : id' = id + (rowAt inputs i).length := by
        have key : ∀ (vs : List (Option V)) (id : Nat) (out : List (Option V)) (x : Nat × List (Option V)), rowLoop vs id out = some x →
            x.1 = id + vs.length := by
          intro vs
          induction vs with
          | nil => intro id out x h; rw [rowLoop] at h; obtain rfl := Option.some.inj h; rfl
          | cons v vs ih =>
            intro id out x h
            rw [rowLoop] at h
            cases hs : setNext id v out with
            | none => rw [hs] at h; cases h
            | some y =>
              rw [hs] at h
              have h1 := ih _ _ _ h
              have h2 : y.1 = id + 1 := by
                unfold setNext at hs
                split at hs
                · split at hs
                  · cases hs
                  · obtain rfl := Option.some.inj hs; rfl
                · cases hs
              rw [h1, h2, List.length_cons]; omega
        exact key _ _ _ _ hr
      dsimp only
      rw [rowAt_length] at hid' hle
      exact ih (i + 1) id' out' (by omega) (by omega)

theorem expected_get (inputs : List (List (Option V))) (n i r j : Nat) (hr : r < n) (hj : j < inputs.length) :
    (expected inputs i n)[r * inputs.length + j]? = (rowAt inputs (i + r))[j]? := by
  induction n generalizing i r with
  | zero => omega
  | succ n ih =>
    have hcons : expected inputs i (n + 1) = rowAt inputs i ++ expected inputs (i + 1) n := by
      simp [expected, List.range'_succ]
    rw [hcons]
    cases r with
    | zero =>
      rw [Nat.zero_mul, Nat.zero_add, List.getElem?_append_left (by rw [rowAt_length]; exact hj)]; rfl
    | succ r =>
      have hmul : (r + 1) * inputs.length + j = (rowAt inputs i).length + (r * inputs.length + j) := by
        rw [rowAt_length, Nat.succ_mul]; omega
      rw [hmul, List.getElem?_append_right (by omega), Nat.add_sub_cancel_left, ih (i + 1) r (by omega)]
      rw [show i + 1 + r = i + (r + 1) by omega]

/-- **Row `r` of input `j` is at `r * k + j` of the result, which has nothing else** — for all inputs whose total size is less than `2^31`.  Missing
for the full property: larger results, for which it is false (`large_result_counterexample`). -/
theorem interleave_partial (inputs : List (List (Option V))) (n : Nat) (hk : inputs ≠ []) (hsize : ∀ l ∈ inputs, l.length = n)
    (hmax : n * inputs.length ≤ maxInt) : ∃ out, interleave inputs = .ok out ∧ out.length = n * inputs.length ∧
      ∀ (r j : Nat) (l : List (Option V)), r < n → inputs[j]? = some l → out[r * inputs.length + j]? = some (l[r]?).join := by
  cases inputs with
  | nil => exact absurd rfl hk
  | cons first rest =>
    have hfirst : first.length = n := hsize first (by simp)
    refine ⟨expected (first :: rest) 0 n, ?_, expected_length _ _ _, ?_⟩
    · have hloop := rowsLoop_ok (first :: rest) n 0 [] (by simpa using hmax)
      simp only [List.length_nil, List.nil_append] at hloop
      unfold interleave
      dsimp only
      rw [if_neg (by
        intro h
        obtain ⟨l, hl, hne⟩ := List.any_eq_true.1 h
        rw [hsize l hl, hfirst] at hne
        simp at hne), hfirst, hloop]
    · intro r j l hr hj
      have hjl : j < (first :: rest).length := (List.getElem?_eq_some_iff.1 hj).1
      rw [expected_get _ n 0 r j hr hjl, Nat.zero_add, rowAt, List.getElem?_map, hj]
      rfl

/-- Inputs of different sizes, and no input, are errors. -/
theorem interleave_error (inputs : List (List (Option V))) (h : inputs = [] ∨ ∃ l ∈ inputs, ∃ m ∈ inputs, l.length ≠ m.length) :
    interleave inputs = .error := by
  cases inputs with
  | nil => rfl
  | cons first rest =>
    rcases h with h | ⟨l, hl, m, hm, hne⟩
    · cases h
    · unfold interleave
      dsimp only
      rw [if_pos]
      rw [List.any_eq_true]
      by_cases h1 : l.length = first.length
      · exact ⟨m, hm, by simp; omega⟩
      · exact ⟨l, hl, by simpa using h1⟩

/-- **The counter overflows for every result with `2^31` elements or more**: the behaviour is undefined. -/
theorem large_result_counterexample (inputs : List (List (Option V))) (n : Nat) (hk : inputs ≠ []) (hsize : ∀ l ∈ inputs, l.length = n)
    (hmax : n * inputs.length > maxInt) : interleave inputs = .undefined := by
  cases inputs with
  | nil => exact absurd rfl hk
  | cons first rest =>
    have hfirst : first.length = n := hsize first (by simp)
    unfold interleave
    dsimp only
    rw [if_neg (by
        intro h
        obtain ⟨l, hl, hne⟩ := List.any_eq_true.1 h
        rw [hsize l hl, hfirst] at hne
        simp at hne), hfirst, rowsLoop_overflow (first :: rest) n 0 0 _ (by omega) (by decide)]

/-! ## Concrete cases -/

example : interleave [[some 1, none, some 3], [some 4, some 5, some 6]] = .ok [some 1, some 4, none, some 5, some 3, some 6] := by decide +kernel
example : interleave [[some 1], [some 4, some 5]] = .error := by decide +kernel
/-- Two arrays of `2^30` rows. -/
example : interleave (List.replicate 2 (List.replicate (2 ^ 30) (none : Option Nat))) = .undefined :=
  large_result_counterexample _ (2 ^ 30) (by intro h; have := congrArg List.length h; rw [List.length_replicate] at this; cases this) (by intro l hl; rw [(List.mem_replicate.1 hl).2, List.length_replicate])
    (by rw [List.length_replicate]; decide)

end Verif.Interleave
