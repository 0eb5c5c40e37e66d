import Verif.Agg.AccProps
import Mathlib.Data.List.Perm.Basic
import Mathlib.Data.List.Nodup
import Mathlib.Data.List.Pairwise

/-!
# Accumulators which gather the values of a group
-/

namespace Verif.Agg

/-! ## `array.inverse_mapping` -/

/-- `inv` inverts the first part of the mapping. -/
def Inverts (pre : List (Option Int)) (inv : List (Option Nat)) : Prop :=
  ∀ (v i : Nat), inv[v]? = some (some i) ↔ v < inv.length ∧ pre[i]? = some (some (v : Int))

def Valid (n : Nat) (l : List (Option Int)) : Prop :=
  (∀ (i : Nat) v, l[i]? = some (some v) → 0 ≤ v ∧ v < n) ∧
  ∀ (i j : Nat) v, l[i]? = some (some v) → l[j]? = some (some v) → i = j

theorem Valid.prefix {n : Nat} {pre rest : List (Option Int)} (h : Valid n (pre ++ rest)) : Valid n pre := by
  have hg : ∀ (i : Nat) v, pre[i]? = some (some v) → (pre ++ rest)[i]? = some (some v) := by
    intro i v hi
    rw [List.getElem?_append_left (List.getElem?_eq_some_iff.1 hi).1]; exact hi
  exact ⟨fun i v hi => h.1 i v (hg i v hi), fun i j v hi hj => h.2 i j v (hg i v hi) (hg j v hj)⟩

theorem getElem?_concat_some {l : List X} {a y : X} {j : Nat} :
    (l ++ [a])[j]? = some y ↔ l[j]? = some y ∨ (j = l.length ∧ a = y) := by
  rw [List.getElem?_append]
  split
  · constructor
    · exact Or.inl
    · rintro (h | ⟨h, _⟩)
      · exact h
      · omega
  · rw [List.getElem?_singleton]
    rename_i h
    constructor
    · intro h2
      split at h2
      · exact Or.inr ⟨by omega, by simpa using h2⟩
      · simp at h2
    · rintro (h2 | ⟨rfl, rfl⟩)
      · exact absurd (List.getElem?_eq_some_iff.1 h2).1 h
      · simp

theorem inverseLoop_spec (n : Nat) (rest : List (Option Int)) : ∀ (pre : List (Option Int)) (inv : List (Option Nat)) e,
    inv.length = n → Valid n pre → Inverts pre inv →
    (Valid n (pre ++ rest) → (inverseLoop n pre.length rest inv e).2 = e ∧
      (inverseLoop n pre.length rest inv e).1.length = n ∧ Inverts (pre ++ rest) (inverseLoop n pre.length rest inv e).1) ∧
    (¬ Valid n (pre ++ rest) → (inverseLoop n pre.length rest inv e).2 ≠ none) := by
  induction rest with
  | nil =>
    intro pre inv e hl hv hi
    simp only [inverseLoop, List.append_nil]
    exact ⟨fun _ => ⟨trivial, hl, hi⟩, fun h => absurd hv h⟩
  | cons a rest ih =>
    intro pre inv e hl hv hi
    have happ : pre ++ a :: rest = (pre ++ [a]) ++ rest := by simp
    have hlen : (pre ++ [a]).length = pre.length + 1 := by simp
    cases a with
    | none =>
      rw [happ, inverseLoop, ← hlen]
      apply ih (pre ++ [none]) inv e hl
      · refine ⟨?_, ?_⟩
        · intro i v h
          rcases getElem?_concat_some.1 h with h | ⟨_, h⟩
          · exact hv.1 i v h
          · cases h
        · intro i j v h1 h2
          rcases getElem?_concat_some.1 h1 with h1 | ⟨_, h1⟩ <;> rcases getElem?_concat_some.1 h2 with h2 | ⟨_, h2⟩
          · exact hv.2 i j v h1 h2
          all_goals first | cases h1; done | cases h2
      · intro v i
        rw [hi v i, getElem?_concat_some]
        simp
    | some v =>
      rw [inverseLoop]
      by_cases hr : v < 0 ∨ v ≥ n
      · rw [if_pos hr]
        refine ⟨fun h => ?_, fun _ => by simp⟩
        have := h.1 pre.length v (by simp)
        omega
      · rw [if_neg hr]
        have hvn : v.toNat < inv.length := by omega
        have hvv : (v.toNat : Int) = v := by omega
        by_cases hd : (inv[v.toNat]?.getD none).isSome
        · rw [if_pos hd]
          refine ⟨fun h => ?_, fun _ => by simp⟩
          rw [List.getElem?_eq_getElem hvn] at hd
          simp only [Option.getD_some] at hd
          obtain ⟨i, hi'⟩ := Option.isSome_iff_exists.1 hd
          have h1 := (hi v.toNat i).1 (by rw [List.getElem?_eq_getElem hvn, hi'])
          rw [hvv] at h1
          have hip := (List.getElem?_eq_some_iff.1 h1.2).1
          have := h.2 i pre.length v (by rw [List.getElem?_append_left hip]; exact h1.2) (by simp)
          omega
        · rw [if_neg hd]
          rw [happ, ← hlen]
          have hnone : ∀ i : Nat, pre[i]? ≠ some (some v) := by
            intro i h
            apply hd
            rw [(hi v.toNat i).2 ⟨hvn, by rw [hvv]; exact h⟩]
            rfl
          apply ih (pre ++ [some v])
          · simp [hl]
          · refine ⟨?_, ?_⟩
            · intro i w h
              rcases getElem?_concat_some.1 h with h | ⟨_, h⟩
              · exact hv.1 i w h
              · cases h; omega
            · intro i j w h1 h2
              rcases getElem?_concat_some.1 h1 with h1 | ⟨h1, h1'⟩ <;> rcases getElem?_concat_some.1 h2 with h2 | ⟨h2, h2'⟩
              · exact hv.2 i j w h1 h2
              · cases h2'; exact absurd h1 (hnone i)
              · cases h1'; exact absurd h2 (hnone j)
              · omega
          · intro w i
            rw [List.length_set, List.getElem?_set, getElem?_concat_some]
            by_cases hw : v.toNat = w
            · subst hw
              rw [if_pos rfl, if_pos hvn, hvv]
              constructor
              · intro h; simp at h; exact ⟨hvn, Or.inr ⟨h.symm, rfl⟩⟩
              · rintro ⟨_, h | ⟨rfl, _⟩⟩
                · exact absurd h (hnone i)
                · rfl
            · rw [if_neg hw, hi w i]
              constructor
              · rintro ⟨h1, h2⟩; exact ⟨h1, Or.inl h2⟩
              · rintro ⟨h1, h2 | ⟨_, h2⟩⟩
                · exact ⟨h1, h2⟩
                · simp only [Option.some.injEq] at h2; omega

theorem inverseMapping_after (xs : List (Option Int)) (s : InverseState) :
    inverseMapping.after () xs s = { s with perm := xs } := by
  induction xs using List.reverseRecOn with
  | nil => rfl
  | append_singleton xs a ih => rw [Acc.after_concat, ih]; rfl

theorem inverse_results (n : Nat) (s : InverseState) :
    inverseMapping.fullResults n s = (List.range' s.returnId n).map fun k => s.inv[k]? := by
  induction n generalizing s with
  | zero => rfl
  | succ n ih =>
    have : inverseMapping.fullResults (n + 1) s =
      s.inv[s.returnId]? :: inverseMapping.fullResults n { s with returnId := s.returnId + 1 } := rfl
    rw [this, ih, List.range'_succ, List.map_cons]

/-- The results invert an invertible mapping and the status stays as it was. -/
theorem inverseMapping_result (xs : List (Option Int)) (s : InverseState) (h : Invertible xs) :
    let s' := inverseMapping.finalize (inverseMapping.after () xs s)
    inverseMapping.status s' = inverseMapping.status s ∧ ∃ inv : List (Option Nat),
      inverseMapping.fullResults xs.length s' = inv.map some ∧ inv.length = xs.length ∧
      ∀ (v i : Nat), inv[v]? = some (some i) ↔ xs[i]? = some (some (v : Int)) := by
  intro s'
  have hspec := (inverseLoop_spec xs.length xs [] (List.replicate xs.length none) s.error (by simp)
    ⟨by simp, by simp⟩ (by intro v i; simp [List.getElem?_replicate])).1 h
  simp only [List.length_nil, List.nil_append] at hspec
  obtain ⟨h1, h2, h3⟩ := hspec
  have hs' : s' = ⟨0, xs, (inverseLoop xs.length 0 xs (List.replicate xs.length none) s.error).1,
      (inverseLoop xs.length 0 xs (List.replicate xs.length none) s.error).2⟩ := by
    simp only [s', inverseMapping_after]; rfl
  refine ⟨by rw [hs']; exact h1, _, ?_, h2, ?_⟩
  · rw [inverse_results, hs']
    apply List.ext_getElem?
    intro k
    simp only [List.getElem?_map]
    by_cases hk : k < xs.length
    · rw [List.getElem?_range' hk]
      simp only [Option.map_some, Nat.zero_add, Nat.one_mul]
      rw [List.getElem?_eq_getElem (by omega)]
      rfl
    · rw [List.getElem?_eq_none (by simp; omega), List.getElem?_eq_none (by omega)]
      rfl
  · intro v i
    rw [h3 v i]
    constructor
    · exact fun h => h.2
    · intro hv
      have := h.1 i _ hv
      exact ⟨by omega, hv⟩

/-- Any other mapping is reported. -/
theorem inverseMapping_error (xs : List (Option Int)) (s : InverseState) (h : ¬ Invertible xs) :
    inverseMapping.status (inverseMapping.finalize (inverseMapping.after () xs s)) ≠ none := by
  have hspec := (inverseLoop_spec xs.length xs [] (List.replicate xs.length none) s.error (by simp)
    ⟨by simp, by simp⟩ (by intro v i; simp [List.getElem?_replicate])).2 h
  rw [inverseMapping_after]
  exact hspec

example : (inverseMapping.fullResults 3 (inverseMapping.finalize (inverseMapping.after () [some 2, none, some 0]
    ⟨5, [none], [some 7], none⟩))) = [some (some 2), some none, some (some 0)] := rfl
example : Invertible [some 2, none, some 0] := by
  refine ⟨?_, ?_⟩
  · intro i v h
    rcases i with _ | _ | _ | i <;> simp at h <;> subst h <;> simp
  · intro i j v h1 h2
    rcases i with _ | _ | _ | i <;> rcases j with _ | _ | _ | j <;> simp at h1 h2 <;> omega
example : inverseMapping.status (inverseMapping.finalize (inverseMapping.after () [some 1, some 1]
    ⟨5, [none], [some 7], none⟩)) = some "appears twice" := rfl

/-! ## `array.take` over an edge -/

theorem takeOver_after (T : Type) (xs : List (Option T × Opt Int)) (s : TakeState T) :
    (takeOver T).after () xs s = { s with values := xs.map Prod.fst, offsets := xs.map Prod.snd, returnId := 0 } := by
  induction xs using List.reverseRecOn with
  | nil => rfl
  | append_singleton xs a ih => rw [Acc.after_concat, ih]; simp [takeOver]

/-- The value which a child takes. -/
def taken (xs : List (Option T × Opt Int)) (o : Opt Int) : Option T :=
  match o.toOption with
  | some k => if k < 0 then none else ((xs.map Prod.fst)[k.toNat]?).join
  | none => none

def inRange (xs : List (Option T × Opt Int)) (o : Opt Int) : Prop :=
  ∀ k, o.toOption = some k → 0 ≤ k ∧ k < xs.length

theorem takeLoop_length (size num : Nat) (l : List (Opt Int)) (e : Option String) :
    (takeLoop size num l e).1 = l.map fun o => (takeOffset size num o none).1 := by
  induction l generalizing e with
  | nil => rfl
  | cons o rest ih => simp [takeLoop, ih, takeOffset]

theorem takeLoop_error (size num : Nat) (l : List (Opt Int)) (e : Option String) :
    (takeLoop size num l e).2 = if ∀ o ∈ l, ∀ k, o.toOption = some k → 0 ≤ k ∧ k < size then e
      else some "invalid offsets" := by
  induction l generalizing e with
  | nil => simp [takeLoop]
  | cons o rest ih =>
    simp only [takeLoop, ih]
    obtain ⟨p, k⟩ := o
    by_cases hrest : ∀ o ∈ rest, ∀ k, o.toOption = some k → 0 ≤ k ∧ k < (size : Int)
    · rw [if_pos hrest]
      cases p with
      | false =>
        rw [if_pos (by intro o ho; rcases List.mem_cons.1 ho with rfl | ho; · simp [Opt.toOption]
                       · exact hrest o ho)]
        simp [takeOffset]
      | true =>
        by_cases hk : k < 0 ∨ k ≥ size
        · rw [if_neg (by intro h; have := h ⟨true, k⟩ (by simp) k rfl; omega)]
          simp [takeOffset, hk]
        · rw [if_pos (by intro o ho; rcases List.mem_cons.1 ho with rfl | ho
                         · intro k' hk'; simp [Opt.toOption] at hk'; subst hk'; omega
                         · exact hrest o ho)]
          have : ¬ k < 0 ∧ ¬ k ≥ size := by omega
          simp [takeOffset, this]
    · rw [if_neg hrest, if_neg (fun h => hrest fun o ho => h o (by simp [ho]))]

theorem take_results (T : Type) (n : Nat) (s : TakeState T) :
    (takeOver T).fullResults n s = (List.range' s.returnId n).map fun k =>
      (s.offsets[k]?).bind fun o => if o.value < 0 then none else s.values[o.value.toNat]? := by
  induction n generalizing s with
  | zero => rfl
  | succ n ih =>
    have : (takeOver T).fullResults (n + 1) s =
      ((s.offsets[s.returnId]?).bind fun o => if o.value < 0 then none else s.values[o.value.toNat]?) ::
        (takeOver T).fullResults n { s with returnId := s.returnId + 1 } := rfl
    rw [this, ih, List.range'_succ, List.map_cons]

theorem takeOffset_value (T : Type) (xs : List (Option T × Opt Int)) (o : Opt Int) :
    (if (takeOffset xs.length xs.length o none).1.value < 0 then none
      else (xs.map Prod.fst ++ [none])[(takeOffset xs.length xs.length o none).1.value.toNat]?) = some (taken xs o) := by
  obtain ⟨p, k⟩ := o
  have hfake : (xs.map Prod.fst ++ [none])[xs.length]? = some none := by
    have := List.getElem?_concat_length (l := xs.map Prod.fst) (a := none)
    simpa using this
  cases p with
  | false => simp [takeOffset, taken, Opt.toOption, hfake]
  | true =>
    by_cases hk : k < 0 ∨ k ≥ xs.length
    · have ho : (takeOffset xs.length xs.length ⟨true, k⟩ none).1 = ⟨true, xs.length⟩ := by simp [takeOffset, hk]
      rw [ho, if_neg (by simp)]
      simp only [Int.toNat_natCast, hfake, taken, Opt.toOption]
      rcases hk with hk | hk
      · simp [hk]
      · have : ¬ k < 0 := by omega
        have h2 : xs[k.toNat]? = none := List.getElem?_eq_none (by omega)
        simp [this, h2]
    · have hk' : ¬ k < 0 ∧ ¬ k ≥ xs.length := by omega
      have ho : (takeOffset xs.length xs.length ⟨true, k⟩ none).1 = ⟨true, k⟩ := by simp [takeOffset, hk']
      rw [ho]
      simp only [taken, Opt.toOption]
      have hlt : k.toNat < (xs.map Prod.fst).length := by simp; omega
      rw [if_neg hk'.1, List.getElem?_append_left hlt]
      simp only [if_true]
      rw [if_neg hk'.1, List.getElem?_eq_getElem hlt]
      rfl

/-- Each child gets the value at its offset within the group, or nothing without an offset; offsets out of range are
reported and give nothing. -/
theorem takeOver_result (T : Type) (xs : List (Option T × Opt Int)) (s : TakeState T) :
    let s' := (takeOver T).finalize ((takeOver T).after () xs s)
    (takeOver T).fullResults xs.length s' = xs.map (fun x => some (taken xs x.2)) ∧
    ((∀ x ∈ xs, inRange xs x.2) → (takeOver T).status s' = (takeOver T).status s) ∧
    ((∃ x ∈ xs, ¬ inRange xs x.2) → (takeOver T).status s' ≠ none) := by
  intro s'
  have hs' : s' = ⟨0, xs.map Prod.fst ++ [none],
      (takeLoop xs.length xs.length (xs.map Prod.snd) s.error).1,
      (takeLoop xs.length xs.length (xs.map Prod.snd) s.error).2⟩ := by
    simp only [s', takeOver_after]; simp [takeOver]
  have hst : (takeOver T).status s' = (takeLoop xs.length xs.length (xs.map Prod.snd) s.error).2 := by rw [hs']; rfl
  refine ⟨?_, ?_, ?_⟩
  · rw [take_results, hs', takeLoop_length]
    apply List.ext_getElem?
    intro k
    simp only [List.getElem?_map]
    by_cases hk : k < xs.length
    · rw [List.getElem?_range' hk, List.getElem?_eq_getElem hk]
      simp only [Option.map_some, Nat.zero_add, Nat.one_mul]
      rw [List.getElem?_eq_getElem hk]
      simp only [Option.map_some, Option.bind_some]
      rw [takeOffset_value]
    · rw [List.getElem?_eq_none (by simp; omega), List.getElem?_eq_none (by omega)]
      rfl
  · intro h
    rw [hst, takeLoop_error, if_pos]
    · rfl
    · intro o ho
      obtain ⟨x, hx, rfl⟩ := List.mem_map.1 ho
      exact h x hx
  · rintro ⟨x, hx, hn⟩
    rw [hst, takeLoop_error, if_neg]
    · simp
    · intro h
      exact hn (h x.2 (List.mem_map.2 ⟨x, hx, rfl⟩))

example : (takeOver Nat).fullResults 3 ((takeOver Nat).finalize ((takeOver Nat).after ()
    [(some 10, ⟨true, 2⟩), (none, ⟨false, 7⟩), (some 30, ⟨true, 1⟩)] ⟨4, [], [], none⟩)) =
    [some (some 30), some none, some none] := rfl

/-! ## `math.median`, `math.inverse_cdf` -/

theorem nth_isNth (c : Cmp T) (nth : Nat → List T → List T) (h : NthOk c nth) (hc : c.Ok) (k : Nat) (l : List T)
    (hk : k < l.length) (hn : ∀ x ∈ l, c.nan x = false) :
    ∃ x, (nth k l)[k]? = some x ∧ IsNth c k l x := by
  obtain ⟨hp, h1, h2⟩ := h k l hk hn
  have hlen : k < (nth k l).length := by rw [hp.length_eq]; exact hk
  obtain ⟨y, hy⟩ : ∃ y, (nth k l)[k]? = some y := ⟨_, List.getElem?_eq_getElem hlen⟩
  refine ⟨y, hy, hp.mem_iff.1 (List.mem_of_getElem? hy), ?_, ?_⟩
  · rw [← hp.countP_eq, ← List.take_append_drop k (nth k l), List.countP_append]
    have : List.countP (fun z => c.lt z y) (List.drop k (nth k l)) = 0 := by
      rw [List.countP_eq_zero]
      intro z hz
      obtain ⟨i, hi, rfl⟩ := List.getElem_of_mem hz
      rw [List.getElem_drop]
      rw [List.length_drop] at hi
      rcases Nat.eq_zero_or_pos i with rfl | hpos
      · have : (nth k l)[k + 0] = y := by rw [List.getElem?_eq_getElem hlen] at hy; simpa using hy
        rw [this]; simp [hc.irrefl]
      · rw [h2 (k + i) _ _ (by omega) (List.getElem?_eq_getElem (by omega)) hy]
        simp
    rw [this]
    have := List.countP_le_length (p := fun z => c.lt z y) (l := List.take k (nth k l))
    rw [List.length_take] at this
    omega
  · rw [← hp.countP_eq, ← List.take_append_drop (k + 1) (nth k l), List.countP_append]
    have : List.countP (fun z => !c.lt y z) (List.take (k + 1) (nth k l)) = (List.take (k + 1) (nth k l)).length := by
      rw [List.countP_eq_length]
      intro z hz
      obtain ⟨i, hi, rfl⟩ := List.getElem_of_mem hz
      rw [List.getElem_take]
      rw [List.length_take] at hi
      rcases Nat.lt_or_ge i k with hik | hik
      · rw [h1 i _ _ hik (List.getElem?_eq_getElem (by omega)) hy]
        rfl
      · have hik : i = k := by omega
        subst hik
        have : (nth i l)[i] = y := by rw [List.getElem?_eq_getElem hlen] at hy; simpa using hy
        rw [this]; simp [hc.irrefl]
    rw [List.length_take] at this
    omega

theorem gather_after (acc : Acc Unit T R E (List T)) (hr : ∀ s, acc.reset () s = []) (ha : ∀ v s, acc.add v s = s ++ [v])
    (xs : List T) (s : List T) : acc.after () xs s = xs := by
  induction xs using List.reverseRecOn with
  | nil => exact hr s
  | append_singleton xs a ih => rw [Acc.after_concat, ih, ha]

/-- The median is the lower one of the middle elements, whatever order `std::nth_element` leaves; NaN if there is one;
missing without values. -/
theorem median_result (c : Cmp T) (hc : c.Ok) (nth : Nat → List T → List T) (h : NthOk c nth) (xs s : List T) :
    (xs = [] → (median c nth).aggregate () xs s = some none) ∧
    ((∃ x ∈ xs, c.nan x = true) → ∃ x, xs.find? c.nan = some x ∧ (median c nth).aggregate () xs s = some (some x)) ∧
    (xs ≠ [] → (∀ x ∈ xs, c.nan x = false) → ∃ x, (median c nth).aggregate () xs s = some (some x) ∧
      IsNth c ((xs.length - 1) / 2) xs x) := by
  have hagg : (median c nth).aggregate () xs s = ((median c nth).get xs).1 := by
    rw [Acc.aggregate, gather_after _ (fun _ => rfl) (fun _ _ => rfl)]
  rw [hagg]
  refine ⟨?_, ?_, ?_⟩
  · rintro rfl; rfl
  · rintro ⟨x, hx, hn⟩
    cases hf : xs.find? c.nan with
    | none => rw [List.find?_eq_none] at hf; exact absurd hn (hf x hx)
    | some y =>
      refine ⟨y, rfl, ?_⟩
      have : xs ≠ [] := by rintro rfl; simp at hx
      simp [median, this, hf]
  · intro hne hn
    have hlen : 0 < xs.length := List.length_pos_iff.2 hne
    have hf : xs.find? c.nan = none := List.find?_eq_none.2 fun x hx => by simp [hn x hx]
    obtain ⟨x, hx1, hx2⟩ := nth_isNth c nth h hc ((xs.length - 1) / 2) xs (by omega) hn
    exact ⟨x, by simp [median, hne, hf, hx1], hx2⟩

/-- The element of rank `ceil(cdf * n) - 1`, within the bounds of the list. -/
theorem inverseCdf_result (c : Cmp T) (hc : c.Ok) (rank : Nat → Int) (nth : Nat → List T → List T) (h : NthOk c nth)
    (xs s : List T) (hn : ∀ x ∈ xs, c.nan x = false) :
    (xs = [] → (inverseCdf c rank nth).aggregate () xs s = some none) ∧
    (xs ≠ [] → ∃ x k, (inverseCdf c rank nth).aggregate () xs s = some (some x) ∧ IsNth c k xs x ∧ k < xs.length ∧
      (0 ≤ rank xs.length → rank xs.length < xs.length → (k : Int) = rank xs.length) ∧
      (rank xs.length < 0 → k = 0) ∧ (rank xs.length ≥ xs.length → k + 1 = xs.length)) := by
  have hagg : (inverseCdf c rank nth).aggregate () xs s = ((inverseCdf c rank nth).get xs).1 := by
    rw [Acc.aggregate, gather_after _ (fun _ => rfl) (fun _ _ => rfl)]
  rw [hagg]
  have hf : xs.find? c.nan = none := List.find?_eq_none.2 fun x hx => by simp [hn x hx]
  refine ⟨?_, ?_⟩
  · rintro rfl; rfl
  · intro hne
    have hlen : 0 < xs.length := List.length_pos_iff.2 hne
    obtain ⟨x, hx1, hx2⟩ := nth_isNth c nth h hc (max 0 (min (rank xs.length) ((xs.length : Int) - 1))).toNat xs
      (by omega) hn
    refine ⟨x, _, by simp [inverseCdf, hne, hf, hx1], hx2, by omega, by omega, by omega, by omega⟩

example : NthOk intCmp (fun _ l => l.mergeSort fun a b => decide (a ≤ b)) := by
  intro k l _ _
  have hp := List.pairwise_mergeSort (le := fun (a b : Int) => decide (a ≤ b)) (by
    intro a b d h1 h2; simp at *; omega) (by intro a b; simp; omega) l
  rw [List.pairwise_iff_getElem] at hp
  refine ⟨List.mergeSort_perm _ _, ?_, ?_⟩
  · intro i x y hi hx hy
    obtain ⟨h1, rfl⟩ := List.getElem?_eq_some_iff.1 hx
    obtain ⟨h2, rfl⟩ := List.getElem?_eq_some_iff.1 hy
    have := hp i k h1 h2 hi
    simp [intCmp] at *; omega
  · intro i x y hi hx hy
    obtain ⟨h1, rfl⟩ := List.getElem?_eq_some_iff.1 hx
    obtain ⟨h2, rfl⟩ := List.getElem?_eq_some_iff.1 hy
    have := hp k i h2 h1 hi
    simp [intCmp] at *; omega

/-- Rank determines the element, up to values which compare as equal: the result does not depend on the algorithm. -/
theorem isNth_unique (c : Cmp T) (hc : c.Ok) (k : Nat) (l : List T) (x y : T) (hn : ∀ z ∈ l, c.nan z = false)
    (hx : IsNth c k l x) (hy : IsNth c k l y) : c.eq x y = true := by
  have key : ∀ x y, IsNth c k l x → IsNth c k l y → c.lt x y = false := by
    intro x y hx hy
    by_contra hlt
    have hlt := (Bool.not_eq_false _).mp hlt
    have hle : l.countP (fun z => !c.lt x z) ≤ l.countP (fun z => c.lt z y) := by
      apply List.countP_mono_left
      intro z hz h
      have := hc.total x z y (hn z hz) hlt
      simp at h
      simp [h] at this
      exact this
    have := hx.2.2
    have := hy.2.1
    omega
  rw [hc.eq_iff x y (hn x hx.1) (hn y hy.1)]
  exact ⟨key x y hx hy, key y x hy hx⟩

end Verif.Agg
