import Mathlib.Data.List.Perm.Subperm
import Mathlib.Data.List.Nodup
import Mathlib.Tactic.ByContra
import Verif.Dict.DictModel

/-!
# Lemmas about dicts
-/

namespace Verif.Dict
open Verif.Dense

variable {K α : Type} [DecidableEq K]

/-! ## Construction -/

/-- The pairs of a list of keys from position `id` on. -/
def pairs : List (Option K) → Nat → Map K
  | [], _ => []
  | some k :: ks, id => (k, (id : Int)) :: pairs ks (id + 1)
  | none :: ks, id => pairs ks (id + 1)

omit [DecidableEq K] in
theorem mem_pairs {k : K} {r : Int} : ∀ (ks : List (Option K)) (id : Nat),
    (k, r) ∈ pairs ks id ↔ ∃ n : Nat, r = ((id + n : Nat) : Int) ∧ ks[n]? = some (some k) := by
  intro ks
  induction ks with
  | nil => intro id; simp [pairs]
  | cons x ks ih =>
    intro id
    have hshift : (∃ n : Nat, r = ((id + 1 + n : Nat) : Int) ∧ ks[n]? = some (some k)) ↔
        ∃ n : Nat, n ≠ 0 ∧ r = ((id + n : Nat) : Int) ∧ (x :: ks)[n]? = some (some k) := by
      constructor
      · rintro ⟨n, h1, h2⟩
        exact ⟨n + 1, by omega, by rw [h1]; congr 1; omega, by rw [List.getElem?_cons_succ]; exact h2⟩
      · rintro ⟨n, h0, h1, h2⟩
        obtain ⟨m, rfl⟩ : ∃ m, n = m + 1 := ⟨n - 1, by omega⟩
        rw [List.getElem?_cons_succ] at h2
        exact ⟨m, by rw [h1]; congr 1; omega, h2⟩
    cases x with
    | none =>
      rw [pairs, ih, hshift]
      constructor
      · rintro ⟨n, _, h⟩; exact ⟨n, h⟩
      · rintro ⟨n, h1, h2⟩
        refine ⟨n, ?_, h1, h2⟩
        rintro rfl
        simp at h2
    | some x =>
      rw [pairs, List.mem_cons, ih, hshift]
      constructor
      · rintro (h | ⟨n, _, h⟩)
        · obtain ⟨rfl, rfl⟩ := Prod.mk.inj h
          exact ⟨0, rfl, rfl⟩
        · exact ⟨n, h⟩
      · rintro ⟨n, h1, h2⟩
        by_cases hn : n = 0
        · subst hn
          left
          rw [List.getElem?_cons_zero] at h2
          rw [Option.some.inj (Option.some.inj h2), h1]
          rfl
        · exact Or.inr ⟨n, hn, h1, h2⟩

omit [DecidableEq K] in
theorem pairs_rows : ∀ (ks : List (Option K)) (id : Nat), ((pairs ks id).map (·.2)).Nodup := by
  intro ks
  induction ks with
  | nil => intro id; simp [pairs]
  | cons x ks ih =>
    intro id
    cases x with
    | none => exact ih (id + 1)
    | some x =>
      rw [pairs, List.map_cons, List.nodup_cons]
      refine ⟨?_, ih (id + 1)⟩
      intro h
      obtain ⟨⟨k, r⟩, h1, h2⟩ := List.mem_map.1 h
      obtain ⟨n, h3, _⟩ := (mem_pairs ks (id + 1)).1 h1
      simp only at h2
      omega

omit [DecidableEq K] in
theorem pairs_nodup_iff (ks : List (Option K)) :
    ((pairs ks 0).map (·.1)).Nodup ↔ ∀ (i j : Nat) (k : K), ks[i]? = some (some k) → ks[j]? = some (some k) → i = j := by
  constructor
  · intro h i j k hi hj
    have h1 := (mem_pairs (k := k) (r := ((0 + i : Nat) : Int)) ks 0).2 ⟨i, rfl, hi⟩
    have h2 := (mem_pairs (k := k) (r := ((0 + j : Nat) : Int)) ks 0).2 ⟨j, rfl, hj⟩
    have := List.inj_on_of_nodup_map h h1 h2 rfl
    have := (Prod.mk.inj this).2
    omega
  · intro h
    refine List.Nodup.map_on ?_ (List.Nodup.of_map _ (pairs_rows ks 0))
    rintro ⟨k1, r1⟩ h1 ⟨k2, r2⟩ h2 he
    simp only at he
    subst he
    obtain ⟨i, rfl, hi⟩ := (mem_pairs ks 0).1 h1
    obtain ⟨j, rfl, hj⟩ := (mem_pairs ks 0).1 h2
    rw [h i j _ hi hj]

theorem find_some_iff {d : Map K} (h : (d.map (·.1)).Nodup) {k : K} {r : Int} : d.find k = some r ↔ (k, r) ∈ d := by
  unfold Map.find
  rw [Option.map_eq_some_iff]
  constructor
  · rintro ⟨⟨k', r'⟩, h1, h2⟩
    have h3 := List.find?_some h1
    have h4 := List.mem_of_find?_eq_some h1
    simp only [decide_eq_true_iff] at h3 h2
    subst h3 h2
    exact h4
  · intro hm
    cases hf : List.find? (fun e => decide (e.1 = k)) d with
    | none =>
      have := List.find?_eq_none.1 hf (k, r) hm
      simp at this
    | some e =>
      have h3 := List.find?_some hf
      have h4 := List.mem_of_find?_eq_some hf
      rw [decide_eq_true_iff] at h3
      have := List.inj_on_of_nodup_map h h4 hm h3
      exact ⟨e, rfl, by rw [this]⟩

theorem find_isSome_iff {d : Map K} {k : K} : (d.find k).isSome = true ↔ k ∈ d.map (·.1) := by
  unfold Map.find
  rw [Option.isSome_map, List.find?_isSome]
  simp

theorem makeLoop_status : ∀ (ks : List (Option K)) (id : Nat) (d : Map K) (k : K), (makeLoop ks id d (some k)).2 ≠ none := by
  intro ks
  induction ks with
  | nil => intro id d k h; cases h
  | cons x ks ih =>
    intro id d k
    cases x with
    | none => exact ih _ _ _
    | some x =>
      rw [makeLoop]
      simp only
      split <;> exact ih _ _ _

theorem makeLoop_spec : ∀ (ks : List (Option K)) (id : Nat) (d : Map K), (d.map (·.1)).Nodup →
    (((pairs ks id).reverse ++ d).map (·.1)).Nodup ∧ makeLoop ks id d none = ((pairs ks id).reverse ++ d, none) ∨
    ¬ (((pairs ks id).reverse ++ d).map (·.1)).Nodup ∧ (makeLoop ks id d none).2 ≠ none := by
  intro ks
  induction ks with
  | nil => intro id d h; exact Or.inl ⟨h, rfl⟩
  | cons x ks ih =>
    intro id d h
    cases x with
    | none => exact ih (id + 1) d h
    | some x =>
      rw [makeLoop, pairs, List.reverse_cons, List.append_assoc, List.singleton_append]
      unfold Map.emplace
      by_cases hx : x ∈ d.map (·.1)
      · right
        rw [if_pos (find_isSome_iff.2 hx)]
        simp only
        refine ⟨?_, makeLoop_status _ _ _ _⟩
        intro hc
        rw [List.map_append, List.nodup_append] at hc
        have := hc.2.1
        rw [List.map_cons, List.nodup_cons] at this
        exact this.1 hx
      · rw [if_neg (fun hc => hx (find_isSome_iff.1 hc))]
        simp only
        exact ih (id + 1) ((x, (id : Int)) :: d) (by rw [List.map_cons, List.nodup_cons]; exact ⟨hx, h⟩)

theorem makeOp_spec (ks : List (Option K)) :
    ((pairs ks 0).map (·.1)).Nodup ∧ makeOp ks = .ok (pairs ks 0).reverse ∨
    ¬ ((pairs ks 0).map (·.1)).Nodup ∧ ∃ k, makeOp ks = .error (.duplicate k) := by
  have := makeLoop_spec ks 0 [] (by simp)
  rw [List.append_nil, List.map_reverse, List.nodup_reverse] at this
  unfold makeOp
  rcases this with ⟨h1, h2⟩ | ⟨h1, h2⟩
  · left; rw [h2]; exact ⟨h1, rfl⟩
  · right
    refine ⟨h1, ?_⟩
    generalize makeLoop ks 0 [] none = p at h2
    obtain ⟨d, st⟩ := p
    cases st with
    | none => exact absurd rfl h2
    | some k => exact ⟨k, rfl⟩

theorem makeOp_ok {ks : List (Option K)} {d : Map K} (h : makeOp ks = .ok d) :
    (d.map (·.1)).Nodup ∧ d.Perm (pairs ks 0) := by
  rcases makeOp_spec ks with ⟨h1, h2⟩ | ⟨_, k, h2⟩
  · rw [h] at h2
    obtain rfl := Except.ok.inj h2
    exact ⟨by rw [List.map_reverse, List.nodup_reverse]; exact h1, List.reverse_perm _⟩
  · rw [h] at h2; cases h2

theorem makeOp_mem {ks : List (Option K)} {d : Map K} (h : makeOp ks = .ok d) {k : K} {r : Int} :
    (k, r) ∈ d ↔ ∃ n : Nat, r = n ∧ ks[n]? = some (some k) := by
  rw [(makeOp_ok h).2.mem_iff, mem_pairs]
  simp

/-! ## Keys -/

/-- The effect of the writes. -/
def writes (order : Map K) (b : List (Option K)) : List (Option K) := order.foldl (fun b e => b.set e.2.toNat (some e.1)) b

omit [DecidableEq K] in
theorem writes_length : ∀ (order : Map K) (b : List (Option K)), (writes order b).length = b.length := by
  intro order
  induction order with
  | nil => intro b; rfl
  | cons e order ih => intro b; exact (ih _).trans (by simp)

omit [DecidableEq K] in
theorem writes_other : ∀ (order : Map K) (b : List (Option K)) (i : Nat), i ∉ order.map (fun e => e.2.toNat) → (writes order b)[i]? = b[i]? := by
  intro order
  induction order with
  | nil => intro b i _; rfl
  | cons e order ih =>
    intro b i hi
    rw [List.map_cons, List.mem_cons, not_or] at hi
    exact (ih _ i hi.2).trans (by rw [List.getElem?_set_ne (fun h => hi.1 h.symm)])

omit [DecidableEq K] in
theorem writes_mem : ∀ (order : Map K) (b : List (Option K)) (k : K) (r : Int), (order.map (fun e => e.2.toNat)).Nodup → (k, r) ∈ order →
    r.toNat < b.length → (writes order b)[r.toNat]? = some (some k) := by
  intro order
  induction order with
  | nil => intro b k r _ h; simp at h
  | cons e order ih =>
    intro b k r hn hm hr
    rw [List.map_cons, List.nodup_cons] at hn
    rcases List.mem_cons.1 hm with rfl | hm
    · exact (writes_other order _ _ hn.1).trans (by rw [List.getElem?_set_self hr])
    · exact ih _ k r hn.2 hm (by rw [List.length_set]; exact hr)

theorem keysLoop_spec (size : Nat) : ∀ (order : Map K) (b : List (Option K)), b.length = size →
    keysLoop size order b = some (if ∀ e ∈ order, 0 ≤ e.2 ∧ e.2 < size then .ok (writes order b) else .error .rowIds) := by
  intro order
  induction order with
  | nil => intro b _; simp [keysLoop, writes]
  | cons e order ih =>
    intro b hb
    obtain ⟨k, r⟩ := e
    rw [keysLoop]
    by_cases hr : r < 0 ∨ r ≥ size
    · rw [if_pos hr, if_neg]
      intro h
      have := h (k, r) (by simp)
      simp only at this
      omega
    · rw [if_neg hr, if_pos (by omega), ih _ (by simpa using hb)]
      have : (∀ e ∈ (k, r) :: order, 0 ≤ e.2 ∧ e.2 < (size : Int)) ↔ ∀ e ∈ order, 0 ≤ e.2 ∧ e.2 < (size : Int) := by
        rw [List.forall_mem_cons]
        exact ⟨fun h => h.2, fun h => ⟨by simp only; omega, h⟩⟩
      simp only [this]
      rfl

end Verif.Dict
