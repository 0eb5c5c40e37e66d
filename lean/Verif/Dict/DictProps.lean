import Verif.Dict.DictLemmas
import Verif.DOps.DOpsProps

/-!
# Properties of dicts
-/

namespace Verif.Dict
open Verif.Dense

variable {K α : Type} [DecidableEq K]

/-! ## C141: dicts -/

/-- `dict.make` succeeds exactly if no key occurs twice; a duplicate is the only error. -/
theorem dict_make (ks : List (Option K)) (values : DArr α) :
    ((∀ (i j : Nat) (k : K), ks[i]? = some (some k) → ks[j]? = some (some k) → i = j) ↔ ∃ d, make ks values = .ok d ∧ d.values = values) ∧
    (∀ e, make ks values = .error e → ∃ k, e = .duplicate k) := by
  rw [← pairs_nodup_iff]
  unfold make
  rcases makeOp_spec ks with ⟨h1, h2⟩ | ⟨h1, k, h2⟩
  · rw [h2]
    exact ⟨⟨fun _ => ⟨_, rfl, rfl⟩, fun _ => h1⟩, fun e he => by cases he⟩
  · rw [h2]
    refine ⟨⟨fun h => absurd h h1, ?_⟩, ?_⟩
    · rintro ⟨d, hd, _⟩; cases hd
    · intro e he
      exact ⟨k, (Except.error.inj he).symm⟩

/-- The row of a key is its position in the array of keys, and the keys contained are those of the array. -/
theorem dict_rows {ks : List (Option K)} {d : Map K} (h : makeOp ks = .ok d) (k : K) :
    (∀ r : Int, getRow d k = some r ↔ ∃ n : Nat, r = n ∧ ks[n]? = some (some k)) ∧ (contains d k = true ↔ some k ∈ ks) := by
  constructor
  · intro r
    unfold getRow
    rw [find_some_iff (makeOp_ok h).1, makeOp_mem h]
  · unfold contains
    rw [find_isSome_iff, List.mem_map]
    constructor
    · rintro ⟨⟨k', r⟩, h1, rfl⟩
      obtain ⟨n, _, hn⟩ := (makeOp_mem h).1 h1
      exact List.mem_of_getElem? hn
    · intro hm
      obtain ⟨n, hn⟩ := List.mem_iff_getElem?.1 hm
      exact ⟨(k, n), (makeOp_mem h).2 ⟨n, rfl, hn⟩, rfl⟩

omit [DecidableEq K] in
theorem all_some_map (b : List (Option K)) (h : b.all Option.isSome = true) : b = (b.filterMap id).map some := by
  induction b with
  | nil => rfl
  | cons x b ih =>
    rw [List.all_cons, Bool.and_eq_true] at h
    cases x with
    | none => cases h.1
    | some x => exact congrArg (some x :: ·) (ih h.2)

/-- For every map and every order of iteration, `dict._keys` returns `l` exactly if the map takes the elements of `l` to their positions;
otherwise it is an error, and nothing is written outside of the result. -/
theorem dict_keys_rows (order : Map K) :
    (∀ l, keysOp order = some (.ok l) ↔ order.Perm (l.zipIdx.map fun e => (e.1, (e.2 : Int)))) ∧ keysOp order ≠ none := by
  have hloop := keysLoop_spec order.length order (List.replicate order.length none) (by simp)
  have hop : keysOp order = if ∀ e ∈ order, 0 ≤ e.2 ∧ e.2 < (order.length : Int) then
      (if (writes order (List.replicate order.length none)).all Option.isSome then
        some (.ok ((writes order (List.replicate order.length none)).filterMap id)) else some (.error .incomplete))
      else some (.error .rowIds) := by
    unfold keysOp
    rw [hloop]
    split
    · rename_i h; split at h <;> cases h
    · rename_i e h
      split at h
      · cases h
      · rename_i hc
        rw [if_neg hc]
        cases h
        rfl
    · rename_i b h
      split at h
      · rename_i hc
        rw [if_pos hc]
        cases h
        rfl
      · cases h
  have hwl : (writes order (List.replicate order.length none)).length = order.length := by rw [writes_length]; simp
  constructor
  · intro l
    rw [hop]
    constructor
    · intro h
      split at h
      swap
      · cases h
      rename_i hr
      split at h
      swap
      · cases h
      rename_i hfull
      have hl := Except.ok.inj (Option.some.inj h)
      have hb := all_some_map _ hfull
      rw [hl] at hb
      have hlen : l.length = order.length := by rw [← hwl, hb]; simp
      have hsub : List.range order.length ⊆ order.map (fun e => e.2.toNat) := by
        intro i hi
        rw [List.mem_range] at hi
        by_contra hc
        have := writes_other order (List.replicate order.length none) i hc
        rw [hb, List.getElem?_map, List.getElem?_replicate, if_pos hi, List.getElem?_eq_getElem (by omega)] at this
        cases this
      have hperm : (List.range order.length).Perm (order.map fun e => e.2.toNat) :=
        (List.subperm_of_subset List.nodup_range hsub).perm_of_length_le (by simp)
      have hnodup : (order.map fun e => e.2.toNat).Nodup := hperm.nodup_iff.1 List.nodup_range
      refine (List.subperm_of_subset (List.Nodup.of_map _ hnodup) ?_).perm_of_length_le (by simp [hlen])
      rintro ⟨k, r⟩ hm
      have h0 := hr _ hm
      simp only at h0
      have := writes_mem order (List.replicate order.length none) k r hnodup hm (by rw [List.length_replicate]; omega)
      rw [hb, List.getElem?_map, Option.map_eq_some_iff] at this
      obtain ⟨k', h1, h2⟩ := this
      cases h2
      refine List.mem_map.2 ⟨(k, r.toNat), ?_, by simp only; rw [Int.toNat_of_nonneg h0.1]⟩
      rw [List.mk_mem_zipIdx_iff_getElem?]
      exact h1
    · intro h
      have hlen : order.length = l.length := by rw [h.length_eq]; simp
      have hmem : ∀ k r, (k, r) ∈ order ↔ ∃ n : Nat, r = n ∧ l[n]? = some k := by
        intro k r
        rw [h.mem_iff, List.mem_map]
        constructor
        · rintro ⟨⟨k', n⟩, h1, h2⟩
          cases h2
          exact ⟨n, rfl, List.mk_mem_zipIdx_iff_getElem?.1 h1⟩
        · rintro ⟨n, rfl, h1⟩
          exact ⟨(k, n), List.mk_mem_zipIdx_iff_getElem?.2 h1, rfl⟩
      have hnodup : (order.map fun e => e.2.toNat).Nodup := by
        have := h.map (fun e => e.2.toNat)
        rw [this.nodup_iff, List.map_map]
        have : (l.zipIdx.map ((fun e : K × Int => e.2.toNat) ∘ fun e => (e.1, (e.2 : Int)))) = List.range l.length := by
          rw [List.range_eq_range', ← List.zipIdx_map_snd 0 l]
          apply List.map_congr_left
          intro e _
          simp
        rw [this]
        exact List.nodup_range
      have hr : ∀ e ∈ order, 0 ≤ e.2 ∧ e.2 < (order.length : Int) := by
        rintro ⟨k, r⟩ he
        obtain ⟨n, rfl, h1⟩ := (hmem k r).1 he
        obtain ⟨h2, _⟩ := List.getElem?_eq_some_iff.1 h1
        simp only
        omega
      have hw : writes order (List.replicate order.length none) = l.map some := by
        apply List.ext_getElem?
        intro i
        by_cases hi : i < l.length
        · have hx : l[i]? = some l[i] := List.getElem?_eq_getElem hi
          have := writes_mem order (List.replicate order.length none) l[i] (i : Int) hnodup ((hmem _ _).2 ⟨i, rfl, hx⟩)
            (by rw [List.length_replicate, Int.toNat_natCast]; omega)
          rw [Int.toNat_natCast] at this
          rw [this, List.getElem?_map, hx]
          rfl
        · rw [List.getElem?_eq_none (by omega), List.getElem?_eq_none (by simp; omega)]
      rw [if_pos hr, hw, if_pos (by simp)]
      congr 2
      simp
  · rw [hop]
    split
    · split <;> exact fun h => by cases h
    · exact fun h => by cases h

/-- `dict.keys` of a dict that was made from `ks` returns the keys in their order, whatever the order of iteration of the hash map, provided
that missing keys occur at the end of `ks` only; they are dropped. Otherwise it is an error. -/
theorem dict_keys {ks : List (Option K)} {d order : Map K} (h : makeOp ks = .ok d) (ho : order.Perm d) (l : List K) :
    keysOp order = some (.ok l) ↔ ∃ m, ks = l.map some ++ List.replicate m none := by
  rw [(dict_keys_rows order).1 l]
  have hd := makeOp_ok h
  have hz : ∀ k r, (k, r) ∈ l.zipIdx.map (fun e => (e.1, (e.2 : Int))) ↔ ∃ n : Nat, r = n ∧ l[n]? = some k := by
    intro k r
    rw [List.mem_map]
    constructor
    · rintro ⟨⟨k', n⟩, h1, h2⟩
      cases h2
      exact ⟨n, rfl, List.mk_mem_zipIdx_iff_getElem?.1 h1⟩
    · rintro ⟨n, rfl, h1⟩
      exact ⟨(k, n), List.mk_mem_zipIdx_iff_getElem?.2 h1, rfl⟩
  have hzn : (l.zipIdx.map fun e => (e.1, (e.2 : Int))).Nodup := by
    refine List.Nodup.of_map (fun e => e.2.toNat) ?_
    rw [List.map_map]
    have : (l.zipIdx.map ((fun e : K × Int => e.2.toNat) ∘ fun e => (e.1, (e.2 : Int)))) = List.range l.length := by
      rw [List.range_eq_range', ← List.zipIdx_map_snd 0 l]
      apply List.map_congr_left
      intro e _
      simp
    rw [this]
    exact List.nodup_range
  have hiff : order.Perm (l.zipIdx.map fun e => (e.1, (e.2 : Int))) ↔ ∀ (n : Nat) (k : K), ks[n]? = some (some k) ↔ l[n]? = some k := by
    constructor
    · intro hp n k
      have h1 : (k, (n : Int)) ∈ d ↔ (k, (n : Int)) ∈ l.zipIdx.map fun e => (e.1, (e.2 : Int)) := by rw [← hp.mem_iff, ho.mem_iff]
      rw [makeOp_mem h, hz] at h1
      constructor
      · intro hk
        obtain ⟨m, hm, h2⟩ := h1.1 ⟨n, rfl, hk⟩
        rw [show n = m by omega]; exact h2
      · intro hk
        obtain ⟨m, hm, h2⟩ := h1.2 ⟨n, rfl, hk⟩
        rw [show n = m by omega]; exact h2
    · intro hn
      refine (List.perm_ext_iff_of_nodup (ho.nodup_iff.2 (List.Nodup.of_map _ hd.1)) hzn).2 ?_
      rintro ⟨k, r⟩
      rw [ho.mem_iff, makeOp_mem h, hz]
      constructor
      · rintro ⟨n, rfl, h1⟩; exact ⟨n, rfl, (hn n k).1 h1⟩
      · rintro ⟨n, rfl, h1⟩; exact ⟨n, rfl, (hn n k).2 h1⟩
  rw [hiff]
  constructor
  · intro hn
    have hle : l.length ≤ ks.length := by
      by_contra hc
      have := (hn ks.length l[ks.length]).2 (List.getElem?_eq_getElem (by omega))
      rw [List.getElem?_eq_none (by omega)] at this
      cases this
    refine ⟨ks.length - l.length, List.ext_getElem? fun i => ?_⟩
    by_cases hi : i < l.length
    · rw [List.getElem?_append_left (by simpa using hi), List.getElem?_map, List.getElem?_eq_getElem hi]
      exact (hn i l[i]).2 (List.getElem?_eq_getElem hi)
    · rw [List.getElem?_append_right (by simp; omega), List.length_map, List.getElem?_replicate]
      by_cases hik : i < ks.length
      · rw [if_pos (by omega)]
        cases hx : ks[i]? with
        | none => rw [List.getElem?_eq_none_iff] at hx; omega
        | some x =>
          cases x with
          | none => rfl
          | some k =>
            have := (hn i k).1 hx
            rw [List.getElem?_eq_none (by omega)] at this
            cases this
      · rw [if_neg (by omega), List.getElem?_eq_none (by omega)]
  · rintro ⟨m, rfl⟩ n k
    by_cases hi : n < l.length
    · rw [List.getElem?_append_left (by simpa using hi), List.getElem?_map, List.getElem?_eq_getElem hi]
      simp
    · rw [List.getElem?_append_right (by simp; omega), List.getElem?_replicate, List.getElem?_eq_none (l := l) (by omega)]
      split <;> simp

/-- `dict.get` returns the value at the position of the key, and a missing value for a missing or unknown key.  If there is no value at the
position of the key, because `dict.make` was given fewer values than keys, it is an error. -/
theorem dict_get {ks : List (Option K)} {values : DArr α} (hv : values.Valid) {d : Dict K α} (h : make ks values = .ok d) :
    (∀ (n : Nat) (k : K) (v : Option α), ks[n]? = some (some k) → (elems values)[n]? = some v → get d (some k) = some (.ok v)) ∧
    (∀ (n : Nat) (k : K), ks[n]? = some (some k) → (elems values).length ≤ n → get d (some k) = some (.error (.at n))) ∧
    (∀ k, some k ∉ ks → get d (some k) = some (.ok none)) ∧ get d none = some (.ok none) := by
  unfold make at h
  split at h
  · cases h
  rename_i rows hrows
  obtain rfl := Except.ok.inj h
  have hr := fun k => dict_rows hrows k
  unfold get atRow
  refine ⟨?_, ?_, ?_, rfl⟩
  · intro n k v hk hvn
    have hrow : getRow rows k = some (n : Int) := ((hr k).1 n).2 ⟨n, rfl, hk⟩
    obtain ⟨hlt, _⟩ := List.getElem?_eq_some_iff.1 hvn
    obtain ⟨h1, _, h3, _⟩ := DOps.at_element values hv (n : Int)
    obtain ⟨x, hx, hat⟩ := h1 (by omega) (by omega)
    rw [Int.toNat_natCast, hvn] at hx
    cases hx
    simp only [Option.bind_some, hrow]
    rw [h3, hat]
    rfl
  · intro n k hk hn
    have hrow : getRow rows k = some (n : Int) := ((hr k).1 n).2 ⟨n, rfl, hk⟩
    obtain ⟨_, h2, h3, _⟩ := DOps.at_element values hv (n : Int)
    simp only [Option.bind_some, hrow]
    rw [h3, h2 (Or.inr (by omega))]
    rfl
  · intro k hk
    have hrow : getRow rows k = none := by
      cases hg : getRow rows k with
      | none => rfl
      | some r =>
        obtain ⟨n, _, hn⟩ := ((hr k).1 r).1 hg
        exact absurd (List.mem_of_getElem? hn) hk
    simp only [Option.bind_some, hrow]
    rfl

/-- The fingerprint of a dict is determined by the rows of its keys, whatever the order of insertion and iteration, and determines them. -/
theorem dict_fingerprint {d1 d2 s1 s2 : Map K} (h1 : (d1.map (·.1)).Nodup) (h2 : (d2.map (·.1)).Nodup)
    {lt : K × Int → K × Int → Prop} (asymm : ∀ a b, lt a b → lt b a → False)
    (p1 : s1.Perm d1) (p2 : s2.Perm d2) (o1 : s1.Pairwise lt) (o2 : s2.Pairwise lt) :
    fingerprint s1 = fingerprint s2 ↔ ∀ k, getRow d1 k = getRow d2 k := by
  unfold fingerprint getRow
  constructor
  · intro h k
    have hs : s1 = s2 := (Prod.mk.inj h).2
    apply Option.ext
    intro r
    rw [find_some_iff h1, find_some_iff h2, ← p1.mem_iff, ← p2.mem_iff, hs]
  · intro h
    have hp : s1.Perm s2 := by
      refine (List.perm_ext_iff_of_nodup (p1.nodup_iff.2 (List.Nodup.of_map _ h1)) (p2.nodup_iff.2 (List.Nodup.of_map _ h2))).2 ?_
      rintro ⟨k, r⟩
      rw [p1.mem_iff, p2.mem_iff, ← find_some_iff h1, ← find_some_iff h2, h k]
    have hs : s1 = s2 := hp.eq_of_pairwise (fun a b _ _ hab hba => (asymm a b hab hba).elim) o1 o2
    rw [hs]

/-- With fewer values than keys, `dict.make` succeeds and `dict.get` of a key fails. -/
theorem dict_sizes_counterexample : ∃ d : Dict Nat Nat, make [some 1, some 2] ⟨[10], [], 0⟩ = .ok d ∧ get d (some 1) = some (.ok (some 10)) ∧
    get d (some 2) = some (.error (.at 1)) := ⟨⟨[(2, 1), (1, 0)], ⟨[10], [], 0⟩⟩, by rfl, by decide +kernel, by decide +kernel⟩

/-- With a missing key before another one, `dict.make` succeeds and `dict.keys` fails. -/
theorem dict_missing_key_counterexample : ∃ d : Map Nat, makeOp [none, some 2] = .ok d ∧ keysOp d = some (.error .rowIds) :=
  ⟨[(2, 1)], by rfl, by rfl⟩

example : (∃ d : Dict Nat Nat, make [some 5, some 3, none] ⟨[10, 20, 30], [], 0⟩ = .ok d ∧ get d (some 3) = some (.ok (some 20)) ∧
      get d (some 4) = some (.ok none) ∧ keysOp d.rows = some (.ok [5, 3]) ∧ keysOp d.rows.reverse = some (.ok [5, 3])) ∧
    (make [some 5, some 3, some 5] (⟨[10, 20, 30], [], 0⟩ : DArr Nat)).isOk = false ∧
    (⟨[10, 20, 30], [], 0⟩ : DArr Nat).Valid :=
  ⟨⟨⟨[(3, 1), (5, 0)], ⟨[10, 20, 30], [], 0⟩⟩, by rfl, by decide +kernel, by decide +kernel, by rfl, by rfl⟩, by rfl, by simp [DArr.Valid]⟩

/-! ## C142: optimisations of dicts -/

/-- With at least as many values as keys, the optimised lookup by a boolean gives the same. -/
theorem bool_dict_partial {ks : List (Option Bool)} {rows : Map Bool} (h : makeOp ks = .ok rows) {values : DArr α} (hv : values.Valid)
    (hsize : ks.length ≤ (elems values).length) (p : Option Bool) : boolDict rows values p = atRow rows values p := by
  have hmake : make ks values = .ok ⟨rows, values⟩ := by unfold make; rw [h]
  obtain ⟨g1, _, g3, g4⟩ := dict_get hv hmake
  have hok : ∀ b : Bool, ∃ v, atRow rows values (some b) = some (.ok v) := by
    intro b
    by_cases hb : some b ∈ ks
    · obtain ⟨n, hn⟩ := List.mem_iff_getElem?.1 hb
      obtain ⟨hlt, _⟩ := List.getElem?_eq_some_iff.1 hn
      exact ⟨_, g1 n b _ hn (List.getElem?_eq_getElem (by omega))⟩
    · exact ⟨none, g3 b hb⟩
  obtain ⟨t, ht⟩ := hok true
  obtain ⟨f, hf⟩ := hok false
  unfold boolDict
  rw [ht, hf]
  simp only
  unfold logicalIf
  match p with
  | some true => exact ht.symm
  | some false => exact hf.symm
  | none => rfl

/-- With fewer values than keys, the optimised lookup fails for a key for which the original one succeeds. -/
theorem bool_dict_counterexample : ∃ rows : Map Bool, makeOp [some true, some false] = .ok rows ∧
    atRow rows (⟨[10], [], 0⟩ : DArr Nat) (some true) = some (.ok (some 10)) ∧
    boolDict rows (⟨[10], [], 0⟩ : DArr Nat) (some true) = some (.error (.at 1)) :=
  ⟨[(false, 1), (true, 0)], by rfl, by decide +kernel, by decide +kernel⟩

/-- Dropping the check that a key is present from a check that it is contained changes nothing. -/
theorem dict_contains_opt (d : Map K) (key : Option K) : hasAndContains d key = containsOpt d key ∧
    (containsOpt d key = true ↔ ∃ k, key = some k ∧ (getRow d k).isSome = true) := by
  cases key with
  | none => exact ⟨rfl, by simp [containsOpt]⟩
  | some k => exact ⟨rfl, by simp [containsOpt, contains, getRow]⟩

example : ∃ rows : Map Bool, makeOp [some false] = .ok rows ∧ boolDict rows (⟨[10], [], 0⟩ : DArr Nat) (some false) = some (.ok (some 10)) ∧
    boolDict rows (⟨[10], [], 0⟩ : DArr Nat) (some true) = some (.ok none) ∧ boolDict rows (⟨[10], [], 0⟩ : DArr Nat) none = some (.ok none) :=
  ⟨[(false, 0)], by rfl, by decide +kernel, by decide +kernel, by decide +kernel⟩

end Verif.Dict
