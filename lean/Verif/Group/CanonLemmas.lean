import Verif.Group.OutLemmas

/-!
# Lemmas: the results of all groups, and loops which share an accumulator
-/

namespace Verif.Group
open Verif.Dense Verif.Arr Verif.Agg

variable {V P A R E S β : Type}

/-- The valid parent rows. -/
def Rows.parents (d : Rows V) : List (Nat × List (Option V)) :=
  (List.range d.np).filterMap fun i => (d.prow i).map fun a => (i, a)

/-- Parents exist. -/
def Rows.Ok (d : Rows V) : Prop := ∀ c i, c < d.nc → d.parentOf c = some i → i < d.np

theorem mem_parents {d : Rows V} {x : Nat × List (Option V)} :
    x ∈ d.parents ↔ x.1 < d.np ∧ d.prow x.1 = some x.2 := by
  unfold Rows.parents
  rw [List.mem_filterMap]
  constructor
  · rintro ⟨i, hi, he⟩
    obtain ⟨a, ha, rfl⟩ := Option.map_eq_some_iff.1 he
    exact ⟨List.mem_range.1 hi, ha⟩
  · rintro ⟨h1, h2⟩
    exact ⟨x.1, List.mem_range.2 h1, by rw [h2]; rfl⟩

theorem mem_kids {d : Rows V} {i : Nat} {x : Nat × List (Option V)} :
    x ∈ d.kids i ↔ x.1 < d.nc ∧ d.parentOf x.1 = some i ∧ d.crow x.1 = some x.2 := by
  unfold Rows.kids
  rw [List.mem_filterMap]
  constructor
  · rintro ⟨c, hc, he⟩
    split at he
    · obtain ⟨a, ha, rfl⟩ := Option.map_eq_some_iff.1 he
      exact ⟨List.mem_range.1 hc, by assumption, ha⟩
    · cases he
  · rintro ⟨h1, h2, h3⟩
    exact ⟨x.1, List.mem_range.2 h1, by rw [if_pos h2, h3]; rfl⟩

/-- Rows picked from a range have increasing ids. -/
theorem inc_filterMap {X : Type} (f : Nat → Option (Nat × X)) (hf : ∀ c x, f c = some x → x.1 = c) (l : List Nat)
    (h : l.Pairwise (· < ·)) : ((l.filterMap f).map Prod.fst).Pairwise (· < ·) := by
  rw [List.pairwise_map, List.pairwise_filterMap]
  refine h.imp ?_
  intro a b hab x hx y hy
  rw [hf a x hx, hf b y hy]
  exact hab

theorem inc_parents (d : Rows V) : (d.parents.map Prod.fst).Pairwise (· < ·) :=
  inc_filterMap _ (by
    intro c x h
    obtain ⟨a, _, rfl⟩ := Option.map_eq_some_iff.1 h
    rfl) _ List.pairwise_lt_range

theorem inc_kids (d : Rows V) (i : Nat) : ((d.kids i).map Prod.fst).Pairwise (· < ·) :=
  inc_filterMap _ (by
    intro c x h
    split at h
    · obtain ⟨a, _, rfl⟩ := Option.map_eq_some_iff.1 h
      rfl
    · cases h) _ List.pairwise_lt_range

theorem groupOut_keys (op : GroupOp V P A R E S β) (i : Nat) (p : P) (rows : List (Nat × List (Option V))) (s : S) :
    (op.groupOut i p rows s).map Prod.fst = if op.kind = .aggregator then [i] else rows.map Prod.fst := by
  unfold GroupOp.groupOut
  cases op.kind with
  | aggregator => rfl
  | partial' =>
    rw [if_neg (by decide)]
    exact List.map_fst_zip (by rw [partialResults_length]; simp)
  | full =>
    rw [if_neg (by decide)]
    exact List.map_fst_zip (by rw [fullResults_length]; simp)

/-- The results of all groups. -/
def GroupOp.canon (op : GroupOp V P A R E S β) (d : Rows V) : List (Nat × R) := op.outs d.kids d.parents

theorem mem_canon {op : GroupOp V P A R E S β} {d : Rows V} {y : Nat × R} :
    y ∈ op.canon d ↔ ∃ i a, i < d.np ∧ d.prow i = some a ∧ y ∈ op.groupOut i (op.parg a) (d.kids i) op.empty := by
  unfold GroupOp.canon GroupOp.outs
  rw [List.mem_flatMap]
  constructor
  · rintro ⟨x, hx, hy⟩
    obtain ⟨h1, h2⟩ := mem_parents.1 hx
    exact ⟨x.1, x.2, h1, h2, hy⟩
  · rintro ⟨i, a, h1, h2, hy⟩
    exact ⟨(i, a), mem_parents.2 ⟨h1, h2⟩, hy⟩

theorem canon_keys (op : GroupOp V P A R E S β) (d : Rows V) : (op.canon d).map Prod.fst =
    if op.kind = .aggregator then d.parents.map Prod.fst
    else d.parents.flatMap fun x => (d.kids x.1).map Prod.fst := by
  unfold GroupOp.canon GroupOp.outs
  rw [List.map_flatMap]
  by_cases hk : op.kind = .aggregator
  · simp only [groupOut_keys, hk, if_true]
    exact (List.map_eq_flatMap ..).symm
  · simp only [groupOut_keys, hk, if_false]

theorem canon_nodup (op : GroupOp V P A R E S β) (d : Rows V) : ((op.canon d).map Prod.fst).Nodup := by
  rw [canon_keys]
  split
  · exact nodup_of_inc (inc_parents d)
  · rw [List.nodup_flatMap]
    refine ⟨fun x _ => nodup_of_inc (inc_kids d x.1), ?_⟩
    have := inc_parents d
    rw [List.pairwise_map] at this
    refine this.imp ?_
    intro a b hab c hc hc'
    obtain ⟨x, hx, rfl⟩ := List.mem_map.1 hc
    obtain ⟨y, hy, hxy⟩ := List.mem_map.1 hc'
    have h1 := (mem_kids.1 hx).2.1
    have h2 := (mem_kids.1 hy).2.1
    rw [hxy, h1] at h2
    injection h2 with h2
    omega

theorem canon_bound (op : GroupOp V P A R E S β) (d : Rows V) : ∀ y ∈ op.canon d, y.1 < op.outSize d := by
  intro y hy
  have hk := List.mem_map_of_mem (f := Prod.fst) hy
  rw [canon_keys] at hk
  unfold GroupOp.outSize
  split at hk
  · rw [if_pos (by assumption)]
    obtain ⟨x, hx, he⟩ := List.mem_map.1 hk
    rw [← he]
    exact (mem_parents.1 hx).1
  · rw [if_neg (by assumption)]
    obtain ⟨x, _, hx⟩ := List.mem_flatMap.1 hk
    obtain ⟨z, hz, he⟩ := List.mem_map.1 hx
    rw [← he]
    exact (mem_kids.1 hz).1

theorem groupOut_nodup (op : GroupOp V P A R E S β) (d : Rows V) (i : Nat) (p : P) (s : S) :
    ((op.groupOut i p (d.kids i) s).map Prod.fst).Nodup := by
  rw [groupOut_keys]
  split
  · simp
  · exact nodup_of_inc (inc_kids d i)

theorem canon_lookup (op : GroupOp V P A R E S β) {d : Rows V} (hd : d.Ok) {c : Nat} (hc : c < op.outSize d) :
    ((op.canon d).lookup c).bind op.opt = op.expected d c := by
  unfold GroupOp.expected
  have key : (op.canon d).lookup c = (if op.kind = .aggregator then some c else d.parentOf c).bind fun i =>
      (d.prow i).bind fun a => (op.groupOut i (op.parg a) (d.kids i) op.empty).lookup c := by
    apply Option.ext
    intro r
    rw [lookup_iff (canon_nodup op d), mem_canon]
    simp only [Option.bind_eq_some_iff, lookup_iff (groupOut_nodup op d _ _ _)]
    constructor
    · rintro ⟨i, a, h1, h2, h3⟩
      have hk := List.mem_map_of_mem (f := Prod.fst) h3
      rw [groupOut_keys] at hk
      refine ⟨i, ?_, a, h2, h3⟩
      split at hk
      · rw [if_pos (by assumption)]
        simp only [List.mem_singleton] at hk
        rw [hk]
      · rw [if_neg (by assumption)]
        obtain ⟨z, hz, he⟩ := List.mem_map.1 hk
        have := (mem_kids.1 hz).2.1
        rw [he] at this
        exact this
    · rintro ⟨i, h1, a, h2, h3⟩
      refine ⟨i, a, ?_, h2, h3⟩
      unfold GroupOp.outSize at hc
      split at h1
      · rw [if_pos (by assumption)] at hc
        injection h1 with h1
        omega
      · rw [if_neg (by assumption)] at hc
        exact hd c i hc h1
  rw [key]
  simp only [Option.bind_assoc]

theorem anyErr_iff (op : GroupOp V P A R E S β) (d : Rows V) : op.anyErr d.kids d.parents = true ↔ op.anyFails d := by
  unfold GroupOp.anyErr GroupOp.anyFails
  rw [List.any_eq_true]
  constructor
  · rintro ⟨x, hx, h⟩
    obtain ⟨h1, h2⟩ := mem_parents.1 hx
    exact ⟨x.1, x.2, h1, h2, h⟩
  · rintro ⟨i, a, h1, h2, h3⟩
    exact ⟨(i, a), mem_parents.2 ⟨h1, h2⟩, h3⟩

/-- The elements computed from any list with the entries of `canon`. -/
theorem expected_of {op : GroupOp V P A R E S β} {d : Rows V} (hd : d.Ok) {l : List (Nat × R)}
    (hn : (l.map Prod.fst).Nodup) (hl : ∀ y, y ∈ l ↔ y ∈ op.canon d) :
    ((List.range (op.outSize d)).map fun c => (l.lookup c).bind op.opt) =
      (List.range (op.outSize d)).map (op.expected d) := by
  apply List.map_congr_left
  intro c hc
  rw [← canon_lookup op hd (List.mem_range.1 hc), lookup_congr hn (canon_nodup op d) hl]

theorem checked_correct {op : GroupOp V P A R E S β} {d : Rows V} {s : S} {α : Type} {r : Option α}
    {good : α → List (Option β) → Prop} (he : err op.acc s = op.anyErr d.kids d.parents)
    (hr : ∃ x, r = some x ∧ good x ((List.range (op.outSize d)).map (op.expected d))) :
    op.Correct d good (op.checked s r) := by
  unfold GroupOp.Correct
  rw [← anyErr_iff, ← he]
  unfold err GroupOp.checked
  cases hs : op.acc.status s with
  | some e => exact ⟨fun _ => ⟨e, rfl⟩, fun hh => absurd rfl hh⟩
  | none =>
    refine ⟨fun hh => (by cases hh), fun _ => ?_⟩
    obtain ⟨x, h1, h2⟩ := hr
    exact ⟨x, by simp [h1], h2⟩

/-- The results of a shared accumulator in a dense array. -/
theorem shared_dense {op : GroupOp V P A R E S β} {rel : S → S → Prop} (h : Lawful op rel) {d : Rows V}
    (hd : d.Ok) {st : GState S R} (hst : Shared op d.kids d.parents ⟨op.empty, [], []⟩ st) (mem : Nat → β) :
    op.Correct d goodDense (op.checked st.acc (op.buildDense mem (op.outSize d) st.sets)) := by
  have hsets : st.sets = op.canon d := hst.2.1
  refine checked_correct (by rw [hst.2.2]; dsimp only; rw [h.fresh, Bool.false_or]) ?_
  rw [hsets]
  obtain ⟨x, h1, h2⟩ := buildDense_spec op mem (canon_nodup op d) (canon_bound op d)
  exact ⟨x, h1, by rw [expected_of hd (canon_nodup op d) (fun _ => Iff.rfl)] at h2; exact h2⟩

theorem ofDense_good {x : DArr β} {l : List (Option β)} (h : goodDense x l) : goodArr (.ofDense x) l := by
  obtain ⟨h1, h2⟩ := h
  refine ⟨⟨h1, ⟨rfl, rfl⟩, ⟨rfl, rfl⟩⟩, ?_⟩
  rw [← h2]
  rfl

theorem checked_map {op : GroupOp V P A R E S β} {d : Rows V} {α γ : Type} {good : α → List (Option β) → Prop}
    {good' : γ → List (Option β) → Prop} (f : α → γ) (hf : ∀ x l, good x l → good' (f x) l) {s : S} {r : Option α}
    (h : op.Correct d good (op.checked s r)) : op.Correct d good' (op.checked s (r.map f)) := by
  unfold GroupOp.checked at h ⊢
  cases hs : op.acc.status s with
  | some e =>
    rw [hs] at h
    refine ⟨fun _ => ⟨e, rfl⟩, fun hh => ?_⟩
    obtain ⟨x, hx, _⟩ := h.2 hh
    cases hx
  | none =>
    rw [hs] at h
    refine ⟨fun hh => ?_, fun hh => ?_⟩
    · obtain ⟨e, he⟩ := h.1 hh
      cases r <;> cases he
    · obtain ⟨x, h1, h2⟩ := h.2 hh
      cases r with
      | none => cases h1
      | some y =>
        have hxy : y = x := by
          have h1 : some (Except.ok y) = some (Except.ok (ε := GErr E) x) := h1
          injection h1 with h1; injection h1
        exact ⟨f x, by rw [hxy]; rfl, hf _ _ h2⟩

end Verif.Group
