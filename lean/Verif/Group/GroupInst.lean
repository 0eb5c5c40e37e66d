import Verif.Group.GroupProps
import Verif.Agg.AccRankProps
import Verif.Agg.AccDenseProps

/-!
# The accumulators for which the group operations are correct

All modelled accumulators except `GroupByAccumulator`, whose results depend on the other groups by design.
-/

namespace Verif.Group
open Verif.Bits Verif.Bitmap Verif.Dense Verif.Arr Verif.Agg

variable {V P A R E S β : Type} {rel : S → S → Prop}

/-- Only `FinalizeFullGroup` sets the status. -/
theorem lawful_mk {op : GroupOp V P A R E S β} (refl : ∀ s, rel s s)
    (reset : ∀ p s s', rel (op.acc.reset p s) (op.acc.reset p s'))
    (add : ∀ a s s', rel s s' → rel (op.acc.add a s) (op.acc.add a s'))
    (addN : ∀ n a s, op.acc.addN (n + 1) a s = repeatAdd op.acc.add (n + 1) a s)
    (get : op.kind ≠ .full → ∀ s s', rel s s' → (op.acc.get s).1 = (op.acc.get s').1 ∧ rel (op.acc.get s).2 (op.acc.get s').2)
    (full : op.kind = .full → ∀ s s' n, rel s s' →
      op.acc.fullResults n (op.acc.finalize s) = op.acc.fullResults n (op.acc.finalize s'))
    (fresh : err op.acc op.empty = false) (reset_st : ∀ p s, err op.acc (op.acc.reset p s) = err op.acc s)
    (add_st : ∀ a s, err op.acc (op.acc.add a s) = err op.acc s) (get_st : ∀ s, err op.acc (op.acc.get s).2 = err op.acc s)
    (fin_st : op.kind = .full → ∀ s s', rel s s' → err op.acc s = err op.acc s' →
      err op.acc (op.acc.finalize s) = err op.acc (op.acc.finalize s'))
    (fin_keep : ∀ s, err op.acc s = true → err op.acc (op.acc.finalize s) = true) : Lawful op rel := by
  have hrep : ∀ n a s s', rel s s' → rel (repeatAdd op.acc.add n a s) (repeatAdd op.acc.add n a s') := by
    intro n a
    induction n with
    | zero => intro s s' h; exact h
    | succ n ih => intro s s' h; exact ih _ _ (add a s s' h)
  have hrepe : ∀ n a s, err op.acc (repeatAdd op.acc.add n a s) = err op.acc s := by
    intro n a
    induction n with
    | zero => intro s; rfl
    | succ n ih => intro s; rw [repeatAdd, ih, add_st]
  have hend : ∀ n s, err op.acc (fullEnd op.acc n s) = err op.acc s := by
    intro n
    induction n with
    | zero => intro s; rfl
    | succ n ih => intro s; rw [fullEnd, ih, get_st]
  exact {
    refl := refl
    reset := reset
    add := add
    addN := by
      intro n a s s' hn h
      obtain ⟨n, rfl⟩ : ∃ k, n = k + 1 := ⟨n - 1, by omega⟩
      rw [addN]
      exact hrep _ _ _ _ h
    get := get
    full := full
    fresh := fresh
    reset_err := reset_st
    add_err := fun a s s' _ h => by rw [add_st, add_st, h]
    addN_err := by
      intro n a s s' hn _ h
      obtain ⟨n, rfl⟩ : ∃ k, n = k + 1 := ⟨n - 1, by omega⟩
      rw [addN, hrepe, hrepe, h]
    get_err := fun _ s s' _ h => by rw [get_st, get_st, h]
    full_err := fun hk s s' n hr h => by rw [hend, hend]; exact fin_st hk s s' hr h
    add_keep := fun a s h => by rw [add_st]; exact h
    finalize_keep := fin_keep
    get_keep := fun s h => by rw [get_st]; exact h }

/-- An accumulator without errors. -/
theorem lawful_status_free {op : GroupOp V P A R E S β} (hs : ∀ s, op.acc.status s = none) (refl : ∀ s, rel s s)
    (reset : ∀ p s s', rel (op.acc.reset p s) (op.acc.reset p s'))
    (add : ∀ a s s', rel s s' → rel (op.acc.add a s) (op.acc.add a s'))
    (addN : ∀ n a s, op.acc.addN (n + 1) a s = repeatAdd op.acc.add (n + 1) a s)
    (get : op.kind ≠ .full → ∀ s s', rel s s' → (op.acc.get s).1 = (op.acc.get s').1 ∧ rel (op.acc.get s).2 (op.acc.get s').2)
    (full : op.kind = .full → ∀ s s' n, rel s s' →
      op.acc.fullResults n (op.acc.finalize s) = op.acc.fullResults n (op.acc.finalize s')) : Lawful op rel := by
  have he : ∀ s, err op.acc s = false := fun s => by simp [err, hs]
  exact lawful_mk refl reset add addN get full (he _) (fun _ _ => by rw [he, he]) (fun _ _ => by rw [he, he])
    (fun _ => by rw [he, he]) (fun _ _ _ _ _ => by rw [he, he]) (fun s h => by rw [he] at h; cases h)

/-- `Reset` forgets everything. -/
theorem lawful_eq {op : GroupOp V P A R E S β} (hs : ∀ s, op.acc.status s = none)
    (reset : ∀ p s s', op.acc.reset p s = op.acc.reset p s')
    (addN : ∀ n a s, op.acc.addN (n + 1) a s = repeatAdd op.acc.add (n + 1) a s) : Lawful op Eq :=
  lawful_status_free hs (fun _ => rfl) reset (fun _ _ _ h => by rw [h]) addN (fun _ _ _ h => by rw [h]; exact ⟨rfl, rfl⟩)
    (fun _ _ _ _ h => by rw [h])

theorem count_lawful (op : GroupOp V Unit Unit Int Empty Int β) (h : op.acc = count) : Lawful op Eq :=
  lawful_eq (by intro; rw [h]; rfl) (by intros; rw [h]; rfl) (by intros; rw [h]; exact count_addN _ _ _)

theorem any_lawful (op : GroupOp V Unit Unit Bool Empty Bool β) (h : op.acc = any) : Lawful op Eq :=
  lawful_eq (by intro; rw [h]; rfl) (by intros; rw [h]; rfl) (by intros; rw [h]; exact any_addN _ _ _)

theorem all_lawful (op : GroupOp V Unit Bool Bool Empty Bool β) (h : op.acc = all) : Lawful op Eq :=
  lawful_eq (by intro; rw [h]; rfl) (by intros; rw [h]; rfl) (by intros; rw [h]; exact all_addN _ _ _)

theorem logicalAll_lawful (op : GroupOp V Unit (Option Bool) (Option Bool) Empty LogicalState β) (h : op.acc = logicalAll) :
    Lawful op Eq :=
  lawful_eq (by intro; rw [h]; rfl) (by intros; rw [h]; rfl) (by intros; rw [h]; exact logicalAll_addN _ _ _)

theorem logicalAny_lawful (op : GroupOp V Unit (Option Bool) (Option Bool) Empty LogicalState β) (h : op.acc = logicalAny) :
    Lawful op Eq :=
  lawful_eq (by intro; rw [h]; rfl) (by intros; rw [h]; rfl) (by intros; rw [h]; exact logicalAny_addN _ _ _)

theorem sum_lawful {w : Nat} {initial : Option (BitVec w)}
    (op : GroupOp V Unit (BitVec w) (Option (BitVec w)) Empty (Opt (BitVec w)) β) (h : op.acc = sum w initial) : Lawful op Eq :=
  lawful_eq (by intro; rw [h]; rfl) (by intros; rw [h]; rfl) (by intros; rw [h]; exact sum_addN _ _ _ _ _)

theorem min_lawful {c : Cmp T} (hc : c.Ok) {initial : Opt T} (op : GroupOp V Unit T (Option T) Empty (Opt T) β)
    (h : op.acc = functor (minOp c) true initial) : Lawful op Eq :=
  lawful_eq (by intro; rw [h]; rfl) (by intros; rw [h]; rfl) (by intros; rw [h]; exact min_addN _ hc _ _ _ _)

theorem max_lawful {c : Cmp T} (hc : c.Ok) {initial : Opt T} (op : GroupOp V Unit T (Option T) Empty (Opt T) β)
    (h : op.acc = functor (maxOp c) true initial) : Lawful op Eq :=
  lawful_eq (by intro; rw [h]; rfl) (by intros; rw [h]; rfl) (by intros; rw [h]; exact max_addN _ hc _ _ _ _)

/-- Other functors, e.g. the product or the cumulative sum. -/
theorem functor_lawful {f : T → T → T} {initial : Opt T} (op : GroupOp V Unit T (Option T) Empty (Opt T) β)
    (h : op.acc = functor f false initial) : Lawful op Eq :=
  lawful_eq (by intro; rw [h]; rfl) (by intros; rw [h]; rfl)
    (by intros; rw [h]; exact functor_addN _ _ _ (fun h => by cases h) _ _ _)

theorem stringJoin_lawful {sep : List UInt8} (op : GroupOp V Unit (List UInt8) (Option (List UInt8)) Empty JoinState β)
    (h : op.acc = stringJoin sep) : Lawful op Eq :=
  lawful_eq (by intro; rw [h]; rfl) (by intros; rw [h]; rfl) (by intros; rw [h]; rfl)

theorem median_lawful {c : Cmp T} {nth} (op : GroupOp V Unit T (Option (Option T)) Empty (List T) β)
    (h : op.acc = median c nth) : Lawful op Eq :=
  lawful_eq (by intro; rw [h]; rfl) (by intros; rw [h]; rfl) (by intros; rw [h]; rfl)

theorem inverseCdf_lawful {c : Cmp T} {rank nth} (op : GroupOp V Unit T (Option (Option T)) Empty (List T) β)
    (h : op.acc = inverseCdf c rank nth) : Lawful op Eq :=
  lawful_eq (by intro; rw [h]; rfl) (by intros; rw [h]; rfl) (by intros; rw [h]; rfl)

/-- The value and the flags are not used before the first `Add`. -/
def collapseRel (s s' : CollapseState T) : Prop := s = s' ∨ (s.present = false ∧ s'.present = false)

theorem collapse_lawful {c : Cmp T} (hc : c.Ok) (op : GroupOp V Unit T (Option T) Empty (CollapseState T) β)
    (h : op.acc = collapse c) (hk : op.kind ≠ .full) : Lawful op collapseRel := by
  refine lawful_status_free (by intro; rw [h]; rfl) (fun _ => Or.inl rfl) (by intros; rw [h]; exact Or.inr ⟨rfl, rfl⟩) ?_
    (by intros; rw [h]; exact collapse_addN _ hc _ _ _) ?_ (fun hh => absurd hh hk)
  · intro a s s' hr
    rw [h]
    refine Or.inl ?_
    rcases hr with rfl | ⟨h1, h2⟩
    · rfl
    · simp [collapse, collapseAdd, h1, h2]
  · intro _ s s' hr
    rw [h]
    refine ⟨?_, hr⟩
    rcases hr with rfl | ⟨h1, h2⟩
    · rfl
    · simp [collapse, h1, h2]

/-- The best value is not used before it is set. -/
def argRel (s s' : ArgState T) : Prop := s = s' ∨ (s.arg = none ∧ s'.arg = none ∧ s.index = s'.index)

theorem arg_lawful {c : Cmp T} (op : GroupOp V Unit (Option T) (Option Int) Empty (ArgState T) β)
    (h : op.acc = argMin c) (haddN : ∀ n a s, (argMin c).addN (n + 1) a s = repeatAdd (argMin c).add (n + 1) a s)
    (hk : op.kind ≠ .full) : Lawful op argRel := by
  refine lawful_status_free (by intro; rw [h]; rfl) (fun _ => Or.inl rfl) (by intros; rw [h]; exact Or.inr ⟨rfl, rfl, rfl⟩) ?_
    (by intros; rw [h]; exact haddN _ _ _) ?_ (fun hh => absurd hh hk)
  · intro a s s' hr
    rw [h]
    rcases hr with rfl | ⟨h1, h2, h3⟩
    · exact Or.inl rfl
    · cases a with
      | none => exact Or.inr ⟨by simp [argMin, argAdd, h1], by simp [argMin, argAdd, h2], by simp [argMin, argAdd, h3]⟩
      | some v => exact Or.inl (by simp [argMin, argAdd, h1, h2, h3])
  · intro _ s s' hr
    rw [h]
    refine ⟨?_, hr⟩
    rcases hr with rfl | ⟨h1, h2, _⟩
    · rfl
    · simp [argMin, h1, h2]

theorem argMin_lawful {c : Cmp T} (hc : c.Ok) (op : GroupOp V Unit (Option T) (Option Int) Empty (ArgState T) β)
    (h : op.acc = argMin c) (hk : op.kind ≠ .full) : Lawful op argRel :=
  arg_lawful op h (argMin_addN c hc) hk

theorem argMax_lawful {c : Cmp T} (hc : c.Ok) (op : GroupOp V Unit (Option T) (Option Int) Empty (ArgState T) β)
    (h : op.acc = argMax c) (hk : op.kind ≠ .full) : Lawful op argRel :=
  arg_lawful op h (argMax_addN c hc) hk

/-! ## Full accumulators -/

theorem inverseLoop_error (size i : Nat) (l : List (Option Int)) (inv : List (Option Nat)) (e e' : Option String) :
    (inverseLoop size i l inv e).1 = (inverseLoop size i l inv e').1 ∧
      (e.isSome = e'.isSome → (inverseLoop size i l inv e).2.isSome = (inverseLoop size i l inv e').2.isSome) ∧
      (e.isSome = true → (inverseLoop size i l inv e).2.isSome = true) := by
  induction l generalizing i inv with
  | nil => exact ⟨rfl, id, id⟩
  | cons a rest ih =>
    cases a with
    | none => exact ih (i + 1) inv
    | some v =>
      simp only [inverseLoop]
      split
      · exact ⟨rfl, fun _ => rfl, fun _ => rfl⟩
      · split
        · exact ⟨rfl, fun _ => rfl, fun _ => rfl⟩
        · exact ih (i + 1) _

theorem inverse_results (n : Nat) (s s' : InverseState) (h1 : s.inv = s'.inv) (h2 : s.returnId = s'.returnId) :
    inverseMapping.fullResults n s = inverseMapping.fullResults n s' := by
  induction n generalizing s s' with
  | zero => rfl
  | succ n ih =>
    simp only [Acc.fullResults, inverseMapping]
    rw [h1, h2]
    congr 1
    exact ih _ _ rfl rfl

theorem inverseMapping_lawful (op : GroupOp V Unit (Option Int) (Option (Option Nat)) String InverseState β)
    (h : op.acc = inverseMapping) (hk : op.kind = .full) (he : op.empty.error = none) :
    Lawful op fun s s' => s.perm = s'.perm := by
  refine lawful_mk (fun _ => rfl) (by intros; rw [h]; rfl) ?_ (by intros; rw [h]; rfl) (fun hh => absurd hk hh) ?_
    (by rw [h]; simp [err, inverseMapping, he]) (by intros; rw [h]; rfl) (by intros; rw [h]; rfl) (by intros; rw [h]; rfl) ?_ ?_
  · intro a s s' hr
    rw [h]
    show s.perm ++ [a] = s'.perm ++ [a]
    rw [hr]
  · intro _ s s' n hr
    rw [h]
    refine inverse_results _ _ _ ?_ rfl
    show (inverseLoop s.perm.length 0 s.perm _ s.error).1 = (inverseLoop s'.perm.length 0 s'.perm _ s'.error).1
    rw [hr]
    exact (inverseLoop_error _ _ _ _ _ _).1
  · intro _ s s' hr hs
    rw [h] at hs ⊢
    show (inverseLoop s.perm.length 0 s.perm _ s.error).2.isSome = (inverseLoop s'.perm.length 0 s'.perm _ s'.error).2.isSome
    rw [hr]
    exact (inverseLoop_error _ _ _ _ _ _).2.1 hs
  · intro s hs
    rw [h] at hs ⊢
    exact (inverseLoop_error _ _ _ _ s.error s.error).2.2 hs

theorem takeLoop_error (size k : Nat) (l : List (Opt Int)) (e e' : Option String) :
    (takeLoop size k l e).1 = (takeLoop size k l e').1 ∧
      (e.isSome = e'.isSome → (takeLoop size k l e).2.isSome = (takeLoop size k l e').2.isSome) ∧
      (e.isSome = true → (takeLoop size k l e).2.isSome = true) := by
  induction l generalizing e e' with
  | nil => exact ⟨rfl, id, id⟩
  | cons a rest ih =>
    have hstep : (takeOffset size k a e).1 = (takeOffset size k a e').1 ∧
        (e.isSome = e'.isSome → (takeOffset size k a e).2.isSome = (takeOffset size k a e').2.isSome) ∧
        (e.isSome = true → (takeOffset size k a e).2.isSome = true) := by
      simp only [takeOffset]
      refine ⟨trivial, ?_, ?_⟩
      · intro hh; split <;> simp [hh]
      · intro hh; split <;> simp [hh]
    obtain ⟨i1, i2, i3⟩ := ih (takeOffset size k a e).2 (takeOffset size k a e').2
    simp only [takeLoop]
    exact ⟨by rw [hstep.1, i1], fun hh => i2 (hstep.2.1 hh), fun hh => i3 (hstep.2.2 hh)⟩

theorem take_results (n : Nat) (s s' : TakeState T) (h1 : s.offsets = s'.offsets) (h2 : s.returnId = s'.returnId)
    (h3 : s.values = s'.values) : (takeOver T).fullResults n s = (takeOver T).fullResults n s' := by
  induction n generalizing s s' with
  | zero => rfl
  | succ n ih =>
    simp only [Acc.fullResults, takeOver]
    rw [h1, h2, h3]
    congr 1
    exact ih _ _ rfl rfl rfl

theorem takeOver_lawful (op : GroupOp V Unit (Option T × Opt Int) (Option (Option T)) String (TakeState T) β)
    (h : op.acc = takeOver T) (hk : op.kind = .full) (he : op.empty.error = none) :
    Lawful op fun s s' => s.values = s'.values ∧ s.offsets = s'.offsets ∧ s.returnId = s'.returnId := by
  refine lawful_mk (fun _ => ⟨rfl, rfl, rfl⟩) (by intros; rw [h]; exact ⟨rfl, rfl, rfl⟩) ?_ (by intros; rw [h]; rfl)
    (fun hh => absurd hk hh) ?_ (by rw [h]; simp [err, takeOver, he]) (by intros; rw [h]; rfl) (by intros; rw [h]; rfl)
    (by intros; rw [h]; rfl) ?_ ?_
  · intro a s s' hr
    rw [h]
    exact ⟨by show s.values ++ _ = s'.values ++ _; rw [hr.1], by show s.offsets ++ _ = s'.offsets ++ _; rw [hr.2.1], hr.2.2⟩
  · intro _ s s' n hr
    rw [h]
    refine take_results _ _ _ ?_ hr.2.2 ?_
    · show (takeLoop s.offsets.length s.values.length s.offsets s.error).1 =
        (takeLoop s'.offsets.length s'.values.length s'.offsets s'.error).1
      rw [hr.1, hr.2.1]
      exact (takeLoop_error _ _ _ _ _).1
    · show s.values ++ [none] = s'.values ++ [none]
      rw [hr.1]
  · intro _ s s' hr hs
    rw [h] at hs ⊢
    show (takeLoop s.offsets.length s.values.length s.offsets s.error).2.isSome =
      (takeLoop s'.offsets.length s'.values.length s'.offsets s'.error).2.isSome
    rw [hr.1, hr.2.1]
    exact (takeLoop_error _ _ _ _ _).2.1 hs
  · intro s hs
    rw [h] at hs ⊢
    exact (takeLoop_error _ _ _ s.error s.error).2.2 hs

/-- The old ranks are not used. -/
def ordinalRel (s s' : RankState (Elem T)) : Prop :=
  s = s' ∨ (s.elems = s'.elems ∧ s.returnId = s'.returnId ∧ s.elems.map Elem.pos = List.range s.elems.length)

theorem storeRanks_fresh {l r r' : List Nat} {n : Nat} (hl : l.Perm (List.range n)) (hr : r.length = n) (hr' : r'.length = n) :
    storeRanks 0 l r = storeRanks 0 l r' := by
  have hn : l.Nodup := hl.nodup_iff.2 List.nodup_range
  have hb : ∀ p ∈ l, p < n := fun p hp => List.mem_range.1 (hl.mem_iff.1 hp)
  apply List.ext_getElem?
  intro p
  by_cases hp : p < n
  · obtain ⟨j, hj⟩ := List.mem_iff_getElem?.1 (hl.mem_iff.2 (List.mem_range.2 hp))
    rw [storeRanks_get 0 l r hn (by rw [hr]; exact hb) j p hj, storeRanks_get 0 l r' hn (by rw [hr']; exact hb) j p hj]
  · rw [List.getElem?_eq_none (by rw [storeRanks_length]; omega), List.getElem?_eq_none (by rw [storeRanks_length]; omega)]

theorem ordinalRank_lawful {c : Cmp T} {d : Bool} {sort : List (Elem T) → List (Elem T)}
    (hsort : SortOk (Elem.less c d) (fun e => c.nan e.value) sort)
    (op : GroupOp V Unit (T × Int) (Option Nat) Empty (RankState (Elem T)) β) (h : op.acc = ordinalRank c d sort)
    (hk : op.kind = .full) : Lawful op ordinalRel := by
  refine lawful_status_free (by intro; rw [h]; rfl) (fun _ => Or.inl rfl) (by intros; rw [h]; exact Or.inr ⟨rfl, rfl, rfl⟩) ?_
    (by intros; rw [h]; rfl) (fun hh => absurd hk hh) ?_
  · intro a s s' hr
    rw [h]
    rcases hr with rfl | ⟨h1, h2, h3⟩
    · exact Or.inl rfl
    · refine Or.inr ⟨?_, h2, ?_⟩
      · show s.elems ++ [_] = s'.elems ++ [_]
        rw [h1]
      · show (s.elems ++ [_]).map Elem.pos = List.range (s.elems ++ [_]).length
        rw [List.map_append, h3, List.length_append, List.length_singleton, List.range_succ]
        rfl
  · intro _ s s' n hr
    rw [h]
    rcases hr with rfl | ⟨h1, h2, h3⟩
    · rfl
    · rw [rank_results _ (fun _ => rfl), rank_results _ (fun _ => rfl)]
      have key : ((ordinalRank c d sort).finalize s).ranks = ((ordinalRank c d sort).finalize s').ranks := by
        show storeRanks 0 ((sort (s.elems.filter fun e => !c.nan e.value) ++ s.elems.filter fun e => c.nan e.value).map Elem.pos)
            (resize s.elems.length s.ranks) =
          storeRanks 0 ((sort (s'.elems.filter fun e => !c.nan e.value) ++ s'.elems.filter fun e => c.nan e.value).map Elem.pos)
            (resize s'.elems.length s'.ranks)
        rw [← h1]
        refine storeRanks_fresh (n := s.elems.length) ?_ (resize_length _ _) (resize_length _ _)
        rw [← h3]
        refine List.Perm.map _ ?_
        refine List.Perm.trans ?_ (filter_split_perm (fun e => c.nan e.value) s.elems)
        exact List.Perm.append_right _ (hsort _ (fun x hx => by simpa using (List.mem_filter.1 hx).2)).1
      rw [key]
      have : ((ordinalRank c d sort).finalize s).returnId = ((ordinalRank c d sort).finalize s').returnId := h2
      rw [this]

def denseRel (s s' : RankState (T × Nat)) : Prop :=
  s = s' ∨ (s.elems = s'.elems ∧ s.returnId = s'.returnId ∧ s.elems.map Prod.snd = List.range s.elems.length)

theorem storeAt_fresh {l : List (Nat × Nat)} {r r' : List Nat} {n : Nat} (hl : (l.map Prod.fst).Perm (List.range n))
    (hr : r.length = n) (hr' : r'.length = n) : storeAt l r = storeAt l r' := by
  have hn : (l.map Prod.fst).Nodup := hl.nodup_iff.2 List.nodup_range
  have hb : ∀ e ∈ l, e.1 < n := fun e he => List.mem_range.1 (hl.mem_iff.1 (List.mem_map_of_mem he))
  apply List.ext_getElem?
  intro p
  by_cases hp : p < n
  · obtain ⟨⟨q, x⟩, hj, rfl⟩ := List.mem_map.1 (hl.mem_iff.2 (List.mem_range.2 hp))
    rw [storeAt_get l r hn (by rw [hr]; exact hb) q x hj, storeAt_get l r' hn (by rw [hr']; exact hb) q x hj]
  · rw [List.getElem?_eq_none (by rw [storeAt_length]; omega), List.getElem?_eq_none (by rw [storeAt_length]; omega)]

theorem denseRank_lawful {c : Cmp T} {part : List (T × Nat) → List (T × Nat) × List (T × Nat)} (hpart : PartitionOk c part)
    (op : GroupOp V Unit T (Option Nat) Empty (RankState (T × Nat)) β) (h : op.acc = denseRank c part)
    (hk : op.kind = .full) : Lawful op denseRel := by
  refine lawful_status_free ?_ (fun _ => Or.inl rfl) (by intros; rw [h]; exact Or.inr ⟨rfl, rfl, rfl⟩) ?_
    (by intros; rw [h]; rfl) (fun hh => absurd hk hh) ?_
  · intro s; rw [h]; rfl
  · intro a s s' hr
    rw [h]
    rcases hr with rfl | ⟨h1, h2, h3⟩
    · exact Or.inl rfl
    · refine Or.inr ⟨?_, h2, ?_⟩
      · show s.elems ++ [_] = s'.elems ++ [_]
        rw [h1]
      · show (s.elems ++ [_]).map Prod.snd = List.range (s.elems ++ [_]).length
        rw [List.map_append, h3, List.length_append, List.length_singleton, List.range_succ]
        rfl
  · intro _ s s' n hr
    rw [h]
    rcases hr with rfl | ⟨h1, h2, h3⟩
    · rfl
    · rw [rank_results _ (fun _ => rfl), rank_results _ (fun _ => rfl)]
      have hperm : (((part s.elems).1 ++ (part s.elems).2).map Prod.snd).Perm (List.range s.elems.length) := by
        rw [← h3]
        exact (hpart s.elems).1.map _
      have key : ((denseRank c part).finalize s).ranks = ((denseRank c part).finalize s').ranks ∧
          ((denseRank c part).finalize s).returnId = ((denseRank c part).finalize s').returnId := by
        simp only [denseRank, ← h1]
        cases hl : (part s.elems).1 ++ (part s.elems).2 with
        | nil =>
          have h0 : s.elems.length = 0 := by
            have := hperm.length_eq
            rw [hl] at this
            simpa using this.symm
          dsimp only
          rw [h0]
          exact ⟨rfl, h2⟩
        | cons x rest =>
          obtain ⟨v, pos⟩ := x
          dsimp only
          refine ⟨?_, h2⟩
          rw [denseLoop_eq, denseLoop_eq]
          rw [hl] at hperm
          exact storeAt_fresh (l := (pos, 0) :: _) (by
            rw [List.map_cons, List.map_fst_zip (by rw [denseVals_length, List.length_map, List.length_map])]
            exact hperm) (resize_length _ _) (resize_length _ _)
      rw [key.1, key.2]

end Verif.Group
