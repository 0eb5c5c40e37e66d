import Verif.Group.LoopLemmas
import Verif.Util.SearchLemmas
import Mathlib.Tactic.ByContra

/-!
# Lemmas: very sparse data with split points
-/

namespace Verif.Group
open Verif.Dense Verif.Arr Verif.Agg

variable {V P A R E S β : Type} {rel : S → S → Prop}

/-- The split points in the list. -/
structure Points (op : GroupOp V P A R E S β) (d : Rows V) (pts : Nat → Nat) (splits : List V) : Prop where
  length : splits.length = d.np + 1
  get : ∀ i, i ≤ d.np → ∃ v, splits[i]? = some v ∧ op.idOf v = pts i

theorem Points.reads {op : GroupOp V P A R E S β} {d : Rows V} {pts : Nat → Nat} {splits : List V}
    (h : Points op d pts splits) : Reads op d pts splits := by
  intro i hi
  obtain ⟨v, h1, h2⟩ := h.get i hi
  unfold GroupOp.split Arr.toIdx
  rw [h1, Option.bind_some, h2, if_neg (by omega)]
  simp

/-- The groups before `k` with valid rows. -/
def Rows.busy (d : Rows V) (k : Nat) : List Nat := (List.range k).filter fun i => !(d.kids i).isEmpty

theorem busy_succ (d : Rows V) (k : Nat) :
    d.busy (k + 1) = d.busy k ++ if (d.kids k).isEmpty then [] else [k] := by
  unfold Rows.busy
  rw [List.range_succ, List.filter_append]
  cases h : (d.kids k).isEmpty <;> simp [h]

theorem busy_inc (d : Rows V) (k : Nat) : (d.busy k).Pairwise (· < ·) := List.pairwise_lt_range.filter _

theorem busy_lt {d : Rows V} {k i : Nat} (h : i ∈ d.busy k) : i < k := List.mem_range.1 (List.mem_filter.1 h).1

theorem busy_mem {d : Rows V} {k i : Nat} : i ∈ d.busy k ↔ i < k ∧ d.kids i ≠ [] := by
  unfold Rows.busy
  rw [List.mem_filter, List.mem_range]
  simp

/-- The result of an aggregator without parent arguments. -/
def GroupOp.agg0 (op : GroupOp V P A R E S β) (d : Rows V) (i : Nat) : R :=
  op.acc.aggregate (op.parg []) ((d.kids i).map op.child) op.empty

/-- Results of the groups. -/
def GroupOp.aggs (op : GroupOp V P A R E S β) (d : Rows V) (l : List Nat) : List (Nat × R) :=
  l.map fun i => (i, op.agg0 d i)

/-- One of the groups has an error. -/
def GroupOp.bad (op : GroupOp V P A R E S β) (d : Rows V) (l : List Nat) : Bool :=
  l.any fun i => op.fails (op.parg []) (d.kids i)

/-- All groups of `l` are finished, and the accumulator is reset. -/
def Done (op : GroupOp V P A R E S β) (rel : S → S → Prop) (d : Rows V) (l : List Nat) (st : VState S R E) : Prop :=
  st.status.isSome = op.bad d l ∧
  (st.status = none → st.out = op.aggs d l ∧ Sim op rel st.acc (op.acc.reset (op.parg []) op.empty))

/-- The state after the groups before `k`. -/
def VInv (op : GroupOp V P A R E S β) (rel : S → S → Prop) (d : Rows V) (k : Nat) (st : VState S R E) : Prop :=
  (d.busy k = [] ∧ st.next = 0 ∧ Done op rel d [] st) ∨
  ∃ l g, d.busy k = l ++ [g] ∧ st.next = g + 1 ∧ st.status.isSome = op.bad d l ∧
    (st.status = none → st.out = op.aggs d l ∧
      Sim op rel st.acc (op.acc.after (op.parg []) ((d.kids g).map op.child) op.empty))

theorem addPrevious_ok {op : GroupOp V P A R E S β} (h : Lawful op rel) (hk : op.kind = .aggregator)
    {d : Rows V} {k cap : Nat} (hcap : (d.busy k).length ≤ cap) {st : VState S R E} (hi : VInv op rel d k st) :
    ∃ st', op.addPrevious cap st = some st' ∧ st'.next = st.next ∧ Done op rel d (d.busy k) st' := by
  unfold GroupOp.addPrevious
  rcases hi with ⟨h1, h2, h3⟩ | ⟨l, g, h1, h2, h3, h4⟩
  · rw [if_neg (by omega)]
    exact ⟨st, rfl, rfl, by rw [h1]; exact h3⟩
  · have hbad : op.bad d (l ++ [g]) = (op.bad d l || op.fails (op.parg []) (d.kids g)) := by
      simp [GroupOp.bad]
    cases hs : st.status with
    | some e =>
      rw [if_neg (by simp)]
      refine ⟨st, rfl, rfl, ?_, fun hn => absurd hn (by simp [hs])⟩
      rw [h1, hbad, ← h3, hs]
      rfl
    | none =>
      obtain ⟨h5, h6⟩ := h4 hs
      have hlen := congrArg List.length h1
      rw [List.length_append, List.length_singleton] at hlen
      rw [if_pos ⟨by omega, rfl⟩, if_pos (by rw [h5, GroupOp.aggs, List.length_map]; omega)]
      refine ⟨_, rfl, rfl, ?_, ?_⟩
      · rw [h1, hbad, ← h3, hs]
        show err op.acc _ = _
        rw [h.get_err (by simp [hk]) _ _ h6.1 h6.2]
        simp [GroupOp.fails, GroupOp.groupState, hk]
      · intro hn
        refine ⟨?_, ?_, ?_⟩
        · dsimp only
          rw [h5, h1, h2, (h.get (by simp [hk]) _ _ h6.1).1]
          simp [GroupOp.aggs, GroupOp.agg0, Acc.aggregate]
        · exact h.reset _ _ _
        · dsimp only at hn ⊢
          rw [h.reset_err, h.reset_err, h.fresh]
          unfold err
          rw [hn]
          rfl

theorem verySplitRows_append (op : GroupOp V P A R E S β) (cap : Nat) (splits : List V) :
    ∀ (a b : List (Nat × List (Option V))) (st : VState S R E),
    op.verySplitRows cap splits (a ++ b) st = (op.verySplitRows cap splits a st).bind (op.verySplitRows cap splits b)
  | [], b, st => rfl
  | (c, args) :: a, b, st => by
    rw [List.cons_append, GroupOp.verySplitRows, GroupOp.verySplitRows]
    simp only [Option.bind_eq_bind]
    cases h : op.cross cap splits c st with
    | none => rfl
    | some st' => simp only [Option.bind_some]; rw [verySplitRows_append op cap splits a b]

/-- The remaining rows of a group. -/
theorem rest_rows {op : GroupOp V P A R E S β} {d : Rows V} {pts : Nat → Nat} {splits : List V}
    (hp : Points op d pts splits) (cap : Nat) {g : Nat} (hg : g < d.np) :
    ∀ (rows : List (Nat × List (Option V))) (st : VState S R E), st.next = g + 1 →
    (∀ x ∈ rows, x.1 < pts (g + 1)) →
    op.verySplitRows cap splits rows st =
      some { st with acc := (rows.map op.child).foldl (fun s a => op.acc.add a s) st.acc } := by
  intro rows
  induction rows with
  | nil => intro st _ _; rfl
  | cons x rows ih =>
    intro st hn hb
    obtain ⟨c, args⟩ := x
    have hc := hb _ (List.mem_cons_self ..)
    rw [GroupOp.verySplitRows]
    have e1 : op.cross cap splits c st = some st := by
      unfold GroupOp.cross
      rw [hn, hp.reads (g + 1) (by omega)]
      simp only [Option.bind_eq_bind, Option.bind_some]
      rw [if_neg (by omega)]
    rw [e1]
    simp only [Option.bind_eq_bind, Option.bind_some]
    rw [ih { st with acc := op.add c args st.acc } hn (fun y hy => hb y (List.mem_cons_of_mem _ hy))]
    rfl

theorem gallop_ok {op : GroupOp V P A R E S β} {d : Rows V} {pts : Nat → Nat} (hr : Ranges d pts) {splits : List V}
    (hp : Points op d pts splits) {n g c : Nat} (hn : n ≤ g) (hg : g < d.np) (h1 : pts g ≤ c) (h2 : c < pts (g + 1)) :
    Verif.Search.gallopingLowerBound (splits.drop n) (fun v => decide (op.idOf v < (c : Int) + 1)) = some (g + 1 - n) := by
  have hlen := hp.length
  apply Verif.Search.galloping_spec
  refine ⟨by rw [List.length_drop]; omega, ?_, ?_⟩
  · intro i a ha hi
    rw [List.getElem?_drop] at ha
    obtain ⟨v, h3, h4⟩ := hp.get (n + i) (by omega)
    rw [h3] at ha
    injection ha with ha
    subst ha
    have := hr.mono' (show n + i ≤ g by omega) (by omega)
    rw [h4]
    simp
    omega
  · intro i a ha hi
    rw [List.getElem?_drop] at ha
    have hl := (List.getElem?_eq_some_iff.1 ha).1
    obtain ⟨v, h3, h4⟩ := hp.get (n + i) (by omega)
    rw [h3] at ha
    injection ha with ha
    subst ha
    have := hr.mono' (show g + 1 ≤ n + i by omega) (by omega)
    rw [h4]
    simp
    omega

theorem vinv_next {op : GroupOp V P A R E S β} {d : Rows V} {k : Nat} {st : VState S R E} (h : VInv op rel d k st) :
    st.next ≤ k := by
  rcases h with ⟨_, h2, _⟩ | ⟨l, g, h1, h2, _, _⟩
  · omega
  · have : g ∈ d.busy k := by rw [h1]; simp
    have := busy_lt this
    omega

theorem group_rows {op : GroupOp V P A R E S β} (h : Lawful op rel) (hk : op.kind = .aggregator)
    {d : Rows V} {pts : Nat → Nat} (hr : Ranges d pts) {splits : List V} (hp : Points op d pts splits) {k cap : Nat}
    (hcap : (d.busy k).length ≤ cap) (hkn : k < d.np) {st : VState S R E} (hi : VInv op rel d k st) :
    ∃ st', op.verySplitRows cap splits (d.kids k) st = some st' ∧ VInv op rel d (k + 1) st' := by
  have hb := busy_succ d k
  have hkids : ∀ x ∈ d.kids k, pts k ≤ x.1 ∧ x.1 < pts (k + 1) := by
    intro x hx
    have := (hr.parent x.1 k).1 (mem_kids.1 hx).2.1
    omega
  cases hks : d.kids k with
  | nil =>
    rw [hks] at hb
    simp only [List.isEmpty_nil, if_true, List.append_nil] at hb
    refine ⟨st, rfl, ?_⟩
    unfold VInv at hi ⊢
    rw [hb]
    exact hi
  | cons x rows =>
    rw [hks] at hb
    simp only [List.isEmpty_cons, Bool.false_eq_true, if_false] at hb
    obtain ⟨c, args⟩ := x
    have hc := hkids (c, args) (by rw [hks]; exact List.mem_cons_self ..)
    have hnext := vinv_next hi
    obtain ⟨st1, e1, e2, e3⟩ := addPrevious_ok h hk hcap hi
    have ecross : op.cross cap splits c st = some { st1 with next := k + 1 } := by
      unfold GroupOp.cross
      rw [hp.reads st.next (by omega)]
      simp only [Option.bind_eq_bind, Option.bind_some]
      have := hr.mono' hnext (by omega)
      rw [if_pos (show c ≥ pts st.next by dsimp only at hc; omega), e1]
      simp only [Option.bind_some]
      rw [e2, gallop_ok hr hp hnext hkn hc.1 hc.2]
      simp only [Option.bind_some]
      rw [show st.next + (k + 1 - st.next) = k + 1 by omega]
    rw [GroupOp.verySplitRows, ecross]
    simp only [Option.bind_eq_bind, Option.bind_some]
    rw [rest_rows hp cap hkn rows _ rfl (fun y hy => (hkids y (by rw [hks]; exact List.mem_cons_of_mem _ hy)).2)]
    refine ⟨_, rfl, Or.inr ⟨d.busy k, k, hb, rfl, e3.1, ?_⟩⟩
    intro hn
    obtain ⟨h5, h6⟩ := e3.2 hn
    refine ⟨h5, ?_⟩
    dsimp only
    unfold Acc.after
    rw [hks, List.map_cons, List.foldl_cons]
    have h7 : Sim op rel (op.add c args st1.acc) (op.acc.add (op.child (c, args)) (op.acc.reset (op.parg []) op.empty)) :=
      ⟨h.add _ _ _ h6.1, h.add_err _ _ _ h6.1 h6.2⟩
    exact ⟨fold_rel h _ _ _ h7.1, fold_err h _ _ _ h7.1 h7.2⟩

/-- All rows are the rows of all groups. -/
theorem rows_groups {d : Rows V} {pts : Nat → Nat} (hr : Ranges d pts) : ∀ k, k ≤ d.np →
    validRows d.crow 0 (pts k) = (List.range k).flatMap d.kids := by
  intro k
  induction k with
  | zero => intro _; rw [hr.zero]; rfl
  | succ k ih =>
    intro hk
    rw [List.range_succ, List.flatMap_append, ← ih (by omega), List.flatMap_singleton, hr.kids (by omega)]
    unfold validRows
    rw [← List.filterMap_append]
    congr 1
    have h1 := hr.mono k (by omega)
    have := List.range'_append (s := 0) (m := pts k) (n := pts (k + 1) - pts k) (step := 1)
    simp only [Nat.zero_add, Nat.one_mul] at this
    rw [Nat.sub_zero, Nat.sub_zero, this]
    congr 1
    omega

theorem very_rows {op : GroupOp V P A R E S β} (h : Lawful op rel) (hk : op.kind = .aggregator)
    {d : Rows V} {pts : Nat → Nat} (hr : Ranges d pts) {splits : List V} (hp : Points op d pts splits) {cap : Nat}
    (hcap : (d.busy d.np).length ≤ cap) : ∀ k, k ≤ d.np →
    ∃ st, op.verySplitRows cap splits ((List.range k).flatMap d.kids)
      ⟨0, op.acc.reset (op.parg []) op.empty, none, []⟩ = some st ∧ VInv op rel d k st := by
  intro k
  induction k with
  | zero =>
    intro _
    exact ⟨_, rfl, Or.inl ⟨rfl, rfl, rfl, fun _ => ⟨rfl, h.refl _, rfl⟩⟩⟩
  | succ k ih =>
    intro hkn
    obtain ⟨st, e1, e2⟩ := ih (by omega)
    rw [List.range_succ, List.flatMap_append, verySplitRows_append, e1, List.flatMap_singleton]
    have hsub : (d.busy k).Sublist (d.busy d.np) := by
      unfold Rows.busy
      exact (List.range_sublist.2 (by omega)).filter _
    exact group_rows h hk hr hp (Nat.le_trans hsub.length_le hcap) (by omega) e2

theorem aggs_lookup (op : GroupOp V P A R E S β) (d : Rows V) (l : List Nat) (c : Nat) :
    (op.aggs d l).lookup c = if c ∈ l then some (op.agg0 d c) else none := by
  induction l with
  | nil => rfl
  | cons x l ih =>
    unfold GroupOp.aggs at ih ⊢
    rw [List.map_cons, List.lookup_cons]
    by_cases hc : c = x
    · subst hc; simp
    · rw [show (c == x) = false by simpa using hc, ih]
      simp [hc]

theorem busy_length_rows {d : Rows V} {pts : Nat → Nat} (hr : Ranges d pts) :
    (d.busy d.np).length ≤ (validRows d.crow 0 d.nc).length := by
  have := rows_groups hr d.np (Nat.le_refl _)
  rw [hr.last] at this
  rw [this]
  unfold Rows.busy
  induction List.range d.np with
  | nil => simp
  | cons x l ih =>
    rw [List.filter_cons, List.flatMap_cons, List.length_append]
    cases hk : d.kids x with
    | nil => simpa using ih
    | cons y ys => simp only [List.isEmpty_cons, Bool.not_false, if_true, List.length_cons]; omega

theorem busy_full {d : Rows V} (h : ¬ (d.busy d.np).length < d.np) {i : Nat} (hi : i < d.np) : d.kids i ≠ [] := by
  unfold Rows.busy at h
  have h1 := List.filter_sublist (l := List.range d.np) (p := fun i => !(d.kids i).isEmpty)
  have h2 := h1.length_le
  rw [List.length_range] at h2
  have h3 := h1.eq_of_length (by rw [List.length_range]; omega)
  have h4 := List.mem_range.2 hi
  rw [← h3, List.mem_filter] at h4
  simpa using h4.2

theorem busy_notfull {d : Rows V} (h : (d.busy d.np).length < d.np) : ∃ i, i < d.np ∧ d.kids i = [] := by
  by_cases hh : ∃ i, i < d.np ∧ d.kids i = []
  · exact hh
  · exfalso
    have : d.busy d.np = List.range d.np := by
      unfold Rows.busy
      rw [List.filter_eq_self]
      intro i hi
      cases hk : d.kids i with
      | nil => exact absurd ⟨i, List.mem_range.1 hi, hk⟩ hh
      | cons _ _ => rfl
    rw [this, List.length_range] at h
    omega

/-- The array with the results of the groups which have rows, and the value for the others. -/
theorem groups_good (op : GroupOp V P A R E S β) (hk : op.kind = .aggregator) (env : Env V S β) {d : Rows V}
    (hprow : ∀ i, d.prow i = some []) {cap : Nat} (hcap : (d.busy d.np).length ≤ cap) (m : Option β)
    (hm : (d.busy d.np).length < d.np → m = op.opt (op.acc.aggregate (op.parg []) [] op.empty)) :
    ∃ x, op.buildGroups env d.np cap (op.aggs d (d.busy d.np)) m = some x ∧
      goodArr x ((List.range (op.outSize d)).map (op.expected d)) := by
  have hkeys : (op.aggs d (d.busy d.np)).map Prod.fst = d.busy d.np := by
    unfold GroupOp.aggs
    rw [List.map_map]
    exact List.map_id' _
  obtain ⟨x, e1, e2⟩ := buildGroups_spec op env (np := d.np) (cap := cap) (out := op.aggs d (d.busy d.np))
    (by rw [hkeys]; exact busy_inc d _) (by
      intro y hy
      have := List.mem_map_of_mem (f := Prod.fst) hy
      rw [hkeys] at this
      exact busy_lt this) (by simpa [GroupOp.aggs] using hcap) m
  refine ⟨x, e1, ?_⟩
  have he : (List.range (op.outSize d)).map (op.expected d) = (List.range d.np).map (fun c =>
      match (op.aggs d (d.busy d.np)).lookup c with | some r => op.opt r | none => m) := by
    have hos : op.outSize d = d.np := by unfold GroupOp.outSize; rw [if_pos hk]
    rw [hos]
    apply List.map_congr_left
    intro c hc
    have hc := List.mem_range.1 hc
    unfold GroupOp.expected
    rw [if_pos hk, Option.bind_some, hprow, Option.bind_some, aggs_lookup]
    have : (op.groupOut c (op.parg []) (d.kids c) op.empty).lookup c = some (op.agg0 d c) := by
      simp [GroupOp.groupOut, hk, GroupOp.agg0]
    rw [this, Option.bind_some]
    by_cases hb : c ∈ d.busy d.np
    · rw [if_pos hb]
    · rw [if_neg hb]
      have h0 : d.kids c = [] := by
        by_contra hne
        exact hb (busy_mem.2 ⟨hc, hne⟩)
      have hlt : (d.busy d.np).length < d.np := by
        by_contra hh
        exact busy_full hh hc h0
      rw [hm hlt]
      simp [GroupOp.agg0, h0]
  rw [he]
  exact e2

theorem verySplits_correct {op : GroupOp V P A R E S β} (h : Lawful op rel) (hk : op.kind = .aggregator)
    (env : Env V S β) {d : Rows V} (hprow : ∀ i, d.prow i = some []) {pts : Nat → Nat} (hr : Ranges d pts)
    {splits : List V} (hp : Points op d pts splits) {cargs : List (AArg V)} {cu : GUtil V} (hc : GUtilOk cu d.nc cargs)
    (hrow : d.crow = row cargs) : op.Correct d goodArr (op.verySplits env d.np cu splits) := by
  have hbn : (d.busy d.np).length ≤ d.np := by
    have := (List.filter_sublist (l := List.range d.np) (p := fun i => !(d.kids i).isEmpty)).length_le
    rw [List.length_range] at this
    exact this
  have hcap : (d.busy d.np).length ≤ min d.np cu.estimate := by
    have h1 := busy_length_rows hr
    rw [hrow] at h1
    have h2 := hc.estimate.1
    omega
  have hanyF : op.anyFails d ↔ ∃ i, i < d.np ∧ op.fails (op.parg []) (d.kids i) = true := by
    unfold GroupOp.anyFails
    constructor
    · rintro ⟨i, a, h1, h2, h3⟩
      rw [hprow] at h2
      injection h2 with h2
      subst h2
      exact ⟨i, h1, h3⟩
    · rintro ⟨i, h1, h3⟩
      exact ⟨i, [], h1, hprow i, h3⟩
  have hbad : ∀ {l : List Nat}, op.bad d l = true ↔ ∃ i ∈ l, op.fails (op.parg []) (d.kids i) = true := by
    intro l; unfold GroupOp.bad; rw [List.any_eq_true]
  unfold GroupOp.verySplits
  rw [hc.simple, ← hrow, ← hr.last, rows_groups hr d.np (Nat.le_refl _)]
  simp only [Option.bind_eq_bind, Option.bind_some, natIds_cast]
  obtain ⟨st, e1, e2⟩ := very_rows h hk hr hp hcap d.np (Nat.le_refl _)
  rw [e1]
  simp only [Option.bind_some]
  obtain ⟨st', e3, _, e4⟩ := addPrevious_ok h hk hcap e2
  rw [e3]
  simp only [Option.bind_some]
  cases hs : st'.status with
  | some e =>
    refine ⟨fun _ => ⟨e, rfl⟩, fun hn => absurd ?_ hn⟩
    rw [hanyF]
    have := e4.1
    rw [hs] at this
    obtain ⟨i, h1, h2⟩ := hbad.1 this.symm
    exact ⟨i, busy_lt h1, h2⟩
  | none =>
    obtain ⟨h5, h6⟩ := e4.2 hs
    have h7 := e4.1
    rw [hs] at h7
    have hlen : st'.out.length = (d.busy d.np).length := by rw [h5]; simp [GroupOp.aggs]
    dsimp only
    by_cases hlt : (d.busy d.np).length < d.np
    · rw [if_pos (by omega)]
      obtain ⟨i0, hi0, hk0⟩ := busy_notfull hlt
      have hfail : err op.acc (op.acc.get st'.acc).2 = op.fails (op.parg []) (d.kids i0) := by
        rw [h.get_err (by simp [hk]) _ _ h6.1 h6.2, hk0]
        simp [GroupOp.fails, GroupOp.groupState, hk, Acc.after]
      have hany : op.anyErr d.kids d.parents = err op.acc (op.acc.get st'.acc).2 := by
        rw [Bool.eq_iff_iff, anyErr_iff, hanyF, hfail]
        constructor
        · rintro ⟨i, h1, h2⟩
          by_cases hki : d.kids i = []
          · rw [hki, ← hk0] at h2; exact h2
          · have : op.bad d (d.busy d.np) = true := hbad.2 ⟨i, busy_mem.2 ⟨h1, hki⟩, h2⟩
            rw [← h7] at this
            cases this
        · intro h2
          exact ⟨i0, hi0, h2⟩
      refine checked_correct hany.symm ?_
      rw [h5]
      exact groups_good op hk env hprow hcap _ (fun _ => by rw [(h.get (by simp [hk]) _ _ h6.1).1]; rfl)
    · rw [if_neg (by omega), h5]
      obtain ⟨x, g1, g2⟩ := groups_good op hk env hprow hcap none (fun hh => absurd hh hlt)
      rw [g1]
      refine ⟨?_, fun _ => ⟨x, rfl, g2⟩⟩
      rw [hanyF]
      rintro ⟨i, h1, h2⟩
      have : op.bad d (d.busy d.np) = true := hbad.2 ⟨i, busy_mem.2 ⟨h1, busy_full hlt h1⟩, h2⟩
      rw [← h7] at this
      cases this

end Verif.Group
