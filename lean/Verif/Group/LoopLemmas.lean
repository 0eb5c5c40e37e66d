import Verif.Group.SplitLemmas

/-!
# Lemmas: loops over the groups of split points
-/

namespace Verif.Group
open Verif.Dense Verif.Arr Verif.Agg

variable {V P A R E S β : Type} {rel : S → S → Prop}

/-- The split points as read by the loops. -/
def Reads (op : GroupOp V P A R E S β) (d : Rows V) (pts : Nat → Nat) (splits : List V) : Prop :=
  ∀ i, i ≤ d.np → op.split splits i = some (pts i)

theorem denseGroups_ok {op : GroupOp V P A R E S β} (h : Lawful op rel) {d : Rows V} {pts : Nat → Nat}
    (hr : Ranges d pts) {splits : List V} (hs : Reads op d pts splits) {cargs : List (Arg V)} (hc : DArgs d.nc cargs)
    (hrow : d.crow = denseRow cargs) :
    ∀ (ps : List (Row V)) (st : GState S R), (∀ x ∈ ps, x.1 < d.np) → st.rows = [] →
    ∃ st', op.denseGroups splits cargs ps st = some st' ∧ Shared op d.kids (validOf ps) st st' := by
  intro ps
  induction ps with
  | nil => intro st _ h0; exact ⟨st, rfl, Shared.nil h0⟩
  | cons x ps ih =>
    intro st hb h0
    obtain ⟨p, valid, args⟩ := x
    have hp : p < d.np := hb _ (List.mem_cons_self ..)
    have hb' : ∀ x ∈ ps, x.1 < d.np := fun x hx => hb x (List.mem_cons_of_mem _ hx)
    cases valid with
    | false =>
      obtain ⟨st', e1, e2⟩ := ih st hb' h0
      exact ⟨st', by rw [GroupOp.denseGroups, if_neg (by simp), e1], e2⟩
    | true =>
      have h1 := hr.mono p hp
      have h2 := hr.mono' (show p + 1 ≤ d.np from hp) (Nat.le_refl _)
      rw [hr.last] at h2
      obtain ⟨rs, e1, e2⟩ := dense_iterate hc h1 h2
      have e3 : validOf rs = d.kids p := by
        rw [validOf_eq e2, hr.kids hp, hrow]; rfl
      rw [GroupOp.denseGroups, if_pos rfl, hs p (by omega), hs (p + 1) (by omega)]
      simp only [Option.bind_eq_bind, Option.bind_some, e1]
      rw [denseRows_eq, e3]
      have hg := shared_group h d.kids (p, args) st h0
      obtain ⟨st', e4, e5⟩ := ih _ hb' hg.1
      exact ⟨st', e4, Shared.cons hg e5⟩

theorem denseFormSplits_ok {op : GroupOp V P A R E S β} (h : Lawful op rel) {d : Rows V} {pts : Nat → Nat}
    (hr : Ranges d pts) {splits : List V} (hs : Reads op d pts splits) {cargs : List (AArg V)} {cu : GUtil V}
    (hc : GUtilOk cu d.nc cargs) (hrow : d.crow = row cargs) :
    ∀ (ps : List (Nat × List (Option V))) (st : GState S R), (∀ x ∈ ps, x.1 < d.np) → st.rows = [] →
    ∃ st', op.denseFormSplits splits cu ps st = some st' ∧ Shared op d.kids ps st st' := by
  intro ps
  induction ps with
  | nil => intro st _ h0; exact ⟨st, rfl, Shared.nil h0⟩
  | cons x ps ih =>
    intro st hb h0
    obtain ⟨p, args⟩ := x
    have hp : p < d.np := hb _ (List.mem_cons_self ..)
    have hb' : ∀ x ∈ ps, x.1 < d.np := fun x hx => hb x (List.mem_cons_of_mem _ hx)
    have h1 := hr.mono p hp
    have h2 := hr.mono' (show p + 1 ≤ d.np from hp) (Nat.le_refl _)
    rw [hr.last] at h2
    obtain ⟨cs, e1, _, e2⟩ := hc.iterate _ _ h1 h2
    rw [← hrow, ← hr.kids hp] at e2
    rw [GroupOp.denseFormSplits, hs p (by omega), hs (p + 1) (by omega)]
    simp only [Option.bind_eq_bind, Option.bind_some, GUtil.iterateFn, e1, e2, natIds_cast]
    have hg := shared_group h d.kids (p, args) st h0
    obtain ⟨st', e4, e5⟩ := ih _ hb' hg.1
    exact ⟨st', e4, Shared.cons hg e5⟩

theorem aggSplits_ok {op : GroupOp V P A R E S β} (h : Lawful op rel) (hk : op.kind = .aggregator)
    {d : Rows V} {pts : Nat → Nat}
    (hr : Ranges d pts) {splits : List V} (hs : Reads op d pts splits) {cargs : List (AArg V)} {cu : GUtil V}
    (hc : GUtilOk cu d.nc cargs) (hrow : d.crow = row cargs) (hz : cargs = [] → ZeroOk op rel) :
    ∀ (ps : List (Nat × List (Option V))) (st : GState S R), (∀ x ∈ ps, x.1 < d.np) → st.rows = [] →
    ∃ st', op.aggSplits splits cu ps st = some st' ∧ Shared op d.kids ps st st' := by
  intro ps
  induction ps with
  | nil => intro st _ h0; exact ⟨st, rfl, Shared.nil h0⟩
  | cons x ps ih =>
    intro st hb h0
    obtain ⟨p, args⟩ := x
    have hp : p < d.np := hb _ (List.mem_cons_self ..)
    have hb' : ∀ x ∈ ps, x.1 < d.np := fun x hx => hb x (List.mem_cons_of_mem _ hx)
    have h1 := hr.mono p hp
    have h2 := hr.mono' (show p + 1 ≤ d.np from hp) (Nat.le_refl _)
    rw [hr.last] at h2
    obtain ⟨cs, e1, e3, e2⟩ := hc.iterate _ _ h1 h2
    rw [← hrow, ← hr.kids hp] at e2
    rw [GroupOp.aggSplits, hs p (by omega), hs (p + 1) (by omega)]
    simp only [Option.bind_eq_bind, Option.bind_some, e1]
    have hg := shared_agg h hk d.kids (p, args) st h0 (cs := cs)
      (fun c hm => (e3 c hm).imp id (fun hh => ⟨hh.1, hz hh.2⟩)) e2
    obtain ⟨st', e4, e5⟩ := ih _ hb' hg.1
    exact ⟨st', e4, Shared.cons hg e5⟩

/-! ## Sparse results -/

theorem setOffsets_eq (op : GroupOp V P A R E S β) : ∀ (n o : Nat) (s : S),
    op.setOffsets o n s = (setsFrom op.opt o (op.acc.fullResults n s), fullEnd op.acc n s)
  | 0, o, s => rfl
  | n + 1, o, s => by
    simp only [GroupOp.setOffsets, setOffsets_eq op n, Acc.fullResults, fullEnd, setsFrom, List.zipIdx_cons, List.map_cons]

theorem sparseRows_partial (op : GroupOp V P A R E S β) (hk : op.kind = .partial') :
    ∀ (rows : List (Nat × List (Option V))) (st : SState S β), ∃ X,
    rows.foldl op.sparseRow st = ⟨partialEnd op.acc (rows.map op.child) st.acc, st.ops ++ X, st.next + rows.length⟩ ∧
    Adds op.opt st.next ((rows.map Prod.fst).zip (op.acc.partialResults (rows.map op.child) st.acc)) X := by
  intro rows
  induction rows with
  | nil => intro st; exact ⟨[], by simp [partialEnd], Adds.nil _ _⟩
  | cons x rows ih =>
    intro st
    obtain ⟨X, e1, e2⟩ := ih (op.sparseRow st x)
    refine ⟨[.setByOffset st.next (op.opt (op.acc.get (op.acc.add (op.child x) st.acc)).1), .addId x.1] ++ X, ?_, ?_⟩
    · rw [List.foldl_cons, e1]
      simp [GroupOp.sparseRow, hk, add_child, partialEnd]
      omega
    · refine Adds.append (l := [(x.1, (op.acc.get (op.acc.add (op.child x) st.acc)).1)]) (Adds.one ..) ?_
      simpa [GroupOp.sparseRow, hk, add_child, List.zip] using e2

theorem sparseRows_full (op : GroupOp V P A R E S β) (hk : op.kind = .full) :
    ∀ (rows : List (Nat × List (Option V))) (st : SState S β),
    rows.foldl op.sparseRow st = ⟨(rows.map op.child).foldl (fun s a => op.acc.add a s) st.acc,
      st.ops ++ (rows.map Prod.fst).map .addId, st.next + rows.length⟩ := by
  intro rows
  induction rows with
  | nil => intro st; simp
  | cons x rows ih =>
    intro st
    rw [List.foldl_cons, ih]
    simp [GroupOp.sparseRow, hk, add_child]
    omega

theorem sparseGroup_ok (op : GroupOp V P A R E S β) (hk : op.kind ≠ .aggregator) (i : Nat) (p : P)
    (rows : List (Nat × List (Option V))) (st : SState S β) : ∃ X,
    op.sparseGroup rows { st with acc := op.acc.reset p st.acc } =
      ⟨op.groupState p rows st.acc, st.ops ++ X, st.next + rows.length⟩ ∧
    Adds op.opt st.next (op.groupOut i p rows st.acc) X := by
  unfold GroupOp.sparseGroup
  cases hk2 : op.kind with
  | aggregator => exact absurd hk2 hk
  | partial' =>
    obtain ⟨X, e1, e2⟩ := sparseRows_partial op hk2 rows { st with acc := op.acc.reset p st.acc }
    refine ⟨X, ?_, ?_⟩
    · rw [if_neg (by decide), e1]
      simp [GroupOp.groupState, hk2]
    · simpa [GroupOp.groupOut, hk2] using e2
  | full =>
    rw [sparseRows_full op hk2, if_pos rfl]
    simp only [setOffsets_eq]
    refine ⟨(rows.map Prod.fst).map .addId ++ setsFrom op.opt st.next (op.acc.fullResults rows.length
      (op.acc.finalize (op.acc.after p (rows.map op.child) st.acc))), ?_, ?_⟩
    · simp only [GroupOp.groupState, hk2, Acc.after, List.append_assoc, Nat.add_sub_cancel_left]
    · simp only [GroupOp.groupOut, hk2]
      exact Adds.full _ _ _ _ (by rw [fullResults_length]; simp)

theorem groupOut_length (op : GroupOp V P A R E S β) (hk : op.kind ≠ .aggregator) (i : Nat) (p : P)
    (rows : List (Nat × List (Option V))) (s : S) : (op.groupOut i p rows s).length = rows.length := by
  have := congrArg List.length (groupOut_keys op i p rows s)
  rw [if_neg hk] at this
  simpa using this

theorem sparseSplits_ok {op : GroupOp V P A R E S β} (h : Lawful op rel) (hk : op.kind ≠ .aggregator)
    {d : Rows V} {pts : Nat → Nat}
    (hr : Ranges d pts) {splits : List V} (hs : Reads op d pts splits) {cargs : List (AArg V)} {cu : GUtil V}
    (hc : GUtilOk cu d.nc cargs) (hrow : d.crow = row cargs) :
    ∀ (ps : List (Nat × List (Option V))) (st : SState S β), (∀ x ∈ ps, x.1 < d.np) →
    ∃ st' X, op.sparseSplits splits cu ps st = some st' ∧ st'.ops = st.ops ++ X ∧
      Adds op.opt st.next (op.outs d.kids ps) X ∧
      err op.acc st'.acc = (err op.acc st.acc || op.anyErr d.kids ps) := by
  intro ps
  induction ps with
  | nil =>
    intro st _
    exact ⟨st, [], rfl, by simp, Adds.nil _ _, by simp [GroupOp.anyErr]⟩
  | cons x ps ih =>
    intro st hb
    obtain ⟨p, args⟩ := x
    have hp : p < d.np := hb _ (List.mem_cons_self ..)
    have hb' : ∀ x ∈ ps, x.1 < d.np := fun x hx => hb x (List.mem_cons_of_mem _ hx)
    have h1 := hr.mono p hp
    have h2 := hr.mono' (show p + 1 ≤ d.np from hp) (Nat.le_refl _)
    rw [hr.last] at h2
    obtain ⟨cs, e1, _, e2⟩ := hc.iterate _ _ h1 h2
    rw [← hrow, ← hr.kids hp] at e2
    rw [GroupOp.sparseSplits, hs p (by omega), hs (p + 1) (by omega)]
    simp only [Option.bind_eq_bind, Option.bind_some, GUtil.iterateFn, e1, e2, natIds_cast]
    obtain ⟨X, g1, g2⟩ := sparseGroup_ok op hk p (op.parg args) (d.kids p) st
    rw [g1]
    obtain ⟨st', Y, f1, f2, f3, f4⟩ := ih ⟨op.groupState (op.parg args) (d.kids p) st.acc, st.ops ++ X,
      st.next + (d.kids p).length⟩ hb'
    refine ⟨st', X ++ Y, f1, by rw [f2, List.append_assoc], ?_, ?_⟩
    · rw [groupOut_any h _ _ _ _ op.empty] at g2
      have := Adds.append g2 (m := op.outs d.kids ps) (b := Y) (by
        rw [groupOut_length op hk]; exact f3)
      simpa [GroupOp.outs] using this
    · rw [f4, groupState_err h]
      simp [GroupOp.anyErr, Bool.or_assoc]

end Verif.Group
