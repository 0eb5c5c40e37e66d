import Verif.Group.GroupSpec
import Verif.Group.UtilLemmas

/-!
# Lemmas: one group
-/

namespace Verif.Group
open Verif.Dense Verif.Arr Verif.Agg

variable {V P A R E S β : Type}

theorem add_child (op : GroupOp V P A R E S β) (x : Nat × List (Option V)) (s : S) :
    op.add x.1 x.2 s = op.acc.add (op.child x) s := rfl

theorem partialResults_length (acc : Acc P A R E S) : ∀ (xs : List A) (s : S), (acc.partialResults xs s).length = xs.length
  | [], _ => rfl
  | _ :: xs, s => by simp [Acc.partialResults, partialResults_length acc xs]

theorem fullResults_length (acc : Acc P A R E S) : ∀ (n : Nat) (s : S), (acc.fullResults n s).length = n
  | 0, _ => rfl
  | n + 1, s => by simp [Acc.fullResults, fullResults_length acc n]

theorem getEach_eq (acc : Acc P A R E S) : ∀ (cs : List Nat) (s : S),
    getEach acc cs s = (cs.zip (acc.fullResults cs.length s), fullEnd acc cs.length s)
  | [], s => rfl
  | c :: cs, s => by simp [getEach, getEach_eq acc cs, Acc.fullResults, fullEnd]

/-- The rows of a group through the shared accumulator. -/
theorem rows_run (op : GroupOp V P A R E S β) : ∀ (rows : List (Nat × List (Option V))) (st : GState S R),
    rows.foldl (fun st x => op.rowFn x.1 x.2 st) st =
      match op.kind with
      | .aggregator => ⟨(rows.map op.child).foldl (fun s a => op.acc.add a s) st.acc, st.sets, st.rows⟩
      | .partial' => ⟨partialEnd op.acc (rows.map op.child) st.acc,
          st.sets ++ (rows.map Prod.fst).zip (op.acc.partialResults (rows.map op.child) st.acc), st.rows⟩
      | .full => ⟨(rows.map op.child).foldl (fun s a => op.acc.add a s) st.acc, st.sets,
          st.rows ++ rows.map Prod.fst⟩ := by
  intro rows
  induction rows with
  | nil => intro st; cases hk : op.kind <;> simp [partialEnd]
  | cons x rows ih =>
    intro st
    rw [List.foldl_cons, ih]
    cases hk : op.kind <;>
      simp [GroupOp.rowFn, hk, add_child, partialEnd, Acc.partialResults]

theorem group_run (op : GroupOp V P A R E S β) (i : Nat) (p : P) (rows : List (Nat × List (Option V)))
    (st : GState S R) (hr : st.rows = []) :
    op.groupEnd i (rows.foldl (fun st x => op.rowFn x.1 x.2 st) { st with acc := op.acc.reset p st.acc }) =
      ⟨op.groupState p rows st.acc, st.sets ++ op.groupOut i p rows st.acc, []⟩ := by
  rw [rows_run]
  cases hk : op.kind <;>
    simp [GroupOp.groupEnd, hk, GroupOp.groupState, GroupOp.groupOut, hr, getEach_eq, Acc.after, Acc.aggregate]

/-! ## States which differ in what does not matter -/

variable {rel : S → S → Prop}

theorem fold_rel {op : GroupOp V P A R E S β} (h : Lawful op rel) : ∀ (xs : List A) (s s' : S), rel s s' →
    rel (xs.foldl (fun s a => op.acc.add a s) s) (xs.foldl (fun s a => op.acc.add a s) s')
  | [], _, _, hr => hr
  | x :: xs, s, s', hr => fold_rel h xs _ _ (h.add x s s' hr)

theorem fold_err {op : GroupOp V P A R E S β} (h : Lawful op rel) : ∀ (xs : List A) (s s' : S), rel s s' →
    err op.acc s = err op.acc s' →
    err op.acc (xs.foldl (fun s a => op.acc.add a s) s) = err op.acc (xs.foldl (fun s a => op.acc.add a s) s')
  | [], _, _, _, he => he
  | x :: xs, s, s', hr, he => fold_err h xs _ _ (h.add x s s' hr) (h.add_err x s s' hr he)

theorem fold_keep {op : GroupOp V P A R E S β} (h : Lawful op rel) : ∀ (xs : List A) (s : S),
    err op.acc s = true → err op.acc (xs.foldl (fun s a => op.acc.add a s) s) = true
  | [], _, he => he
  | x :: xs, s, he => fold_keep h xs _ (h.add_keep x s he)

theorem partial_rel {op : GroupOp V P A R E S β} (h : Lawful op rel) (hk : op.kind ≠ .full) : ∀ (xs : List A) (s s' : S), rel s s' →
    op.acc.partialResults xs s = op.acc.partialResults xs s'
  | [], _, _, _ => rfl
  | x :: xs, s, s', hr => by
    have h1 := h.get hk _ _ (h.add x s s' hr)
    simp only [Acc.partialResults]
    rw [h1.1, partial_rel h hk xs _ _ h1.2]

theorem partial_err {op : GroupOp V P A R E S β} (h : Lawful op rel) (hk : op.kind ≠ .full) : ∀ (xs : List A) (s s' : S), rel s s' →
    err op.acc s = err op.acc s' → err op.acc (partialEnd op.acc xs s) = err op.acc (partialEnd op.acc xs s')
  | [], _, _, _, he => he
  | x :: xs, s, s', hr, he =>
    partial_err h hk xs _ _ (h.get hk _ _ (h.add x s s' hr)).2
      (h.get_err hk _ _ (h.add x s s' hr) (h.add_err x s s' hr he))

theorem partial_keep {op : GroupOp V P A R E S β} (h : Lawful op rel) : ∀ (xs : List A) (s : S),
    err op.acc s = true → err op.acc (partialEnd op.acc xs s) = true
  | [], _, he => he
  | x :: xs, s, he => partial_keep h xs _ (h.get_keep _ (h.add_keep x s he))

theorem full_keep {op : GroupOp V P A R E S β} (h : Lawful op rel) : ∀ (n : Nat) (s : S),
    err op.acc s = true → err op.acc (fullEnd op.acc n s) = true
  | 0, _, he => he
  | n + 1, s, he => full_keep h n _ (h.get_keep _ he)

theorem groupOut_any {op : GroupOp V P A R E S β} (h : Lawful op rel) (i : Nat) (p : P)
    (rows : List (Nat × List (Option V))) (s s' : S) : op.groupOut i p rows s = op.groupOut i p rows s' := by
  have h0 := h.reset p s s'
  have h1 := fold_rel h (rows.map op.child) _ _ h0
  unfold GroupOp.groupOut
  cases hk : op.kind with
  | aggregator => simp only [Acc.aggregate, Acc.after]; rw [(h.get (by simp [hk]) _ _ h1).1]
  | partial' => simp only; rw [partial_rel h (by simp [hk]) _ _ _ h0]
  | full => simp only [Acc.after]; rw [h.full hk _ _ _ h1]

theorem groupState_err {op : GroupOp V P A R E S β} (h : Lawful op rel) (p : P)
    (rows : List (Nat × List (Option V))) (s : S) :
    err op.acc (op.groupState p rows s) = (err op.acc s || op.fails p rows) := by
  unfold GroupOp.fails
  cases he : err op.acc s with
  | true =>
    have h0 : err op.acc (op.acc.reset p s) = true := by rw [h.reset_err, he]
    have h1 := fold_keep h (rows.map op.child) _ h0
    unfold GroupOp.groupState
    rw [Bool.true_or]
    cases op.kind with
    | aggregator => exact h.get_keep _ h1
    | partial' => exact partial_keep h _ _ h0
    | full => exact full_keep h _ _ (h.finalize_keep _ h1)
  | false =>
    have hr := h.reset p s op.empty
    have h0 : err op.acc (op.acc.reset p s) = err op.acc (op.acc.reset p op.empty) := by
      rw [h.reset_err, h.reset_err, he, h.fresh]
    have h1 := fold_rel h (rows.map op.child) _ _ hr
    have h2 := fold_err h (rows.map op.child) _ _ hr h0
    unfold GroupOp.groupState
    rw [Bool.false_or]
    cases hk : op.kind with
    | aggregator => exact h.get_err (by simp [hk]) _ _ h1 h2
    | partial' => exact partial_err h (by simp [hk]) _ _ _ hr h0
    | full => exact h.full_err hk _ _ _ h1 h2

/-! ## The results of all groups -/

/-- The results of the given parents, in order. -/
def GroupOp.outs (op : GroupOp V P A R E S β) (kids : Nat → List (Nat × List (Option V)))
    (ps : List (Nat × List (Option V))) : List (Nat × R) :=
  ps.flatMap fun x => op.groupOut x.1 (op.parg x.2) (kids x.1) op.empty

/-- Some of the given parents has an error. -/
def GroupOp.anyErr (op : GroupOp V P A R E S β) (kids : Nat → List (Nat × List (Option V)))
    (ps : List (Nat × List (Option V))) : Bool :=
  ps.any fun x => op.fails (op.parg x.2) (kids x.1)

/-- One group after another through a shared accumulator. -/
def Shared (op : GroupOp V P A R E S β) (kids : Nat → List (Nat × List (Option V)))
    (ps : List (Nat × List (Option V))) (st st' : GState S R) : Prop :=
  st'.rows = [] ∧ st'.sets = st.sets ++ op.outs kids ps ∧ err op.acc st'.acc = (err op.acc st.acc || op.anyErr kids ps)

theorem Shared.nil {op : GroupOp V P A R E S β} {kids : Nat → List (Nat × List (Option V))} {st : GState S R}
    (h : st.rows = []) : Shared op kids [] st st := ⟨h, by simp [GroupOp.outs], by simp [GroupOp.anyErr]⟩

theorem Shared.cons {op : GroupOp V P A R E S β} {kids : Nat → List (Nat × List (Option V))} {st st1 st2 : GState S R}
    {x : Nat × List (Option V)} {ps : List (Nat × List (Option V))}
    (h1 : Shared op kids [x] st st1) (h2 : Shared op kids ps st1 st2) : Shared op kids (x :: ps) st st2 := by
  refine ⟨h2.1, ?_, ?_⟩
  · rw [h2.2.1, h1.2.1]; simp [GroupOp.outs]
  · rw [h2.2.2, h1.2.2]; simp [GroupOp.anyErr, Bool.or_assoc]

theorem shared_group {op : GroupOp V P A R E S β} (h : Lawful op rel)
    (kids : Nat → List (Nat × List (Option V))) (x : Nat × List (Option V)) (st : GState S R) (hr : st.rows = []) :
    Shared op kids [x] st (op.groupEnd x.1 ((kids x.1).foldl (fun st x => op.rowFn x.1 x.2 st)
      { st with acc := op.acc.reset (op.parg x.2) st.acc })) := by
  rw [group_run op x.1 _ _ _ hr]
  refine ⟨rfl, ?_, ?_⟩
  · simp [GroupOp.outs, groupOut_any h x.1 (op.parg x.2) (kids x.1) st.acc op.empty]
  · simp [GroupOp.anyErr, groupState_err h]

/-! ## `AddN` -/

theorem addEach_eq (op : GroupOp V P A R E S β) (args : List (Option V)) : ∀ (n : Nat) (first : Int) (s : S),
    op.addEach first args n s = ((List.range n).map (fun (k : Nat) => (first + k, args))).foldl
      (fun s x => op.add x.1 x.2 s) s := by
  intro n
  induction n with
  | zero => intro f s; rfl
  | succ n ih =>
    intro f s
    rw [GroupOp.addEach, ih, List.range_succ_eq_map, List.map_cons, List.foldl_cons, List.map_map]
    have e1 : f + ((0 : Nat) : Int) = f := by simp
    rw [e1]
    congr 1
    apply List.map_congr_left
    intro k _
    simp only [Function.comp]
    rw [Nat.succ_eq_add_one]
    congr 1
    push_cast
    omega

theorem repeatAdd_eq (op : GroupOp V P A R E S β) (hf : op.forward = false) (args : List (Option V)) :
    ∀ (n : Nat) (first : Int) (s : S),
    repeatAdd op.acc.add n (op.carg none args) s = ((List.range n).map (fun (k : Nat) => (first + k, args))).foldl
      (fun s x => op.add x.1 x.2 s) s := by
  intro n first s
  rw [← addEach_eq]
  induction n generalizing first s with
  | zero => rfl
  | succ n ih =>
    rw [repeatAdd, GroupOp.addEach, ← ih (first + 1)]
    simp [GroupOp.add, hf]

/-- States with the same behaviour and the same status. -/
def Sim (op : GroupOp V P A R E S β) (rel : S → S → Prop) (s s' : S) : Prop := rel s s' ∧ err op.acc s = err op.acc s'

theorem fold_add_sim {op : GroupOp V P A R E S β} (h : Lawful op rel) :
    ∀ (xs : List (Int × List (Option V))) (s s' : S), Sim op rel s s' →
    Sim op rel (xs.foldl (fun s x => op.add x.1 x.2 s) s) (xs.foldl (fun s x => op.add x.1 x.2 s) s')
  | [], _, _, hs => hs
  | x :: xs, s, s', hs => fold_add_sim h xs _ _ ⟨h.add _ _ _ hs.1, h.add_err _ _ _ hs.1 hs.2⟩

/-- `AddN` with no rows, which only happens without child arguments. -/
def ZeroOk (op : GroupOp V P A R E S β) (rel : S → S → Prop) : Prop :=
  op.forward = false → ∀ s s', Sim op rel s s' → Sim op rel (op.acc.addN 0 (op.carg none []) s) s'

theorem aggregateCall_sim {op : GroupOp V P A R E S β} (h : Lawful op rel) {c : Call V}
    (hc : c.nonempty ∨ ((∃ a b, c = .rep a b []) ∧ ZeroOk op rel)) {s s' : S} (hs : Sim op rel s s') :
    Sim op rel (op.aggregateCall s c) (c.each.foldl (fun s x => op.add x.1 x.2 s) s') := by
  cases c with
  | fn id args => exact fold_add_sim h [(id, args)] s s' hs
  | miss id n => exact hs
  | rep id n args =>
    simp only [GroupOp.aggregateCall, Call.each, GroupOp.addN]
    cases hf : op.forward with
    | true =>
      rw [if_pos rfl, addEach_eq]
      exact fold_add_sim h _ s s' hs
    | false =>
      rw [if_neg (by simp)]
      by_cases hn : 0 < n.toNat
      · rw [← repeatAdd_eq op hf]
        exact ⟨h.addN _ _ _ _ hn hs.1, h.addN_err _ _ _ _ hn hs.1 hs.2⟩
      · have hn0 : n.toNat = 0 := by omega
        rw [hn0]
        rcases hc with hc | ⟨⟨a, b, hab⟩, hz⟩
        · simp only [Call.nonempty] at hc; omega
        · injection hab with _ _ h3
          subst h3
          exact hz hf s s' hs

theorem aggregateCalls_sim {op : GroupOp V P A R E S β} (h : Lawful op rel) :
    ∀ {cs : List (Call V)}, (∀ c ∈ cs, c.nonempty ∨ ((∃ a b, c = .rep a b []) ∧ ZeroOk op rel)) → ∀ {s s' : S},
    Sim op rel s s' →
    Sim op rel (cs.foldl op.aggregateCall s) ((cs.flatMap Call.each).foldl (fun s x => op.add x.1 x.2 s) s')
  | [], _, _, _, hs => hs
  | c :: cs, hc, s, s', hs => by
    rw [List.foldl_cons, List.flatMap_cons, List.foldl_append]
    exact aggregateCalls_sim h (fun c hm => hc c (by simp [hm])) (aggregateCall_sim h (hc c (by simp)) hs)

/-- A group of an aggregator through the shared accumulator, with calls of `AddN`. -/
theorem shared_agg {op : GroupOp V P A R E S β} (h : Lawful op rel) (hk : op.kind = .aggregator)
    (kids : Nat → List (Nat × List (Option V))) (x : Nat × List (Option V)) (st : GState S R) (hr : st.rows = [])
    {cs : List (Call V)} (hc : ∀ c ∈ cs, c.nonempty ∨ ((∃ a b, c = .rep a b []) ∧ ZeroOk op rel))
    (he : cs.flatMap Call.each = (kids x.1).map (fun y => ((y.1 : Int), y.2))) :
    Shared op kids [x] st (op.groupEnd x.1
      { st with acc := cs.foldl op.aggregateCall (op.acc.reset (op.parg x.2) st.acc) }) := by
  have hs := aggregateCalls_sim h hc (s := op.acc.reset (op.parg x.2) st.acc)
    (s' := op.acc.reset (op.parg x.2) st.acc) ⟨h.refl _, rfl⟩
  rw [he] at hs
  have hg := shared_group h kids x st hr
  rw [rows_run] at hg
  simp only [hk, GroupOp.groupEnd] at hg ⊢
  have hfold : ((kids x.1).map (fun y => ((y.1 : Int), y.2))).foldl (fun s x => op.add x.1 x.2 s)
      (op.acc.reset (op.parg x.2) st.acc) = ((kids x.1).map op.child).foldl (fun s a => op.acc.add a s)
      (op.acc.reset (op.parg x.2) st.acc) := by
    rw [List.foldl_map, List.foldl_map]
    rfl
  rw [hfold] at hs
  refine ⟨hr, ?_, ?_⟩
  · rw [← hg.2.1]
    dsimp only
    rw [(h.get (by simp [hk]) _ _ hs.1).1]
  · rw [← hg.2.2]
    dsimp only
    exact h.get_err (by simp [hk]) _ _ hs.1 hs.2

end Verif.Group
