import Verif.Group.MappingLemmas
import Verif.Agg.AccProps

/-!
# C69: group operations
-/

namespace Verif.Group
open Verif.Bits Verif.Dense Verif.Arr Verif.Agg

variable {V P A R E S β : Type} {rel : S → S → Prop}

theorem denseData_ok (op : GroupOp V P A R E S β) {e : GEdge (DArr V)} {pargs cargs : List (Arg V)}
    (he : EdgeOk op.idOf e (Dense.elem e.values) e.values.values.length) : (denseData op.idOf e pargs cargs).Ok := by
  intro c i hc hi
  cases hs : e.isSplit with
  | true => exact (((edge_ranges op.idOf he hs _ _).1.parent c i).1 hi).1
  | false =>
    unfold EdgeOk at he
    simp only [hs, Bool.false_eq_true, if_false] at he
    have hi : edgeParent op.idOf e (Dense.elem e.values) c = some i := hi
    unfold edgeParent at hi
    simp only [hs, Bool.false_eq_true, if_false] at hi
    obtain ⟨v, hv, rfl⟩ := Option.map_eq_some_iff.1 hi
    have := he.2 c hc v hv
    show (op.idOf v).toNat < e.parentSize
    omega

theorem arrData_ok (op : GroupOp V P A R E S β) {e : GEdge (Arr V)} {pargs cargs : List (AArg V)}
    (he : EdgeOk op.idOf e e.values.elem e.values.size) : (arrData op.idOf e pargs cargs).Ok := by
  intro c i hc hi
  cases hs : e.isSplit with
  | true => exact (((edge_ranges op.idOf he hs _ _).1.parent c i).1 hi).1
  | false =>
    unfold EdgeOk at he
    simp only [hs, Bool.false_eq_true, if_false] at he
    have hi : edgeParent op.idOf e e.values.elem c = some i := hi
    unfold edgeParent at hi
    simp only [hs, Bool.false_eq_true, if_false] at hi
    obtain ⟨v, hv, rfl⟩ := Option.map_eq_some_iff.1 hi
    have := he.2 c hc v hv
    show (op.idOf v).toNat < e.parentSize
    omega

/-- C69: a group operation over dense arrays gives, for a mapping as for split points, what a separate fresh accumulator
gives for every group, or an error iff a valid group has one; it reads nothing outside of the arrays. -/
theorem dense_group_op {op : GroupOp V P A R E S β} (h : Lawful op rel) (mem : Nat → β) {e : GEdge (DArr V)}
    {pargs cargs : List (Arg V)} (hv : e.values.Valid)
    (he : EdgeOk op.idOf e (Dense.elem e.values) e.values.values.length)
    (hp : DArgs e.parentSize pargs) (hc : DArgs e.childSize cargs) :
    op.Correct (denseData op.idOf e pargs cargs) goodDense (op.denseApply mem e pargs cargs) := by
  have hd := denseData_ok op (pargs := pargs) (cargs := cargs) he
  unfold GroupOp.denseApply
  rw [if_neg (by
    rw [Bool.not_eq_true, List.any_eq_false]
    intro a ha
    simp [(hp a ha).2]), if_neg (by
    rw [Bool.not_eq_true, List.any_eq_false]
    intro a ha
    simp [(hc a ha).2])]
  cases hs : e.isSplit with
  | true =>
    obtain ⟨hr, h0⟩ := edge_ranges op.idOf he hs (denseRow pargs) (denseRow cargs)
    unfold EdgeOk at he
    rw [if_pos hs] at he
    simp only [if_true]
    unfold GroupOp.denseSplits
    rw [if_neg (by simp [he.1])]
    obtain ⟨ps, p1, p2⟩ := dense_iterate_from_zero hp (Nat.le_refl _)
    rw [p1]
    simp only [Option.bind_eq_bind, Option.bind_some]
    have hps : validOf ps = (denseData op.idOf e pargs cargs).parents := by
      rw [validOf_eq p2, parents_eq]
      rfl
    have hlt : ∀ x ∈ ps, x.1 < e.parentSize := by
      intro x hx
      have := List.mem_map_of_mem (f := Row.meaning) hx
      rw [p2] at this
      obtain ⟨i, hi, hx⟩ := List.mem_map.1 this
      have h1 := congrArg Prod.fst hx
      have h2 := (List.mem_range'_1.1 hi).2
      simp only [Row.meaning] at h1
      omega
    obtain ⟨st, s1, s2⟩ := denseGroups_ok h hr (splits := e.values.values) (by
      intro i hi
      exact split_ok op (he.2.1 i hi) (h0 i hi)) hc rfl ps ⟨op.empty, [], []⟩ hlt rfl
    rw [s1]
    simp only [Option.bind_some]
    rw [hps] at s2
    exact shared_dense h hd s2 mem
  | false =>
    simp only [Bool.false_eq_true, if_false]
    unfold EdgeOk at he
    simp only [hs, Bool.false_eq_true, if_false] at he
    refine denseMapping_correct mem hd hp hc rfl rfl hv he.1 (fun c hc v hv => (he.2 c hc v hv).1) ?_
    show edgeParent _ _ _ = _
    funext c
    unfold edgeParent
    rw [hs]
    rfl

/-- C69: arguments of the wrong size are reported. -/
theorem dense_group_op_size (op : GroupOp V P A R E S β) (mem : Nat → β) (e : GEdge (DArr V)) (pargs cargs : List (Arg V))
    (h : (∃ a ∈ pargs, a.arr.values.length ≠ e.parentSize) ∨ ∃ a ∈ cargs, a.arr.values.length ≠ e.childSize) :
    op.denseApply mem e pargs cargs = some (.error .sizeMismatch) := by
  unfold GroupOp.denseApply
  rcases h with ⟨a, ha, h⟩ | ⟨a, ha, h⟩
  · rw [if_pos (by rw [List.any_eq_true]; exact ⟨a, ha, by simpa using h⟩)]
  · split
    · rfl
    · rw [if_pos (by rw [List.any_eq_true]; exact ⟨a, ha, by simpa using h⟩)]

theorem dense_elem {a : Arr V} (h : isDenseForm a = true) : a.elem = Dense.elem a.data := by
  have h := of_decide_eq_true h
  funext i
  unfold Arr.elem
  rw [h]

theorem dense_size {a : Arr V} (hv : a.Valid) (h : isDenseForm a = true) : a.data.values.length = a.size := by
  have h := of_decide_eq_true h
  have := hv.2.2
  rw [h] at this
  exact this.1

theorem dense_args {n : Nat} {args : List (AArg V)} (h : ArgsOk n args) (hd : args.all (fun a => isDenseForm a.arr) = true) :
    DArgs n (args.map AArg.denseData) ∧ denseRow (args.map AArg.denseData) = row args := by
  rw [List.all_eq_true] at hd
  refine ⟨?_, ?_⟩
  · intro a ha
    obtain ⟨b, hb, rfl⟩ := List.mem_map.1 ha
    obtain ⟨h1, h2⟩ := h b hb
    refine ⟨h1.1, ?_⟩
    show b.arr.data.values.length = n
    rw [dense_size h1 (hd b hb), h2]
  · funext i
    unfold denseRow row
    have h1 : (args.map AArg.denseData).all (fun a => a.optional || (Dense.elem a.arr i).isSome) =
        args.all (fun a => a.optional || (a.arr.elem i).isSome) := by
      rw [List.all_map]
      rw [Bool.eq_iff_iff, List.all_eq_true, List.all_eq_true]
      constructor
      · intro hh a ha
        have := hh a ha
        simpa [AArg.denseData, dense_elem (hd a ha)] using this
      · intro hh a ha
        have := hh a ha
        simpa [AArg.denseData, dense_elem (hd a ha)] using this
    rw [h1, List.map_map]
    have h2 : args.map ((fun a => Dense.elem a.arr i) ∘ AArg.denseData) = args.map fun a => a.arr.elem i := by
      apply List.map_congr_left
      intro a ha
      simp [AArg.denseData, dense_elem (hd a ha)]
    rw [h2]

theorem correct_map {op : GroupOp V P A R E S β} {d : Rows V} {α γ : Type} {good : α → List (Option β) → Prop}
    {good' : γ → List (Option β) → Prop} (f : α → γ) (hf : ∀ x l, good x l → good' (f x) l)
    {r : Option (Except (GErr E) α)} (h : op.Correct d good r) : op.Correct d good' (r.map fun x => x.map f) := by
  refine ⟨fun hh => ?_, fun hh => ?_⟩
  · obtain ⟨e, he⟩ := h.1 hh
    exact ⟨e, by rw [he]; rfl⟩
  · obtain ⟨x, h1, h2⟩ := h.2 hh
    exact ⟨f x, by rw [h1]; rfl, hf _ _ h2⟩

theorem canon_inc (op : GroupOp V P A R E S β) (hk : op.kind ≠ .aggregator) {d : Rows V} {pts : Nat → Nat}
    (hr : Ranges d pts) : ((op.canon d).map Prod.fst).Pairwise (· < ·) := by
  rw [canon_keys, if_neg hk, List.pairwise_flatMap]
  refine ⟨fun x _ => inc_kids d x.1, ?_⟩
  have hp := inc_parents d
  rw [List.pairwise_map] at hp
  refine hp.imp ?_
  intro a b hab x hx y hy
  obtain ⟨u, hu, rfl⟩ := List.mem_map.1 hx
  obtain ⟨w, hw, rfl⟩ := List.mem_map.1 hy
  have h1 := (hr.parent u.1 a.1).1 (mem_kids.1 hu).2.1
  have h2 := (hr.parent w.1 b.1).1 (mem_kids.1 hw).2.1
  have := hr.mono' (show a.1 + 1 ≤ b.1 by omega) (by omega)
  omega

theorem canon_length (op : GroupOp V P A R E S β) (hk : op.kind ≠ .aggregator) (d : Rows V) :
    (op.canon d).length ≤ (validRows d.crow 0 d.nc).length := by
  have hsub : (op.canon d).map Prod.fst ⊆ (validRows d.crow 0 d.nc).map Prod.fst := by
    intro c hc
    rw [canon_keys, if_neg hk] at hc
    obtain ⟨x, _, hx⟩ := List.mem_flatMap.1 hc
    obtain ⟨y, hy, rfl⟩ := List.mem_map.1 hx
    obtain ⟨h1, _, h3⟩ := mem_kids.1 hy
    refine List.mem_map_of_mem (f := Prod.fst) (a := y) ?_
    unfold validRows
    rw [List.mem_filterMap]
    exact ⟨y.1, List.mem_range'_1.2 (by omega), by rw [h3]; rfl⟩
  have := (List.subperm_of_subset (canon_nodup op d) hsub).length_le
  simpa using this

/-- C69: the same for arrays in any form (dense, sparse, constant, with or without a value for missing ids), whatever algorithm
is chosen for their density, for every iteration order of the hash map. -/
theorem array_group_op {op : GroupOp V P A R E S β} (h : Lawful op rel) {env : Env V S β} (hpe : PtrEq env.pe)
    (horder : ∀ l, (env.order l).Perm l) (useDense : Bool) {e : GEdge (Arr V)} {pargs cargs : List (AArg V)}
    (hv : e.values.Valid) (he : EdgeOk op.idOf e e.values.elem e.values.size)
    (hdense : e.isSplit = true → isDenseForm e.values = true) (hp : ArgsOk e.parentSize pargs)
    (hc : ArgsOk e.childSize cargs) (hz : op.kind = .aggregator → cargs = [] → ZeroOk op rel) :
    op.Correct (arrData op.idOf e pargs cargs) goodArr (op.apply env useDense e pargs cargs) := by
  have hd := arrData_ok op (pargs := pargs) (cargs := cargs) he
  unfold GroupOp.apply
  split
  · rename_i hcond
    simp only [Bool.and_eq_true] at hcond
    obtain ⟨⟨⟨_, h1⟩, h2⟩, h3⟩ := hcond
    obtain ⟨p1, p2⟩ := dense_args hp h2
    obtain ⟨c1, c2⟩ := dense_args hc h3
    have hdata : arrData op.idOf e pargs cargs = denseData op.idOf ⟨e.isSplit, e.parentSize, e.childSize, e.values.data⟩
        (pargs.map AArg.denseData) (cargs.map AArg.denseData) := by
      unfold arrData denseData
      rw [p2, c2, dense_elem h1]
      rfl
    rw [hdata]
    refine correct_map _ (fun x l hg => ofDense_good hg) (dense_group_op h env.rmem hv.1 ?_ p1 c1)
    rw [dense_elem h1, ← dense_size hv h1] at he
    exact he
  · rw [if_neg (by
      rw [Bool.not_eq_true, List.any_eq_false]
      intro a ha
      simp [(hp a ha).2]), if_neg (by
      rw [Bool.not_eq_true, List.any_eq_false]
      intro a ha
      simp [(hc a ha).2])]
    cases hs : e.isSplit with
    | true =>
      simp only [if_true]
      have hdn := hdense hs
      obtain ⟨hr, h0⟩ := edge_ranges op.idOf he hs (row pargs) (row cargs)
      unfold EdgeOk at he
      rw [if_pos hs] at he
      have hpoints : Points op (arrData op.idOf e pargs cargs) (fun i => (pt op.idOf e.values.elem i).toNat)
          e.values.data.values := by
        refine ⟨?_, ?_⟩
        · rw [dense_size hv hdn, he.1]
          rfl
        · intro i hi
          obtain ⟨v, hvi⟩ := Option.isSome_iff_exists.1 (he.2.1 i hi)
          have hpos := h0 i hi
          have hpt : pt op.idOf e.values.elem i = op.idOf v := by
            unfold pt
            rw [hvi]
            rfl
          refine ⟨v, ?_, by rw [hpt] at hpos ⊢; omega⟩
          rw [dense_elem hdn] at hvi
          unfold Dense.elem at hvi
          split at hvi
          · exact hvi
          · cases hvi
      unfold GroupOp.splits
      obtain ⟨cu, u1, u2⟩ := gutil_ok env hpe hc
      rw [u1]
      simp only [Option.bind_eq_bind, Option.bind_some]
      split
      · rename_i hcond
        obtain ⟨hk, hpn, _⟩ := hcond
        subst hpn
        exact verySplits_correct h hk env (fun _ => rfl) hr hpoints u2 rfl
      · obtain ⟨pu, q1, q2⟩ := gutil_ok env hpe hp
        rw [q1]
        simp only [Option.bind_some]
        rw [q2.simple]
        simp only [Option.bind_some, natIds_cast]
        have hps : validRows (row pargs) 0 e.parentSize = (arrData op.idOf e pargs cargs).parents :=
          (parents_eq (arrData op.idOf e pargs cargs)).symm
        have hlt : ∀ x ∈ validRows (row pargs) 0 e.parentSize, x.1 < e.parentSize := by
          intro x hx
          rw [hps] at hx
          exact (mem_parents.1 hx).1
        split
        · rename_i hk
          obtain ⟨st, s1, s2⟩ := aggSplits_ok h hk hr hpoints.reads u2 rfl (hz hk) _ ⟨op.empty, [], []⟩ hlt rfl
          rw [s1]
          simp only [Option.bind_some]
          rw [hps] at s2
          have := shared_dense h hd s2 env.rmem
          have hos : op.outSize (arrData op.idOf e pargs cargs) = e.parentSize := by
            unfold GroupOp.outSize; rw [if_pos hk]; rfl
          rw [hos] at this
          exact checked_map _ (fun x l hg => ofDense_good hg) this
        · rename_i hk
          have hos : op.outSize (arrData op.idOf e pargs cargs) = e.childSize := by
            unfold GroupOp.outSize; rw [if_neg hk]; rfl
          split
          · obtain ⟨st, s1, s2⟩ := denseFormSplits_ok h hr hpoints.reads u2 rfl _ ⟨op.empty, [], []⟩ hlt rfl
            rw [s1]
            simp only [Option.bind_some]
            rw [hps] at s2
            have := shared_dense h hd s2 env.rmem
            rw [hos] at this
            exact checked_map _ (fun x l hg => ofDense_good hg) this
          · obtain ⟨st, X, s1, s2, s3, s4⟩ := sparseSplits_ok h hk hr hpoints.reads u2 rfl _ ⟨op.empty, [], 0⟩ hlt
            rw [s1]
            simp only [Option.bind_some]
            rw [hps] at s3 s4
            have s3 : Adds op.opt 0 (op.canon (arrData op.idOf e pargs cargs)) X := s3
            rw [h.fresh, Bool.false_or] at s4
            refine checked_correct s4 ?_
            rw [s2, List.nil_append]
            obtain ⟨x, x1, x2⟩ := buildSparse_spec op env s3 (canon_inc op hk hr) (n := e.childSize) (cnt := cu.estimate) (by
                intro y hy
                have := canon_bound op _ y hy
                rwa [hos] at this) (Nat.le_trans (canon_length op hk _) u2.estimate.1)
            rw [← hos, expected_of hd (canon_nodup op _) (fun _ => Iff.rfl)] at x2
            rw [hos] at x2
            exact ⟨x, x1, by rw [hos]; exact x2⟩
    | false =>
      simp only [Bool.false_eq_true, if_false]
      unfold EdgeOk at he
      simp only [hs, Bool.false_eq_true, if_false] at he
      have hpar : edgeParent op.idOf e e.values.elem = fun c => (e.values.elem c).map fun v => (op.idOf v).toNat := by
        funext c
        unfold edgeParent
        rw [hs]
        rfl
      unfold GroupOp.mappings
      obtain ⟨mu, u1, u2⟩ := gutil_ok env hpe (size := e.childSize) (args := ⟨false, e.values⟩ :: cargs) (by
        intro a ha
        rcases List.mem_cons.1 ha with rfl | ha
        · exact ⟨hv, he.1⟩
        · exact hc a ha)
      rw [u1]
      simp only [Option.bind_eq_bind, Option.bind_some]
      split
      · rename_i hcond
        obtain ⟨hk, hpn, _⟩ := hcond
        subst hpn
        exact veryMapping_correct (d := arrData op.idOf e [] cargs) hk env horder hd (fun _ => rfl) u2 rfl
          (fun c hc v hv => (he.2 c hc v hv).1) hpar
      · obtain ⟨pu, q1, q2⟩ := gutil_ok env hpe hp
        rw [q1]
        exact mapping_correct (d := arrData op.idOf e pargs cargs) env hd q2 u2 rfl rfl
          (fun c hc v hv => (he.2 c hc v hv).1) hpar

/-- C69: arguments of the wrong size are reported, if not all arrays are dense (for dense ones see `dense_group_op_size`). -/
theorem array_group_op_size (op : GroupOp V P A R E S β) (env : Env V S β) (useDense : Bool) (e : GEdge (Arr V))
    (pargs cargs : List (AArg V)) (hp : ∀ a ∈ pargs, a.arr.Valid) (hc : ∀ a ∈ cargs, a.arr.Valid)
    (h : (∃ a ∈ pargs, a.arr.size ≠ e.parentSize) ∨ ∃ a ∈ cargs, a.arr.size ≠ e.childSize) :
    op.apply env useDense e pargs cargs = some (.error .sizeMismatch) := by
  unfold GroupOp.apply
  split
  · rename_i hcond
    simp only [Bool.and_eq_true] at hcond
    obtain ⟨⟨_, h2⟩, h3⟩ := hcond
    rw [List.all_eq_true] at h2 h3
    rw [dense_group_op_size]
    · rfl
    · rcases h with ⟨a, ha, h⟩ | ⟨a, ha, h⟩
      · exact Or.inl ⟨a.denseData, List.mem_map_of_mem ha, by
          show a.arr.data.values.length ≠ _
          rw [dense_size (hp a ha) (h2 a ha)]; exact h⟩
      · exact Or.inr ⟨a.denseData, List.mem_map_of_mem ha, by
          show a.arr.data.values.length ≠ _
          rw [dense_size (hc a ha) (h3 a ha)]; exact h⟩
  · rcases h with ⟨a, ha, h⟩ | ⟨a, ha, h⟩
    · rw [if_pos (by rw [List.any_eq_true]; exact ⟨a, ha, by simpa using h⟩)]
    · split
      · rfl
      · rw [if_pos (by rw [List.any_eq_true]; exact ⟨a, ha, by simpa using h⟩)]

/-! ## One group -/

theorem one_lookup (op : GroupOp V P A R E S β) (hk : op.kind ≠ .aggregator) (p : P) (crow : Nat → Option (List (Option V)))
    (nc : Nat) : ((op.groupOut 0 p (allRows crow nc) op.empty).map Prod.fst).Pairwise (· < ·) ∧
      (∀ x ∈ op.groupOut 0 p (allRows crow nc) op.empty, x.1 < nc) := by
  have hkeys := groupOut_keys op 0 p (allRows crow nc) op.empty
  rw [if_neg hk] at hkeys
  refine ⟨?_, ?_⟩
  · rw [hkeys]
    exact inc_filterMap _ (by
      intro c x h
      obtain ⟨a, _, rfl⟩ := Option.map_eq_some_iff.1 h
      rfl) _ List.pairwise_lt_range
  · intro x hx
    have := List.mem_map_of_mem (f := Prod.fst) hx
    rw [hkeys] at this
    obtain ⟨y, hy, h1⟩ := List.mem_map.1 this
    obtain ⟨c, hc, h2⟩ := List.mem_filterMap.1 hy
    obtain ⟨a, _, rfl⟩ := Option.map_eq_some_iff.1 h2
    rw [← h1]
    exact List.mem_range.1 hc

theorem allRows_eq (crow : Nat → Option (List (Option V))) (nc : Nat) : allRows crow nc = validRows crow 0 nc := by
  unfold allRows validRows
  rw [Nat.sub_zero, List.range_eq_range']

theorem one_checked {op : GroupOp V P A R E S β} {p : P} {crow : Nat → Option (List (Option V))} {nc : Nat} {s : S}
    {α : Type} {good : α → List (Option β) → Prop} {r : Option (ScalarRes R α)}
    (he : err op.acc s = op.fails p (allRows crow nc))
    (hr : ∃ x, r = some x ∧ op.OneResult nc p crow good x) : op.OneGroup nc p crow good (op.checked s r) := by
  unfold GroupOp.OneGroup
  rw [← he]
  unfold err GroupOp.checked
  cases hs : op.acc.status s with
  | some e => exact ⟨fun _ => ⟨e, rfl⟩, fun hh => by cases hh⟩
  | none =>
    refine ⟨fun hh => (by cases hh), fun _ => ?_⟩
    obtain ⟨x, h1, h2⟩ := hr
    exact ⟨x, by simp [h1], h2⟩

/-- C69: with a scalar edge all rows are one group; dense arrays. -/
theorem dense_group_scalar (op : GroupOp V P A R E S β) (mem : Nat → β) {nc : Nat} (p : P) {cargs : List (Arg V)}
    (hc : DArgs nc cargs) : op.OneGroup nc p (denseRow cargs) goodDense (op.denseScalar mem nc p cargs) := by
  unfold GroupOp.denseScalar
  rw [if_neg (by
    rw [Bool.not_eq_true, List.any_eq_false]
    intro a ha
    simp [(hc a ha).2])]
  obtain ⟨rs, q1, q2⟩ := dense_iterate hc (Nat.zero_le _) (Nat.le_refl _)
  rw [q1]
  simp only [Option.bind_eq_bind, Option.bind_some]
  have hv : validOf rs = allRows (denseRow cargs) nc := by rw [validOf_eq q2, allRows_eq]; rfl
  rw [denseRows_eq, hv]
  have hg := group_run op 0 p (allRows (denseRow cargs) nc) ⟨op.empty, [], []⟩ rfl
  dsimp only at hg
  cases hk : op.kind with
  | aggregator =>
    rw [rows_run, hk]
    dsimp only
    refine one_checked ?_ ⟨_, rfl, ?_⟩
    · simp [GroupOp.fails, GroupOp.groupState, hk, Acc.after]
    · simp [GroupOp.OneResult, hk, Acc.aggregate, Acc.after]
  | partial' =>
    have hna : op.kind ≠ .aggregator := by simp [hk]
    dsimp only
    rw [hg]
    obtain ⟨o1, o2⟩ := one_lookup op hna p (denseRow cargs) nc
    obtain ⟨x, x1, x2⟩ := buildDense_spec op mem (nodup_of_inc o1) o2
    refine one_checked rfl ⟨.array x, ?_, ?_⟩
    · dsimp only; rw [List.nil_append, x1]; rfl
    · exact ⟨hna, x2⟩
  | full =>
    have hna : op.kind ≠ .aggregator := by simp [hk]
    dsimp only
    rw [hg]
    obtain ⟨o1, o2⟩ := one_lookup op hna p (denseRow cargs) nc
    obtain ⟨x, x1, x2⟩ := buildDense_spec op mem (nodup_of_inc o1) o2
    refine one_checked rfl ⟨.array x, ?_, ?_⟩
    · dsimp only; rw [List.nil_append, x1]; rfl
    · exact ⟨hna, x2⟩

/-- C69: with a scalar edge all rows are one group; arrays in any form. -/
theorem array_group_scalar {op : GroupOp V P A R E S β} (h : Lawful op rel) {env : Env V S β} (hpe : PtrEq env.pe)
    (useDense : Bool) {nc : Nat} (p : P) {cargs : List (AArg V)} (hc : ArgsOk nc cargs)
    (hz : op.kind = .aggregator → cargs = [] → ZeroOk op rel) :
    op.OneGroup nc p (row cargs) goodArr (op.scalar env useDense nc p cargs) := by
  unfold GroupOp.scalar
  split
  · rename_i hcond
    simp only [Bool.and_eq_true] at hcond
    obtain ⟨c1, c2⟩ := dense_args hc hcond.2
    have hd := dense_group_scalar op env.rmem p c1
    rw [c2] at hd
    refine ⟨fun hf => ?_, fun hf => ?_⟩
    · obtain ⟨e, he⟩ := hd.1 hf
      exact ⟨e, by rw [he]; rfl⟩
    · obtain ⟨x, h1, h2⟩ := hd.2 hf
      rw [h1]
      cases x with
      | value r => exact ⟨.value r, rfl, h2⟩
      | array x => exact ⟨.array (.ofDense x), rfl, h2.1, ofDense_good h2.2⟩
  · rw [if_neg (by
      rw [Bool.not_eq_true, List.any_eq_false]
      intro a ha
      simp [(hc a ha).2])]
    obtain ⟨u, u1, u2⟩ := gutil_ok env hpe hc
    rw [u1]
    simp only [Option.bind_eq_bind, Option.bind_some]
    obtain ⟨cs, i1, i2, i3⟩ := u2.iterate 0 nc (Nat.zero_le _) (Nat.le_refl _)
    rw [← allRows_eq] at i3
    by_cases hk : op.kind = .aggregator
    · rw [if_pos hk, i1]
      simp only [Option.bind_some]
      have hsim := aggregateCalls_sim h (cs := cs) (fun c hm => by
        rcases i2 c hm with h1 | ⟨h1, h2⟩
        · exact Or.inl h1
        · exact Or.inr ⟨h1, hz hk h2⟩) (s := op.acc.reset p op.empty) (s' := op.acc.reset p op.empty) ⟨h.refl _, rfl⟩
      rw [i3] at hsim
      have hfold : (castIds (allRows (row cargs) nc)).foldl (fun s x => op.add x.1 x.2 s) (op.acc.reset p op.empty) =
          op.acc.after p ((allRows (row cargs) nc).map op.child) op.empty := by
        unfold castIds Acc.after
        rw [List.foldl_map, List.foldl_map]
        rfl
      rw [hfold] at hsim
      have hnf : op.kind ≠ .full := by simp [hk]
      refine one_checked ?_ ⟨_, rfl, ?_⟩
      · rw [h.get_err hnf _ _ hsim.1 hsim.2]
        simp [GroupOp.fails, GroupOp.groupState, hk]
      · refine ⟨hk, ?_⟩
        rw [(h.get hnf _ _ hsim.1).1]
        rfl
    · rw [if_neg hk]
      simp only [GUtil.iterateFn, i1, Option.bind_eq_bind, Option.bind_some, i3, natIds_cast]
      obtain ⟨o1, o2⟩ := one_lookup op hk p (row cargs) nc
      split
      · rename_i hcond
        have hg := group_run op 0 p (allRows (row cargs) nc) ⟨op.empty, [], []⟩ rfl
        dsimp only at hg
        have hge : ∀ st : GState S R, op.groupEnd 0 st = st := by
          intro st; unfold GroupOp.groupEnd; rw [hcond.1]
        rw [hge] at hg
        rw [hg]
        obtain ⟨x, x1, x2⟩ := buildDense_spec op env.rmem (nodup_of_inc o1) o2
        refine one_checked rfl ⟨.array (.ofDense x), ?_, hk, ofDense_good x2⟩
        dsimp only
        rw [List.nil_append, x1]
        rfl
      · obtain ⟨X, g1, g2⟩ := sparseGroup_ok op hk 0 p (allRows (row cargs) nc) ⟨op.empty, [], 0⟩
        dsimp only at g1 g2
        rw [g1]
        obtain ⟨x, x1, x2⟩ := buildSparse_spec op env g2 o1 (n := nc) (cnt := u.estimate) o2 (by
          rw [groupOut_length op hk, allRows_eq]
          exact u2.estimate.1)
        refine one_checked rfl ⟨.array x, ?_, hk, x2⟩
        dsimp only
        rw [List.nil_append, x1]
        rfl

/-! ## The representation does not matter -/

theorem kids_congr {d d' : Rows V} (hnc : d.nc = d'.nc) (hc : ∀ c, c < d.nc → d.crow c = d'.crow c ∧ d.parentOf c = d'.parentOf c)
    (i : Nat) : d.kids i = d'.kids i := by
  unfold Rows.kids
  rw [← hnc]
  apply List.filterMap_congr
  intro c hm
  obtain ⟨h1, h2⟩ := hc c (List.mem_range.1 hm)
  rw [h1, h2]

/-- C69: two group operations with the same elements and the same parents - split points or mapping, arrays in any form, with
any environment - have the same result: both an error or arrays with the same elements. -/
theorem group_op_representation {op : GroupOp V P A R E S β} (h : Lawful op rel) {env env' : Env V S β} (hpe : PtrEq env.pe)
    (hpe' : PtrEq env'.pe) (horder : ∀ l, (env.order l).Perm l) (horder' : ∀ l, (env'.order l).Perm l) (u u' : Bool)
    {e e' : GEdge (Arr V)} {pargs cargs pargs' cargs' : List (AArg V)}
    (hv : e.values.Valid) (he : EdgeOk op.idOf e e.values.elem e.values.size)
    (hdense : e.isSplit = true → isDenseForm e.values = true) (hp : ArgsOk e.parentSize pargs)
    (hc : ArgsOk e.childSize cargs) (hz : op.kind = .aggregator → cargs = [] ∨ cargs' = [] → ZeroOk op rel)
    (hv' : e'.values.Valid) (he' : EdgeOk op.idOf e' e'.values.elem e'.values.size)
    (hdense' : e'.isSplit = true → isDenseForm e'.values = true) (hp' : ArgsOk e'.parentSize pargs')
    (hc' : ArgsOk e'.childSize cargs') (hnp : e.parentSize = e'.parentSize) (hnc : e.childSize = e'.childSize)
    (hprow : ∀ i, i < e.parentSize → row pargs i = row pargs' i)
    (hcrow : ∀ c, c < e.childSize → row cargs c = row cargs' c)
    (hpar : ∀ c, c < e.childSize → edgeParent op.idOf e e.values.elem c = edgeParent op.idOf e' e'.values.elem c) :
    (∃ x x', op.apply env u e pargs cargs = some (.error (.acc x)) ∧ op.apply env' u' e' pargs' cargs' = some (.error (.acc x'))) ∨
    ∃ x x', op.apply env u e pargs cargs = some (.ok x) ∧ op.apply env' u' e' pargs' cargs' = some (.ok x') ∧
      x.elems = x'.elems := by
  have r := array_group_op h hpe horder u hv he hdense hp hc (fun hk hh => hz hk (Or.inl hh))
  have r' := array_group_op h hpe' horder' u' hv' he' hdense' hp' hc' (fun hk hh => hz hk (Or.inr hh))
  have hkids := kids_congr (d := arrData op.idOf e pargs cargs) (d' := arrData op.idOf e' pargs' cargs') hnc
    (fun c hc => ⟨hcrow c hc, hpar c hc⟩)
  have hany : op.anyFails (arrData op.idOf e pargs cargs) ↔ op.anyFails (arrData op.idOf e' pargs' cargs') := by
    unfold GroupOp.anyFails
    constructor
    · rintro ⟨i, a, h1, h2, h3⟩
      have h1 : i < e.parentSize := h1
      exact ⟨i, a, by show i < e'.parentSize; omega, (hprow i h1).symm.trans h2, by rw [← hkids]; exact h3⟩
    · rintro ⟨i, a, h1, h2, h3⟩
      have h1 : i < e'.parentSize := h1
      exact ⟨i, a, by show i < e.parentSize; omega, (hprow i (by omega)).trans h2, by rw [hkids]; exact h3⟩
  by_cases hf : op.anyFails (arrData op.idOf e pargs cargs)
  · obtain ⟨x, hx⟩ := r.1 hf
    obtain ⟨x', hx'⟩ := r'.1 (hany.1 hf)
    exact Or.inl ⟨x, x', hx, hx'⟩
  · obtain ⟨x, hx, _, hg⟩ := r.2 hf
    obtain ⟨x', hx', _, hg'⟩ := r'.2 (fun hh => hf (hany.2 hh))
    refine Or.inr ⟨x, x', hx, hx', ?_⟩
    rw [hg, hg']
    have hos : op.outSize (arrData op.idOf e pargs cargs) = op.outSize (arrData op.idOf e' pargs' cargs') := by
      unfold GroupOp.outSize
      show (if _ then e.parentSize else e.childSize) = if _ then e'.parentSize else e'.childSize
      rw [hnp, hnc]
    rw [← hos]
    apply List.map_congr_left
    intro c hm
    have hm := List.mem_range.1 hm
    have hok := arrData_ok op (pargs := pargs) (cargs := cargs) he
    unfold GroupOp.expected
    unfold GroupOp.outSize at hm
    by_cases hk : op.kind = .aggregator
    · rw [if_pos hk] at hm
      rw [if_pos hk, if_pos hk, Option.bind_some, Option.bind_some, hkids]
      have : (arrData op.idOf e pargs cargs).prow c = (arrData op.idOf e' pargs' cargs').prow c := hprow c hm
      rw [this]
    · rw [if_neg hk] at hm
      have hpc : (arrData op.idOf e pargs cargs).parentOf c = (arrData op.idOf e' pargs' cargs').parentOf c := hpar c hm
      rw [if_neg hk, if_neg hk, ← hpc]
      cases hpo : (arrData op.idOf e pargs cargs).parentOf c with
      | none => rfl
      | some i =>
        have hi : i < e.parentSize := hok c i hm hpo
        have : (arrData op.idOf e pargs cargs).prow i = (arrData op.idOf e' pargs' cargs').prow i := hprow i hi
        rw [Option.bind_some, Option.bind_some, hkids, this]

end Verif.Group
