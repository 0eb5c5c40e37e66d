import Verif.Batched.SumLemmas

/-!
# C66: `BatchedForestEvaluator`
-/

namespace Verif.Batched
open Verif.Forest (Cond Tree Filter QT Fl Env Meta FErr Ctx Evaluator fromTrees compileForest i64 treeVal Sums TreeOk)
open Verif.Frames (Frame In InArr Scalar OutSlot Key Mem KeysOk look)

variable {M : Type}

theorem sums_valOf [Semiring M] {env : Env} {f : Filter} {ts : List (Tree Cond M)} (hp : ∀ t ∈ ts, Forest.Proper t) {y : M}
    (h : Sums (fun acc a w => acc + a * w) (Cond.eval env) f ts 0 y) : y = valOf env f ts := by
  have := Forest.sums_treeVal env f ts hp 0
  rw [zero_add] at this
  exact Forest.sums_unique h this

theorem valOf_flatten [Semiring M] (env : Env) (f : Filter) (cs : List (List (Tree Cond M))) :
    valOf env f cs.flatten = (cs.map (valOf env f)).sum := by
  induction cs with
  | nil => simp [valOf]
  | cons ts cs ih => rw [List.flatten_cons, valOf_append, ih, List.map_cons, List.sum_cons]

theorem computes_of_evalOk [Semiring M] {c : BCtx M} {required : List (Nat × QT)} {trees ts : List (Tree Cond M)} {m : Meta QT}
    (hm : fromTrees (Cond.sig c.ctx.osig) trees = .ok m) (hreq : required.Perm m.required) (ht : ∀ t ∈ trees, TreeOk t)
    (hsub : ∀ t ∈ ts, t ∈ trees) {groups : List Filter} {arrays : Arrays M} {inputSlots : List Nat} {n : Nat}
    (henv : ∀ i, i < n → Forest.EnvOk (rowEnv c arrays inputSlots i) ∧ Forest.NanOk (rowEnv c arrays inputSlots i) trees)
    {e : Evaluator M} (he : EvalOk c.ctx groups e ts) :
    Computes c required groups arrays inputSlots n (fun f i => valOf (rowEnv c arrays inputSlots i) f ts) e := by
  obtain ⟨r1, r2, -⟩ := (Forest.from_trees_accepts (Cond.sig c.ctx.osig) trees).2 m hm
  have hn : (required.map Prod.fst).Nodup := (hreq.map _).nodup_iff.2 r2
  have hmem : ∀ t ∈ trees, ∀ nd ∈ t.splits, ∀ s ∈ nd.cond.sig c.ctx.osig, s ∈ required := by
    intro t h nd hnd s hs
    exact hreq.mem_iff.2 ((r1 s.1 s.2).2 ⟨t, h, nd, hnd, hs⟩)
  intro i hi f hf
  have hread : ∀ x, readFrom c f x 0 required = none ∨
      readFrom c f x 0 required = rowRead c arrays inputSlots i x.2 x.1 := by
    intro x
    by_cases hx : x ∈ required
    · obtain ⟨j, hj⟩ := List.getElem?_of_mem hx
      right
      rw [readFrom_mem hn 0 j x hj, Nat.zero_add]
      exact hf j x hj
    · exact .inl (readFrom_none required 0 hx)
  have hef : ∀ id v, (frameEnv c required f).f id = some v → (rowEnv c arrays inputSlots i).f id = some v := by
    intro id v h
    simp only [frameEnv, rowEnv] at h ⊢
    rcases hread (id, .f32) with h' | h' <;> rw [h'] at h
    · cases h
    · exact h
  have hei : ∀ id v, (frameEnv c required f).i id = some v → (rowEnv c arrays inputSlots i).i id = some v := by
    intro id v h
    simp only [frameEnv, rowEnv] at h ⊢
    rcases hread (id, .i64) with h' | h' <;> rw [h'] at h
    · cases h
    · exact h
  obtain ⟨outs, o1, o2⟩ := he (frameEnv c required f)
    ⟨fun id v h => (henv i hi).1.f id v (hef id v h), fun id v h => (henv i hi).1.i id v (hei id v h)⟩
    (fun t h nd hnd id vs hc hv => (henv i hi).2 t (hsub t h) nd hnd id vs hc (hef id _ hv))
  refine ⟨outs, o1, fun g flt hg => ?_⟩
  obtain ⟨y, y1, y2⟩ := o2 g flt hg
  rw [y1]
  congr 1
  refine sums_valOf (fun t h => (ht t (hsub t h)).toProper) (sums_congr ?_ y2)
  intro t h nd hnd
  exact cond_eval_row hn hf (hmem t (hsub t h) nd hnd)

theorem inputCount_le {rs : List (Nat × QT)} {len : Nat} (h : ∀ r ∈ rs, r.1 < len) (a : Nat) (ha : a ≤ len) :
    (rs.map fun r => r.1 + 1).foldl max a ≤ len := by
  induction rs generalizing a with
  | nil => exact ha
  | cons r rs ih =>
    rw [List.map_cons, List.foldl_cons]
    exact ih (fun r hr => h r (by simp [hr])) _ (by have := h r (by simp); omega)

/-- C66: a forest is split into evaluators of about `optimal` splits, which are run one after another on the batch; every
output array gets, in every row, the sum over the trees selected by its filter on the inputs of that row — whatever
`optimal` is, in whatever representation the inputs come, and for dense and sparse outputs.  Nothing else is changed.  Partial:
proper trees, split points and inputs as in `forest_evaluator_partial`; if there are several evaluators, no output may be
stored in place of an input (see the counterexample). -/
theorem batched_forest_partial [Semiring M] (osig : Nat → List (Nat × QT)) {condEq : Cond → Cond → Bool}
    (hc : Forest.CondEqOk condEq) {o : Forest.Oracles} (ho : o.Ok) {trees : List (Tree Cond M)} {m : Meta QT}
    (hm : fromTrees (Cond.sig osig) trees = .ok m) (ht : ∀ t ∈ trees, TreeOk t) {groups : List Filter} (hne : groups ≠ [])
    (hd : Forest.Separate groups trees) (hs : ∀ t ∈ trees, ∀ n ∈ t.splits, n.cond.Safe ∧ n.cond.Basic osig)
    {required : List (Nat × QT)} (hreq : required.Perm m.required) {optimal : Int} (hopt : 0 < optimal)
    (hover : splitCount trees + optimal < 2 ^ 63 ∧ splitCount trees < 2 ^ 62) :
    ∃ bound, ∀ fuel, bound ≤ fuel → ∃ b, compileBatched ⟨osig, condEq, o, fuel⟩ optimal required trees groups = some (.ok b) ∧
      (splitCount trees ≤ optimal → b.evals.length = 1) ∧
      ∀ (c : BCtx M), c.ctx = ⟨osig, condEq, o, fuel⟩ → ∀ arrays inputSlots outputs rowCount n oracles,
        BatchOk c required groups arrays inputSlots outputs rowCount n →
        (∀ k, OracleOk c required arrays inputSlots outputs n (oracles k)) →
        (1 < b.evals.length → NotInPlace required inputSlots outputs) →
        (∀ i, i < n → Forest.EnvOk (rowEnv c arrays inputSlots i) ∧ Forest.NanOk (rowEnv c arrays inputSlots i) trees) →
        ∃ arrays', evalBatch c oracles b inputSlots outputs rowCount arrays = some (.ok arrays') ∧
          (∀ t, (∀ o ∈ outputs, o.id ≠ t) → arrays' t = arrays t) ∧
          ∀ (g : Nat) (o : OutSlot) (f : Filter), outputs[g]? = some o → groups[g]? = some f →
            (arrays' o.id).Valid ∧ (arrays' o.id).key = o.key ∧
            ∃ y : Nat → M, (arrays' o.id).elems = (List.range n).map (fun i => some (.out (y i))) ∧
              ∀ i, i < n → Sums (fun acc a w => acc + a * w) (Cond.eval (rowEnv c arrays inputSlots i)) f trees 0 (y i) := by
  obtain ⟨cnt, e1, e2, e3, e4, e5⟩ := evaluatorCount_ok (splitCount_nonneg trees) hopt hover.1
  -- the partial forests
  obtain ⟨cs, hcs, hflat, hone, hcomp⟩ : ∃ cs : List (List (Tree Cond M)), cs ≠ [] ∧ cs.flatten = trees ∧
      (splitCount trees ≤ optimal → cs.length = 1) ∧
      ∀ ctx : Ctx, ctx.osig = osig → ∀ es, compileAll ctx groups cs = some (.ok es) →
        createEvaluators ctx optimal trees groups = some (.ok es) := by
    by_cases h1 : cnt = 1
    · refine ⟨[trees], by simp, by simp, by simp, ?_⟩
      intro ctx hctx es hes
      rw [createEvaluators, e1]
      simp only [if_pos h1]
      rw [← hctx] at hm
      simp only [compileAll, hm] at hes
      cases hcf : compileForest ctx {} trees groups with
      | none => rw [hcf] at hes; cases hes
      | some r =>
        cases r with
        | error e => rw [hcf] at hes; cases hes
        | ok e => rw [hcf] at hes; simpa using hes
    · have hne' : trees ≠ [] := by
        rintro rfl
        have : splitCount ([] : List (Tree Cond M)) = 0 := rfl
        omega
      refine ⟨chunks ((splitCount trees + cnt - 1).tdiv cnt) trees [] 0, chunks_ne_nil _ hne',
        by rw [chunks_flatten, List.nil_append], fun h => absurd (e4 h) h1, ?_⟩
      intro ctx _ es hes
      rw [createEvaluators, e1]
      simp only [if_neg h1]
      have h0 := splitCount_nonneg trees
      simp only [i64]
      rw [if_pos (by omega)]
      exact hes
  have hsub : ∀ ts ∈ cs, ∀ t ∈ ts, t ∈ trees := by
    intro ts hts t h
    rw [← hflat]
    exact List.mem_flatten.2 ⟨ts, hts, h⟩
  obtain ⟨bound, hb⟩ := compileAll_ok osig hc ho hm ht hne hd hs cs hsub
  refine ⟨bound, fun fuel hf => ?_⟩
  obtain ⟨es, c1, c2⟩ := hb fuel hf
  have hlen : es.length = cs.length := c2.length_eq
  refine ⟨⟨required, groups.length, es⟩, ?_, fun h => by rw [← hone h]; exact hlen, ?_⟩
  · rw [compileBatched, hcomp _ rfl es c1]
  intro c hcc arrays inputSlots outputs rowCount n oracles hbo hor hnip henv
  rw [← hcc] at c2
  have hcm : fromTrees (Cond.sig c.ctx.osig) trees = .ok m := by rw [hcc]; exact hm
  -- what the evaluators compute
  obtain ⟨vals, hvdef⟩ : ∃ vals : List (Filter → Nat → M),
    vals = cs.map fun ts f i => valOf (rowEnv c arrays inputSlots i) f ts := ⟨_, rfl⟩
  have hvals : List.Forall₂ (fun e val => Computes c required groups arrays inputSlots n val e) es vals := by
    rw [hvdef, List.forall₂_map_right_iff]
    have : ∀ (es : List (Evaluator M)) (cs : List (List (Tree Cond M))), List.Forall₂ (EvalOk c.ctx groups) es cs →
        (∀ ts ∈ cs, ∀ t ∈ ts, t ∈ trees) → List.Forall₂ (fun e ts => Computes c required groups arrays inputSlots n
          (fun f i => valOf (rowEnv c arrays inputSlots i) f ts) e) es cs := by
      intro es cs h
      induction h with
      | nil => intro _; exact .nil
      | cons h1 _ ih =>
        intro hs
        exact .cons (computes_of_evalOk hcm hreq ht (hs _ (by simp)) henv h1) (ih fun ts hts => hs ts (by simp [hts]))
    exact this es cs c2 hsub
  -- the inputs
  obtain ⟨inputs, i1, i2, i3⟩ := mapM_inputs (inputSlots := inputSlots) (rs := required) fun r hr => by
    obtain ⟨s, h, -⟩ := hbo.inputs r hr
    exact ⟨s, h⟩
  have hcount : ¬ inputSlots.length < (⟨required, groups.length, es⟩ : Batched M).inputCount := by
    have := inputCount_le (rs := required) (len := inputSlots.length) (by
      intro r hr
      obtain ⟨s, h, -⟩ := hbo.inputs r hr
      exact (List.getElem?_eq_some_iff.1 h).1) 0 (by omega)
    unfold Batched.inputCount
    exact Nat.not_lt.2 this
  have hrc : rowCountOf rowCount inputs inputSlots arrays = some n := by
    rcases hbo.rows with h | ⟨h, h'⟩
    · rw [h]
      cases inputs <;> cases inputSlots <;> rfl
    · subst h
      cases hin : inputs with
      | nil =>
        have hr0 : required = [] := by
          rw [hin] at i2
          exact List.eq_nil_of_length_eq_zero i2.symm
        rcases h' with h' | ⟨s, h1, h2⟩
        · exact absurd hr0 h'
        · cases inputSlots with
          | nil => simp at h1
          | cons s' rest =>
            simp only [List.getElem?_cons_zero, Option.some.injEq] at h1
            subst h1
            simp only [rowCountOf, h2]
      | cons a rest =>
        have hr0 : ∃ r, required[0]? = some r := ⟨_, List.getElem?_eq_getElem (by rw [← i2, hin]; simp)⟩
        obtain ⟨r, hr⟩ := hr0
        have ha := i3 0 r hr
        obtain ⟨s, h1, -, h3, -⟩ := hbo.inputs r (List.mem_of_getElem? hr)
        rw [hin, h1] at ha
        simp only [List.getElem?_cons_zero, Option.some.injEq] at ha
        subst ha
        simp only [rowCountOf, h3]
  -- one evaluator
  have hrun : ∀ k e val arrs, (∀ r ∈ required, ∀ s, inputSlots[r.1]? = some s → arrs s = arrays s) →
      Computes c required groups arrays inputSlots n val e →
      ∃ arrays', runEvaluator c ⟨required, groups.length, es⟩ inputs outputs (some n) (oracles k) e arrs =
          some (.ok arrays') ∧
        (∀ t, (∀ o ∈ outputs, o.id ≠ t) → arrays' t = arrs t) ∧ OutsHold n val outputs groups arrays' := by
    intro k e val arrs hg hcv
    exact runEvaluator_ok (b := ⟨required, groups.length, es⟩) hbo rfl ⟨i2, i3⟩ hg (hor k) hcv
  -- all evaluators
  have hall : ∃ arrays', evalBatch c oracles ⟨required, groups.length, es⟩ inputSlots outputs rowCount arrays =
        some (.ok arrays') ∧
      OutsHold n (fun f i => (vals.map fun val => val f i).sum) outputs groups arrays' ∧
      ∀ t, (∀ o ∈ outputs, o.id ≠ t) → arrays' t = arrays t := by
    rw [evalBatch, if_neg hcount]
    simp only [i1, hrc]
    clear hvdef
    cases hvals with
    | nil => simp at hlen; exact absurd hlen.symm (by simpa using hcs)
    | @cons e val rest vrest h1 h2 =>
      obtain ⟨arrays1, r1, r2, r3⟩ := hrun 0 e val arrays (fun _ _ _ _ => rfl) h1
      cases rest with
      | nil =>
        cases h2
        refine ⟨arrays1, r1, ?_, r2⟩
        simpa using r3
      | cons e' rest =>
        have hnp := hnip (by simp)
        have hgood : ∀ arrs arrs' : Arrays M, (∀ r ∈ required, ∀ s, inputSlots[r.1]? = some s → arrs s = arrays s) →
            (∀ t, (∀ o ∈ outputs, o.id ≠ t) → arrs' t = arrs t) →
            ∀ r ∈ required, ∀ s, inputSlots[r.1]? = some s → arrs' s = arrays s := by
          intro arrs arrs' h h' r hr s hs
          rw [h' s fun o ho => hnp r hr s hs o ho, h r hr s hs]
        obtain ⟨arrays', f1, f2, f3⟩ := runRest_ok (oracles := oracles) hbo.nodup hrun hgood (e' :: rest) vrest 1 val
          (outputs.map fun o => arrays1 o.id) arrays1 (by simp) h2 (sumsHold_start outputs groups hbo.groups_length r3)
          (hgood _ _ (fun _ _ _ _ => rfl) r2)
        refine ⟨arrays', ?_, by simpa using f2, fun t ht => by rw [f3 t ht, r2 t ht]⟩
        simp only [r1]
        exact f1
  obtain ⟨arrays', a1, a2, a3⟩ := hall
  refine ⟨arrays', a1, a3, ?_⟩
  intro g o f hgo hgf
  have hh := a2 g o f hgo hgf
  obtain ⟨v1, v2⟩ := holds_elems hh
  refine ⟨v1, by rw [hh.1, OutSlot.key, hbo.types o (List.mem_of_getElem? hgo)], _, v2, ?_⟩
  intro i hi
  have := Forest.sums_treeVal (rowEnv c arrays inputSlots i) f trees (fun t h => (ht t h).toProper) 0
  have hval : (vals.map fun val => val f i).sum = valOf (rowEnv c arrays inputSlots i) f trees := by
    rw [← hflat, valOf_flatten, hvdef, List.map_map]
    rfl
  beta_reduce
  rw [hval]
  rw [zero_add] at this
  exact this

/-- C66: `EvalBatch` succeeds only if all inputs of the forest are given, have the types the forest requires and one size,
which is the requested row count, and the output slots are as many arrays of `float` as there are groups. -/
theorem batched_accepts [Semiring M] {c : BCtx M} {b : Batched M} {arrays arrays' : Arrays M} {inputSlots : List Nat}
    {outputs : List OutSlot} {rowCount : Option Nat} {oracles : Nat → RunOracle M}
    (hk : (oracles 0).inKeys.Nodup ∧ ∀ k, k ∈ (oracles 0).inKeys ↔
      ∃ r ∈ b.required, ∃ s, inputSlots[r.1]? = some s ∧ (arrays s).key = k)
    (h : evalBatch c oracles b inputSlots outputs rowCount arrays = some (.ok arrays')) :
    outputs.length = b.outputs ∧ (∀ o ∈ outputs, o.ty = 0) ∧ (rowCount = none → inputSlots ≠ []) ∧
    ∃ n, (∀ k, rowCount = some k → k = n) ∧
      ∀ r ∈ b.required, ∃ s, inputSlots[r.1]? = some s ∧ (arrays s).arr.size = n ∧
        (arrays s).accepts ⟨0, tyOf r.2, c.opt r.2⟩ = true := by
  rw [evalBatch] at h
  split at h
  · cases h
  rename_i hcount
  have hget : ∀ r ∈ b.required, ∃ s, inputSlots[r.1]? = some s := by
    intro r hr
    have : r.1 + 1 ≤ b.inputCount := by
      have : ∀ (l : List (Nat × QT)) (a : Nat), a ≤ (l.map fun r => r.1 + 1).foldl max a ∧
          ∀ r ∈ l, r.1 + 1 ≤ (l.map fun r => r.1 + 1).foldl max a := by
        intro l
        induction l with
        | nil => intro a; simp
        | cons x l ih =>
          intro a
          simp only [List.map_cons, List.foldl_cons, List.mem_cons, forall_eq_or_imp]
          have := ih (max a (x.1 + 1))
          exact ⟨by omega, by omega, this.2⟩
      exact (this b.required 0).2 r hr
    exact ⟨_, List.getElem?_eq_getElem (by omega)⟩
  obtain ⟨inputs, i1, i2, i3⟩ := mapM_inputs hget
  rw [i1] at h
  simp only at h
  obtain ⟨e, arrays1, hrun⟩ : ∃ e arrays1, runEvaluator c b inputs outputs (rowCountOf rowCount inputs inputSlots arrays)
      (oracles 0) e arrays = some (.ok arrays1) := by
    split at h
    · cases h
    · exact ⟨_, _, h⟩
    · split at h
      · cases h
      · cases h
      · rename_i h'; exact ⟨_, _, h'⟩
  rw [runEvaluator] at hrun
  have hzip : ∀ m, m ∈ (inputs.map arrays).zip (inSlotsFrom c 0 b.required) ↔
      ∃ (j : Nat) (r : Nat × QT) (s : Nat), b.required[j]? = some r ∧ inputSlots[r.1]? = some s ∧
        m = (arrays s, ⟨j, tyOf r.2, c.opt r.2⟩) := by
    intro m
    constructor
    · intro hm
      obtain ⟨j, hj⟩ := List.getElem?_of_mem hm
      rw [List.getElem?_zip_eq_some, List.getElem?_map, inSlots_get, Nat.zero_add] at hj
      obtain ⟨h1, h2⟩ := hj
      cases hr : b.required[j]? with
      | none => rw [hr] at h2; cases h2
      | some r =>
        rw [hr] at h2
        obtain ⟨s, hs⟩ := hget r (List.mem_of_getElem? hr)
        rw [i3 j r hr, hs] at h1
        simp only [Option.map_some, Option.some.injEq] at h1 h2
        exact ⟨j, r, s, hr, hs, by rw [h1, h2]⟩
    · rintro ⟨j, r, s, hr, hs, rfl⟩
      apply List.mem_of_getElem? (i := j)
      rw [List.getElem?_zip_eq_some, List.getElem?_map, inSlots_get, Nat.zero_add, hr, i3 j r hr, hs]
      simp
  have hki : KeysOk (fun m => m.1.key) ((inputs.map arrays).zip (inSlotsFrom c 0 b.required)) (oracles 0).inKeys := by
    refine ⟨hk.1, fun k => (hk.2 k).trans ?_⟩
    constructor
    · rintro ⟨r, hr, s, hs, hk⟩
      obtain ⟨j, hj⟩ := List.getElem?_of_mem hr
      exact ⟨_, (hzip _).2 ⟨j, r, s, hj, hs, rfl⟩, hk⟩
    · rintro ⟨m, hm, hk⟩
      obtain ⟨j, r, s, hj, hs, rfl⟩ := (hzip m).1 hm
      exact ⟨r, List.mem_of_getElem? hj, s, hs, hk⟩
  cases hcr : Frames.create (oracles 0).inKeys (oracles 0).outKeys (inputs.map arrays) (inSlotsFrom c 0 b.required) outputs
      b.outSlots ⟨rowCountOf rowCount inputs inputSlots arrays, 64⟩ with
  | error e => rw [hcr] at hrun; cases hrun
  | ok it =>
    obtain ⟨-, h2, h3, h4, n, h5, h6, h7⟩ := (Frames.create_iff hki).1 ⟨it, hcr⟩
    simp only at h6 h7
    refine ⟨by rw [h2]; simp [Batched.outSlots], ?_, ?_, n, ?_, ?_⟩
    · intro o ho
      obtain ⟨g, hg⟩ := List.getElem?_of_mem ho
      have hlt : g < outputs.length := (List.getElem?_eq_some_iff.1 hg).1
      have hz : (outputs.zip b.outSlots)[g]? = some (o, b.outSlots[g]'(by omega)) := by
        rw [List.getElem?_zip_eq_some]
        exact ⟨hg, List.getElem?_eq_getElem _⟩
      rw [← h4 _ (List.mem_of_getElem? hz)]
      simp [Batched.outSlots]
    · rintro rfl rfl
      have hin : inputs = [] := by
        cases hi : inputs with
        | nil => rfl
        | cons a l =>
          obtain ⟨s, hs⟩ := hget _ (List.getElem_mem (l := b.required) (n := 0) (by rw [← i2, hi]; simp))
          simp at hs
      subst hin
      exact h6 rfl (by simp)
    · intro k hk
      subst hk
      exact h7 k (by cases inputs <;> cases inputSlots <;> rfl)
    · intro r hr
      obtain ⟨s, hs⟩ := hget r hr
      obtain ⟨j, hj⟩ := List.getElem?_of_mem hr
      have hm := (hzip _).2 ⟨j, r, s, hj, hs, rfl⟩
      refine ⟨s, hs, h5 _ (List.of_mem_zip hm).1, ?_⟩
      simpa [In.accepts] using h3 _ hm

/-! ## Concrete cases -/

/-- Sums are multiples of 2^-149. -/
def sampleB : BCtx Int := ⟨Forest.sampleCtx 20, fun _ => true, fun _ _ => true, .num⟩

/-- Three evaluations of the same input: 100, 200 and 400 if it is 5; the second tree is of another group. -/
def sampleTrees : List (Tree Cond Int) :=
  [⟨[⟨.leaf 0, .leaf 1, .interval 1 (.num 5) (.num 5)⟩], [0, 100], 1, ⟨0, 0⟩⟩,
   ⟨[⟨.leaf 0, .leaf 1, .interval 1 (.num 5) (.num 5)⟩], [1, 200], 1, ⟨0, 1⟩⟩,
   ⟨[⟨.leaf 0, .leaf 1, .interval 1 (.num 5) (.num 7)⟩], [2, 400], 1, ⟨0, 0⟩⟩]

/-- Slot 1 holds the input: 5, missing, 6; slot 2 a sparse array without values. -/
def sampleArrays : Arrays Int := fun s =>
  if s = 1 then ⟨0, .dense ⟨[.f32 (.num 5), .f32 (.num 5), .f32 (.num 6)], [5], 0⟩⟩
  else ⟨0, .sparse ⟨3, ⟨.empty, [], 0⟩, ⟨[], [], 0⟩, none⟩⟩

/-- One run. -/
def sampleOracle (sparse : Bool) : RunOracle Int :=
  ⟨[(false, 0)], [(sparse, 0)], ⟨fun _ => List.replicate 3 (.obj 9), fun _ => [77]⟩,
    List.replicate 3 (fun _ => (true, .f32 (.num 5))), .obj 8⟩

/-- Compile and evaluate; the arrays in the output slots. -/
def sampleRun (optimal : Int) (groups : List Filter) (outputs : List OutSlot) (sparse : Bool) : Option (List (List (Option (Val Int)))) :=
  match compileBatched sampleB.ctx optimal [(1, .f32)] sampleTrees groups with
  | some (.ok b) =>
    match evalBatch sampleB (fun _ => sampleOracle sparse) b [2, 1] outputs none sampleArrays with
    | some (.ok arrays) => some (outputs.map fun o => (arrays o.id).elems)
    | _ => none
  | _ => none

/-- One, two or three evaluators, two groups, dense and sparse outputs. -/
example : [(500 : Int), 2, 1].map (fun k => sampleRun k [{ submodels := [0] }, { submodels := [1] }] [⟨5, 0, false⟩, ⟨6, 0, false⟩] false) =
    List.replicate 3 (some [[some (.out 500), some (.out 2), some (.out 400)], [some (.out 200), some (.out 1), some (.out 1)]]) ∧
    sampleRun 1 [{}] [⟨5, 0, true⟩] true = some [[some (.out 700), some (.out 3), some (.out 401)]] :=
  ⟨by decide +kernel, by decide +kernel⟩

example : ∃ m, fromTrees (Cond.sig fun _ => []) sampleTrees = .ok m ∧ ([(1, .f32)] : List (Nat × QT)).Perm m.required := by
  refine ⟨⟨2, 1, [(1, .f32)]⟩, by decide +kernel, .refl _⟩

example : ∀ t ∈ sampleTrees, TreeOk t := by
  intro t ht
  simp only [sampleTrees, List.mem_cons, List.not_mem_nil, or_false] at ht
  rcases ht with rfl | rfl | rfl <;>
  exact ⟨⟨⟨by decide, by decide, rfl, by simp; omega, by simp⟩, by decide +kernel, by decide +kernel⟩, by decide,
    by simp [Cond.NoNan]⟩

example : BatchOk sampleB [(1, .f32)] [{}] sampleArrays [2, 1] [⟨5, 0, true⟩] none 3 := by
  refine ⟨?_, .inr ⟨rfl, .inl (by simp)⟩, rfl, by simp, by simp⟩
  intro r hr
  simp only [List.mem_singleton] at hr
  subst hr
  refine ⟨1, rfl, ?_, rfl, by decide +kernel⟩
  show Dense.DArr.Valid _
  refine ⟨Nat.zero_lt_succ 31, .inr rfl⟩

example : OracleOk sampleB [(1, .f32)] sampleArrays [2, 1] [⟨5, 0, true⟩] 3 (sampleOracle true) := by
  refine ⟨⟨by simp [sampleOracle], ?_⟩, ⟨by simp [sampleOracle], ?_⟩, ?_, rfl⟩
  · intro k
    simp [sampleOracle, sampleArrays, In.key, eq_comm]
  · intro k
    simp [sampleOracle, OutSlot.key, eq_comm]
  · intro k _
    exact ⟨rfl, rfl⟩

example : NotInPlace [(1, .f32)] [2, 1] [⟨5, 0, true⟩] := by
  intro r hr s hs o ho
  simp only [List.mem_singleton] at hr ho
  subst hr; subst ho
  simp at hs
  subst hs
  decide

/-- What the rows of the example contain. -/
abbrev sampleRow (i : Nat) (q : QT) (id : Nat) : Option (Val Int) := rowRead sampleB sampleArrays [2, 1] i q id

example : ∀ i, i < 3 → Forest.EnvOk (rowEnv sampleB sampleArrays [2, 1] i) ∧
    Forest.NanOk (rowEnv sampleB sampleArrays [2, 1] i) sampleTrees := by
  intro i hi
  have hread : ∀ id q, sampleRow i q id = none ∨ sampleRow i q id = some (.f32 (.num 5)) ∨ sampleRow i q id = some (.f32 (.num 6)) := by
    intro id q
    have hq : sampleB.opt q = true := by cases q <;> rfl
    simp only [sampleRow, rowRead, hq]
    match id with
    | 0 => left; rfl
    | 1 =>
      match i, hi with
      | 0, _ => exact .inr (.inl (by decide +kernel))
      | 1, _ => exact .inl (by decide +kernel)
      | 2, _ => exact .inr (.inr (by decide +kernel))
    | _ + 2 => left; rfl
  refine ⟨⟨?_, ?_⟩, ?_⟩
  · intro id v h
    have rep : ∀ n : Int, n.natAbs ≤ 9 → (Fl.num n).Ok := by
      intro n hn
      have : 9 ≤ Forest.maxF := by decide
      exact ⟨⟨n, 0, by simp, by omega⟩, by omega⟩
    change (sampleRow i .f32 id).bind sampleB.asF32 = some v at h
    rcases hread id .f32 with h' | h' | h' <;> rw [h'] at h <;> cases h
    · exact rep 5 (by decide)
    · exact rep 6 (by decide)
  · intro id v h
    change (sampleRow i .i64 id).bind Val.asI64 = some v at h
    rcases hread id .i64 with h' | h' | h' <;> rw [h'] at h <;> cases h
  · intro t ht n hn id vs h
    simp only [sampleTrees, List.mem_cons, List.not_mem_nil, or_false] at ht
    rcases ht with rfl | rfl | rfl <;> (simp only [List.mem_singleton] at hn; subst hn; cases h)

/-- C66: if an output is stored in place of an input, a forest in one piece gives the right result, but after the first one
of several evaluators the input is overwritten. -/
theorem batched_in_place_counterexample :
    sampleRun 500 [{}] [⟨1, 0, false⟩] false = some [[some (.out 700), some (.out 3), some (.out 401)]] ∧
    sampleRun 1 [{}] [⟨1, 0, false⟩] false ≠ sampleRun 500 [{}] [⟨1, 0, false⟩] false :=
  ⟨by decide +kernel, by decide +kernel⟩

/-- C66: `optimal_splits_per_evaluator = 0` divides by zero, and the largest `int64_t` overflows for every forest with a
split. -/
theorem batched_optimal_counterexample [Semiring M] (ctx : Ctx) (required : List (Nat × QT)) (trees : List (Tree Cond M))
    (groups : List Filter) :
    compileBatched ctx 0 required trees groups = none ∧
    (0 < splitCount trees → compileBatched ctx (2 ^ 63 - 1) required trees groups = none) := by
  constructor
  · have : evaluatorCount (splitCount trees) 0 = none := by
      simp only [evaluatorCount, i64]
      split <;> simp
    rw [compileBatched, createEvaluators, this]
  · intro h
    have : evaluatorCount (splitCount trees) (2 ^ 63 - 1) = none := by
      simp only [evaluatorCount, i64]
      rw [if_neg (by omega)]
      rfl
    rw [compileBatched, createEvaluators, this]

end Verif.Batched
