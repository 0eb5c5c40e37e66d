import Verif.FModel.PlainLemmas

/-!
# Properties of forest models
-/

namespace Verif.FModel

open Verif.Forest (Tag Filter)

theorem create_ok {a : Args} {low : E} {m : Model} (hc : create a low = .ok m) :
    (∀ n ∈ a.inputs, a.submodelIds.lookup n = none) ∧ initModel a low = .ok m := by
  unfold create at hc
  split at hc
  · simp at hc
  · cases h1 : validateInputs a with
    | error e => rw [h1] at hc; simp at hc
    | ok u =>
      rw [h1] at hc
      simp only at hc
      cases h2 : validateExpression a with
      | error e => rw [h2] at hc; simp at hc
      | ok u2 =>
        rw [h2] at hc
        simp only at hc
        cases h3 : validateOob a (a.oob.getD []) with
        | error e => rw [h3] at hc; simp at hc
        | ok u3 =>
          rw [h3] at hc
          refine ⟨?_, hc⟩
          intro n hn
          unfold validateInputs at h1
          split at h1
          · simp at h1
          · rename_i hany
            simp only [Bool.not_eq_true, List.any_eq_false, Option.isSome_iff_ne_none, ne_eq,
              Classical.not_not] at hany
            exact hany n hn

/-- What `Create` found out about a model with submodels. -/
theorem create_info {a : Args} {low : E} {m : Model} (hc : create a low = .ok m) (hsub : a.submodelIds ≠ []) :
    ∃ key s rest info p, a.submodelIds = (key, s) :: rest ∧ analyze a low = .ok info ∧
      (∀ fs, a.oob = some fs → fs.length = info.bagCount) ∧
      (if info.plainSum && a.oob.isNone then .ok (handlePlainSum a key info)
        else if info.bagCount == 1 && a.oob.isNone then .ok (handleNoBags a key)
        else handleBags a key info.bagCount : Except Err Plan) = .ok p ∧
      m = ⟨a, some key, { p with filters := truncate a.truncation p.filters }, info.bagCount⟩ := by
  have h := (create_ok hc).2
  unfold initModel at h
  match ha : a.submodelIds, hsub with
  | (key, s) :: rest, _ =>
    rw [ha] at h
    simp only at h
    cases hi : analyze a low with
    | error e => rw [hi] at h; simp at h
    | ok info =>
      rw [hi] at h
      simp only at h
      split at h
      · simp at h
      · rename_i ho
        refine ⟨key, s, rest, info, ?_⟩
        generalize hp : (if info.plainSum && a.oob.isNone then .ok (handlePlainSum a key info)
          else if info.bagCount == 1 && a.oob.isNone then .ok (handleNoBags a key)
          else handleBags a key info.bagCount : Except Err Plan) = q at h
        cases q with
        | error e => simp at h
        | ok p =>
          simp only [Except.ok.injEq] at h
          refine ⟨p, rfl, rfl, ?_, rfl, h.symm⟩
          intro fs hfs
          rw [hfs] at ho
          simpa [oobSizeOk] using ho

/-- Every submodel which occurs in the lowered expression has as many bags as the model. -/
theorem bag_counts {a : Args} {low : E} {m : Model} (hc : create a low = .ok m) (hsub : a.submodelIds ≠ [])
    (k : Key) (s : List Int) (hs : a.submodelIds.lookup k = some s) (hk : Tip.src (.ph k) ∈ tips low) :
    s.length = m.bagCount ∧ 0 < m.bagCount := by
  obtain ⟨key, s0, rest, info, p, -, hi, -, -, rfl⟩ := create_info hc hsub
  unfold analyze at hi
  cases ha : analyzeTips a.submodelIds (visited low) 0 with
  | error e => rw [ha] at hi; simp at hi
  | ok r =>
    obtain ⟨b, sn, pn⟩ := r
    rw [ha] at hi
    simp only [Except.ok.injEq] at hi
    subst hi
    obtain ⟨-, a2, a3, -, -, -⟩ := analyzeTips_spec a.submodelIds _ _ _ _ _ ha
    have hmem : k ∈ sn := (a2 k).2 ⟨by rwa [visited, List.mem_dedup], s, hs⟩
    obtain ⟨h1, h2⟩ := a3 k hmem s hs
    have : s.length ≠ 0 := by simpa using h2
    simp only
    omega

/-- **The value of a forest model** (partial).  A created model computes the mean over the enabled bags of the
postprocessing expression, where `P.x` in a bag is the output of the trees of the submodel `x` in that bag, scaled by the
number of bags.  Missing: exact arithmetic is assumed; every submodel has to occur in the lowered expression, and for a
plain sum of submodels lowering must not change how often a summand occurs and no submodel id may be used twice — see
the counterexamples below. -/
theorem model_value_partial (I : Nat → List V → Option V) (a : Args) (low : E) (m : Model) (hc : create a low = .ok m)
    (hv : Valid a) (hsub : a.submodelIds ≠ [])
    (hused : ∀ s ∈ a.submodelIds, Tip.src (.ph s.1) ∈ tips low)
    (hplain : plainSum low = true → a.oob = none → (∀ ρ, eval I ρ low = eval I ρ a.expression) ∧
      (tips low).Perm (tips a.expression) ∧ (a.submodelIds.flatMap Prod.snd).Nodup)
    (xs : List V) (v : V) (h : Value I a m.bagCount (a.inputs.zip xs) v) : lowered I m xs = some v := by
  have hb := bag_counts hc hsub
  have hcol := (create_ok hc).1
  obtain ⟨key, s0, rest, info, p, hids, hi, hoob, hp, rfl⟩ := create_info hc hsub
  have hk : ∃ s, a.submodelIds.lookup key = some s := ⟨s0, by rw [hids]; simp⟩
  have hin : (a.inputs.zip xs).lookup key = none := by
    rw [List.lookup_eq_none_iff]
    intro q hq
    rw [bne_iff_ne]
    rintro rfl
    have h1 := hcol q.1 (List.of_mem_zip hq).1
    obtain ⟨s, hs⟩ := hk
    rw [h1] at hs; simp at hs
  have hlen : ∀ s ∈ a.submodelIds, s.2.length = info.bagCount ∧ 0 < info.bagCount := fun s hs =>
    hb s.1 s.2 (lookup_of_mem hv.keys hs) (hused s hs)
  have hpos : 0 < info.bagCount := (hlen (key, s0) (by rw [hids]; simp)).2
  simp only at h
  unfold lowered postprocess
  simp only
  split at hp
  · rename_i hps
    simp only [Bool.and_eq_true, Option.isNone_iff_eq_none] at hps
    simp only [Except.ok.injEq] at hp
    subst hp
    have hpl : plainSum low = true := by
      unfold analyze at hi
      cases ha : analyzeTips a.submodelIds (visited low) 0 with
      | error e => rw [ha] at hi; simp at hi
      | ok r =>
        rw [ha] at hi
        simp only [Except.ok.injEq] at hi
        rw [← hi] at hps
        exact hps.1
    obtain ⟨h1, h2, h3⟩ := hplain hpl hps.2
    refine plain_value I a low key hv info hi hpl hps.2 ?_ hk h1 h2 h3 _ v h
    unfold analyze at hi
    cases ha : analyzeTips a.submodelIds (visited low) 0 with
    | error e => rw [ha] at hi; simp at hi
    | ok r =>
      obtain ⟨b, sn, pn⟩ := r
      rw [ha] at hi
      simp only [Except.ok.injEq] at hi
      subst hi
      obtain ⟨-, a2, -, -, -, -⟩ := analyzeTips_spec a.submodelIds _ _ _ _ _ ha
      have : key ∈ sn := (a2 key).2 ⟨by
        rw [visited, List.mem_dedup]
        exact hused (key, s0) (by rw [hids]; simp), hk⟩
      exact List.ne_nil_of_mem this
  · split at hp
    · rename_i hps
      simp only [Bool.and_eq_true, Option.isNone_iff_eq_none, beq_iff_eq] at hps
      simp only [Except.ok.injEq] at hp
      subst hp
      rw [hps.1] at h
      obtain ⟨vs, hvs, hev, hres⟩ := h
      rw [hps.2] at hres
      simp only at hres
      match vs, hvs with
      | [w], _ =>
        have hv' : v = w := by
          rw [hres, mean_all [w] (by simp)]
          cases w with
          | missing => rfl
          | val q =>
            rw [show ([V.val q] : List V).sum = V.val q from add_zero _]
            simp [V.div]
        rw [hv']
        exact noBags_value I a key hv hk (fun s hs => hps.1 ▸ (hlen s hs).1) _ w (hev 0 w rfl)
    · exact bags_value I a key hv hk info.bagCount hpos p hp hoob _ hin v h

/-- A model without submodels computes the value of the expression on the inputs. -/
theorem no_submodels_value (I : Nat → List V → Option V) (a : Args) (low : E) (m : Model) (hc : create a low = .ok m)
    (hsub : a.submodelIds = []) (xs : List V) :
    lowered I m xs = eval I (inputEnv (a.inputs.zip xs)) a.expression := by
  have h := (create_ok hc).2
  unfold initModel at h
  rw [hsub] at h
  simp only [Except.ok.injEq] at h
  subst h
  unfold lowered postprocess
  simp only
  exact eval_embed I _ _ _ (by simp) a.expression

/-! ### Partial evaluation -/

/-- The sum of the scaled trees of a filter with steps in a range; `hi = -1` means no upper bound. -/
def rangeSum (trees : List T) (mult : List (Int × Nat)) (submodels : List Int) (lo hi : Int) : Rat :=
  ((trees.filter fun t => decide (lo ≤ t.tag.step ∧ (hi = -1 ∨ t.tag.step < hi) ∧
    (submodels = [] ∨ t.tag.submodel ∈ submodels))).map fun t =>
      t.adj * t.weight * (((mult.lookup t.tag.submodel).getD 1 : Nat) : Rat)).sum

theorem scaledSum_range (trees : List T) (mult : List (Int × Nat)) (f : Filter) :
    scaledSum trees mult f = rangeSum trees mult f.submodels f.stepFrom f.stepTo := by
  unfold scaledSum rangeSum multOf
  congr 2
  apply List.filter_congr
  intro t _
  rw [Bool.eq_iff_iff, decide_eq_true_eq, Verif.Forest.Filter.accepts]
  simp only [ge_iff_le, Bool.and_eq_true, decide_eq_true_eq, Bool.or_eq_true, beq_iff_eq, List.isEmpty_iff,
    List.contains_iff_mem, and_assoc]

/-- `CreatePartialEvaluator` computes for every requested range and every filter of the model the sum over the trees of
the filter with steps in that range; no tree of a range is lost by the preselection of trees. -/
theorem partial_eval_value (m : Model) (ranges : List (Int × Int)) (t : List Rat) (h : partialEval m ranges = some t) :
    t = ranges.flatMap fun r => m.plan.filters.map fun f =>
      rangeSum m.args.trees m.plan.mult f.submodels r.1 r.2 := by
  unfold partialEval at h
  cases hf : partialFilters m.plan.filters ranges with
  | none => rw [hf] at h; simp at h
  | some fs =>
    rw [hf] at h
    simp only [Option.map_some, Option.some.injEq] at h
    rw [← h, forestTuple_eq]
    clear h
    induction ranges generalizing fs with
    | nil =>
      simp only [partialFilters, Option.some.injEq] at hf
      subst hf
      rfl
    | cons r ranges ih =>
      obtain ⟨lo, hi⟩ := r
      simp only [partialFilters] at hf
      split at hf
      · simp at hf
      · cases hr : partialFilters m.plan.filters ranges with
        | none => rw [hr] at hf; simp at hf
        | some gs =>
          rw [hr] at hf
          simp only [Option.some.injEq] at hf
          subst hf
          rw [List.map_append, ih gs hr, List.flatMap_cons, List.map_map]
          congr 1
          apply List.map_congr_left
          intro f _
          exact scaledSum_range _ _ _

theorem rangeSum_eq (trees : List T) (mult : List (Int × Nat)) (submodels : List Int) (lo hi : Int) :
    rangeSum trees mult submodels lo hi = (trees.map fun t => if lo ≤ t.tag.step ∧ (hi = -1 ∨ t.tag.step < hi) ∧
      (submodels = [] ∨ t.tag.submodel ∈ submodels) then
        t.adj * t.weight * (((mult.lookup t.tag.submodel).getD 1 : Nat) : Rat) else 0).sum := by
  unfold rangeSum
  induction trees with
  | nil => rfl
  | cons t ts ih =>
    rw [List.map_cons, List.sum_cons, ← ih, List.filter_cons]
    by_cases h : lo ≤ t.tag.step ∧ (hi = -1 ∨ t.tag.step < hi) ∧ (submodels = [] ∨ t.tag.submodel ∈ submodels)
    · rw [if_pos (decide_eq_true h), if_pos h, List.map_cons, List.sum_cons]
    · rw [if_neg (by rw [decide_eq_false h]; simp), if_neg h, zero_add]

/-- The results for two adjacent ranges add up to the result for the union of the ranges. -/
theorem partial_ranges_add (m : Model) (lo mid hi : Int) (h1 : lo ≤ mid) (h0 : 0 ≤ mid) (h2 : hi = -1 ∨ mid ≤ hi)
    (t u : List Rat) (ht : partialEval m [(lo, mid), (mid, hi)] = some t) (hu : partialEval m [(lo, hi)] = some u) :
    u = List.zipWith (· + ·) (t.take m.plan.filters.length) (t.drop m.plan.filters.length) := by
  rw [partial_eval_value m _ t ht, partial_eval_value m _ u hu]
  simp only [List.flatMap_cons, List.flatMap_nil, List.append_nil]
  rw [List.take_append_of_le_length (by simp), List.drop_append_of_le_length (by simp),
    List.take_of_length_le (by simp), List.drop_of_length_le (by simp), List.nil_append, List.zipWith_map_left,
    List.zipWith_map_right, List.zipWith_self]
  apply List.map_congr_left
  intro f _
  simp only [rangeSum_eq]
  rw [← List.sum_map_add]
  congr 1
  apply List.map_congr_left
  intro x _
  generalize x.adj * x.weight * (((m.plan.mult.lookup x.tag.submodel).getD 1 : Nat) : Rat) = w
  by_cases hb : x.tag.step < mid
  · rw [if_neg (c := mid ≤ x.tag.step ∧ _) (fun h => absurd h.1 (by omega)), add_zero]
    have h3 : hi = -1 ∨ x.tag.step < hi := h2.imp id fun h => by omega
    have h4 : mid = -1 ∨ x.tag.step < mid := .inr hb
    simp only [h3, h4, true_and]
  · rw [if_neg (c := lo ≤ x.tag.step ∧ (mid = -1 ∨ _) ∧ _) (fun h => h.2.1.elim (by omega) hb), zero_add]
    have h3 : lo ≤ x.tag.step := by omega
    have h4 : mid ≤ x.tag.step := by omega
    simp only [h3, h4, true_and]

theorem created_filters {a : Args} {low : E} {m : Model} (hc : create a low = .ok m)
    (ht : ∀ n, a.truncation = some n → n < 2 ^ 31) :
    m.args = a ∧ ∀ f ∈ m.plan.filters, f.stepFrom = 0 ∧ f.stepTo = (match a.truncation with | none => -1 | some n => n) := by
  by_cases hsub : a.submodelIds = []
  · have h := (create_ok hc).2
    unfold initModel at h
    rw [hsub] at h
    simp only [Except.ok.injEq] at h
    subst h
    simp
  · obtain ⟨key, s0, rest, info, p, -, hi, -, hp, rfl⟩ := create_info hc hsub
    refine ⟨rfl, ?_⟩
    have hdef : ∀ f ∈ p.filters, f.stepFrom = 0 ∧ f.stepTo = -1 := by
      split at hp
      · simp only [Except.ok.injEq] at hp
        subst hp
        simp [handlePlainSum]
      · split at hp
        · simp only [Except.ok.injEq] at hp
          subst hp
          simp only [handleNoBags, noBagParams_filters, List.mem_map]
          rintro f ⟨x, -, rfl⟩
          exact ⟨rfl, rfl⟩
        · unfold handleBags at hp
          split at hp
          · simp at hp
          · simp at hp
          · simp only [Except.ok.injEq] at hp
            subst hp
            simp
    intro f hf
    simp only [truncate_eq, List.mem_map] at hf
    obtain ⟨g, hg, rfl⟩ := hf
    cases htr : a.truncation with
    | none => exact hdef g hg
    | some n => exact ⟨(hdef g hg).1, toInt_small n (ht n htr)⟩

/-- Evaluating all steps of a model — below the truncation step, if there is one — gives the tuple which the model itself
uses, so that its postprocessing gives the value of the model. -/
theorem partial_all_steps (I : Nat → List V → Option V) (a : Args) (low : E) (m : Model) (hc : create a low = .ok m)
    (ht : ∀ n, a.truncation = some n → n < 2 ^ 31) (xs : List V) :
    ∃ t, partialEval m [(0, match a.truncation with | none => -1 | some n => n)] = some t ∧
      postprocess I m xs t = lowered I m xs := by
  obtain ⟨rfl, h⟩ := created_filters hc ht
  refine ⟨_, ?_, rfl⟩
  generalize (match m.args.truncation with | none => -1 | some n => (n : Int)) = hi at h
  have hany : (m.plan.filters.any fun f => f.stepFrom > 0 || (f.stepTo ≥ 0 && f.stepTo < hi)) = false := by
    rw [List.any_eq_false]
    intro f hf
    rw [(h f hf).1, (h f hf).2]
    simp
  have hmap : (m.plan.filters.map fun f => ({ stepFrom := 0, stepTo := hi, submodels := f.submodels } : Filter)) =
      m.plan.filters := by
    refine Eq.trans (List.map_congr_left (g := id) ?_) (List.map_id _)
    intro f hf
    obtain ⟨h1, h2⟩ := h f hf
    obtain ⟨lo, hi, sub⟩ := f
    simp only at h1 h2
    subst h1 h2
    rfl
  simp only [partialEval, partialFilters, hany, Bool.false_eq_true, if_false, Option.map_some, List.append_nil, hmap]

/-! ### Counterexamples -/

/-- One tree of submodel 0 with the output one. -/
def oneTree : List T := [⟨⟨0, 0⟩, 1, 1⟩]

/-- The operators `fn n` double their argument. -/
def doubleI : Nat → List V → Option V
  | _, [v] => some (v.add v)
  | _, _ => none

/-- `P.0 + P.1`, both submodels are submodel 0 of the forest. -/
def sharedArgs : Args :=
  { trees := oneTree, required := [], submodelIds := [(0, [0]), (1, [0])], inputs := [],
    expression := .op .add [.atom (.ph 0), .atom (.ph 1)], oob := none, truncation := none }

/-- Two names of one submodel in a plain sum: its trees are counted once, although the sum contains them twice. -/
theorem shared_ids_counterexample :
    Valid sharedArgs ∧ ∃ m, create sharedArgs sharedArgs.expression = .ok m ∧
      Value doubleI sharedArgs m.bagCount [] (.val 2) ∧ lowered doubleI m [] = some (.val 1) := by
  refine ⟨⟨by decide, by decide, by simp [sharedArgs]⟩, _, rfl, ⟨[.val 2], rfl, ?_,
    show V.val 2 = mean (([.val 2] : List V).map fun x => (true, x)) by decide +kernel⟩, by decide +kernel⟩
  intro b x hb
  match b, hb with
  | 0, hb =>
    simp only [List.getElem?_cons_zero, Option.some.injEq] at hb
    subst hb
    decide +kernel

/-- `f(P.0)` with an operator `f` which is lowered to `x + x`. -/
def doubleArgs : Args :=
  { trees := oneTree, required := [], submodelIds := [(0, [0])], inputs := [],
    expression := .op (.fn 0) [.atom (.ph 0)], oob := none, truncation := none }

/-- `P.0 + P.0`. -/
def doubleLow : E := .op .add [.atom (.ph 0), .atom (.ph 0)]

/-- Occurrences are counted in the expression before lowering: an operator which is lowered to `x + x` is evaluated
to `x`. -/
theorem count_before_lowering_counterexample :
    Valid doubleArgs ∧ (∀ ρ, eval doubleI ρ doubleLow = eval doubleI ρ doubleArgs.expression) ∧
    ∃ m, create doubleArgs doubleLow = .ok m ∧
      Value doubleI doubleArgs m.bagCount [] (.val 2) ∧ lowered doubleI m [] = some (.val 1) := by
  refine ⟨⟨by decide, by decide, by simp [doubleArgs]⟩, ?_, _, rfl, ⟨[.val 2], rfl, ?_,
    show V.val 2 = mean (([.val 2] : List V).map fun x => (true, x)) by decide +kernel⟩, by decide +kernel⟩
  · intro ρ
    simp only [doubleLow, doubleArgs, eval, evalAll]
    cases ρ (.ph 0) <;> rfl
  · intro b x hb
    match b, hb with
    | 0, hb =>
      simp only [List.getElem?_cons_zero, Option.some.injEq] at hb
      subst hb
      decide +kernel

/-- `g(P.0, 5)` with an operator `g` which is lowered to its second argument. -/
def ignoredArgs : Args :=
  { trees := oneTree, required := [], submodelIds := [(0, [0])], inputs := [],
    expression := .op (.fn 0) [.atom (.ph 0), .lit (.val 5)], oob := none, truncation := none }

/-- The meaning of `g`. -/
def secondI : Nat → List V → Option V
  | _, [_, w] => some w
  | _, _ => none

/-- If lowering removes all submodels and leaves a plain sum, then the empty set of used submodels selects all trees of
the forest, and their output is added to the result. -/
theorem ignored_submodel_counterexample :
    Valid ignoredArgs ∧
    (∀ ρ, (∃ v, ρ (.ph 0) = some v) → eval secondI ρ (.lit (.val 5)) = eval secondI ρ ignoredArgs.expression) ∧
    ∃ m, create ignoredArgs (.lit (.val 5)) = .ok m ∧
      Value secondI ignoredArgs m.bagCount [] (.val 5) ∧ lowered secondI m [] = some (.val 6) := by
  refine ⟨⟨by decide, by decide, by simp [ignoredArgs]⟩, ?_, _, rfl, ⟨[.val 5], rfl, ?_,
    show V.val 5 = mean (([.val 5] : List V).map fun x => (true, x)) by decide +kernel⟩, by decide +kernel⟩
  · rintro ρ ⟨v, hv⟩
    simp only [ignoredArgs, eval, evalAll, hv]
    rfl
  · intro b x hb
    match b, hb with
    | 0, hb =>
      simp only [List.getElem?_cons_zero, Option.some.injEq] at hb
      subst hb
      decide +kernel

/-- The model `P.0` with a truncation step. -/
def truncArgs (n : Nat) (trees : List T) : Args :=
  { trees := trees, required := [], submodelIds := [(0, [0])], inputs := [],
    expression := .atom (.ph 0), oob := none, truncation := some n }

/-- A truncation step of `2^31` becomes negative, no tree is used. -/
theorem truncation_overflow_counterexample :
    ∃ m, create (truncArgs (2 ^ 31) oneTree) (.atom (.ph 0)) = .ok m ∧
      Value doubleI (truncArgs (2 ^ 31) oneTree) m.bagCount [] (.val 1) ∧ lowered doubleI m [] = some (.val 0) := by
  refine ⟨_, rfl, ⟨[.val 1], rfl, ?_,
    show V.val 1 = mean (([.val 1] : List V).map fun x => (true, x)) by decide +kernel⟩, by decide +kernel⟩
  intro b x hb
  match b, hb with
  | 0, hb =>
    simp only [List.getElem?_cons_zero, Option.some.injEq] at hb
    subst hb
    decide +kernel

/-- Two trees with the steps 0 and 7. -/
def twoSteps : List T := [⟨⟨0, 0⟩, 1, 1⟩, ⟨⟨7, 0⟩, 1, 10⟩]

/-- A model truncated at step 5 rejects the range `[0, 8)` as not available, but accepts the unbounded range and then
uses the trees behind the truncation. -/
theorem partial_unbounded_counterexample :
    ∃ m, create (truncArgs 5 twoSteps) (.atom (.ph 0)) = .ok m ∧ lowered doubleI m [] = some (.val 1) ∧
      partialEval m [(0, 8)] = none ∧ partialEval m [(0, -1)] = some [11] :=
  ⟨_, rfl, by decide +kernel, by decide +kernel, by decide +kernel⟩

/-! ### Examples -/

/-- `f(P.0) + P.9` with two bags and an input. -/
def sampleArgs : Args :=
  { trees := [⟨⟨0, 3⟩, 1, 1⟩, ⟨⟨1, 4⟩, 2, 1⟩, ⟨⟨2, 4⟩, 2, 3⟩], required := [], submodelIds := [(0, [3, 4])], inputs := [9],
    expression := .op .add [.op (.fn 0) [.atom (.ph 0)], .atom (.ph 9)], oob := none, truncation := some 2 }

example : Valid sampleArgs ∧ (∀ s ∈ sampleArgs.submodelIds, Tip.src (.ph s.1) ∈ tips sampleArgs.expression) ∧
    plainSum sampleArgs.expression = false ∧
    ∃ m, create sampleArgs sampleArgs.expression = .ok m ∧ m.bagCount = 2 ∧
      Value doubleI sampleArgs 2 [(9, .val 7)] (.val 13) ∧ lowered doubleI m [.val 7] = some (.val 13) := by
  refine ⟨⟨by decide, by decide, by simp [sampleArgs]⟩, by decide, by decide, _, rfl, rfl,
    ⟨[.val 11, .val 15], rfl, ?_,
    show V.val 13 = mean (([.val 11, .val 15] : List V).map fun x => (true, x)) by decide +kernel⟩, by decide +kernel⟩
  intro b x hb
  match b, hb with
  | 0, hb => simp only [List.getElem?_cons_zero, Option.some.injEq] at hb; subst hb; decide +kernel
  | 1, hb => simp at hb; subst hb; decide +kernel

/-- The same with an out-of-bag filter which disables the first bag. -/
example : ∃ m, create { sampleArgs with oob := some [.lit .missing, .lit (.val 0)] } sampleArgs.expression = .ok m ∧
    lowered doubleI m [.val 7] = some (.val 15) := ⟨_, rfl, by decide +kernel⟩

/-- `P.0 + P.9 + P.0` is a plain sum. -/
def sumArgs : Args :=
  { sampleArgs with expression := .op .add [.op .add [.atom (.ph 0), .atom (.ph 9)], .atom (.ph 0)] }

example : Valid sumArgs ∧ plainSum sumArgs.expression = true ∧ (sumArgs.submodelIds.flatMap Prod.snd).Nodup ∧
    ∃ m, create sumArgs sumArgs.expression = .ok m ∧ Value doubleI sumArgs 2 [(9, .val 7)] (.val 13) ∧
      lowered doubleI m [.val 7] = some (.val 13) := by
  refine ⟨⟨by decide, by decide, by simp [sumArgs, sampleArgs]⟩, by decide, by decide, _, rfl,
    ⟨[.val 11, .val 15], rfl, ?_,
    show V.val 13 = mean (([.val 11, .val 15] : List V).map fun x => (true, x)) by decide +kernel⟩, by decide +kernel⟩
  intro b x hb
  match b, hb with
  | 0, hb => simp only [List.getElem?_cons_zero, Option.some.injEq] at hb; subst hb; decide +kernel
  | 1, hb => simp at hb; subst hb; decide +kernel

example : ∃ m, create (truncArgs 9 twoSteps) (.atom (.ph 0)) = .ok m ∧
    partialEval m [(0, 5), (5, 9)] = some [1, 10] ∧ partialEval m [(0, 9)] = some [11] :=
  ⟨_, rfl, by decide +kernel, by decide +kernel⟩

end Verif.FModel
