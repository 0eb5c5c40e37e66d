import Verif.Forest.InnerLemmas
import Verif.Forest.BitmaskProps

/-!
# C64, C65: `ForestEvaluator` and its single input evaluators

`Sums (fun acc a w => acc + a * w) (Cond.eval env) f trees 0 y` (see `ForestSpec`): `y` is the sum over the trees which the
filter `f` selects of the adjustment chosen by the conditions times the weight.  It is also what the naive evaluation
returns (`naive_sound`).
-/

namespace Verif.Forest

variable {M : Type} [Semiring M]

theorem sums_treeVal (env : Env) (f : Filter) : ∀ (trees : List (Tree Cond M)), (∀ t ∈ trees, Proper t) → ∀ acc : M,
    Sums (fun acc a w => acc + a * w) (Cond.eval env) f trees acc
      (acc + ((trees.filter fun t => f.accepts t.tag).map (treeVal env)).sum) := by
  intro trees
  induction trees with
  | nil => intro _ acc; simpa using Sums.nil acc
  | cons t rest ih =>
    intro h acc
    have ih := ih fun t ht => h t (by simp [ht])
    rw [List.filter_cons]
    split
    · rename_i ha
      obtain ⟨i, a, h1, h2, h3⟩ := treeVal_spec (h t (by simp)) env
      refine Sums.take ((accepts_iff f t.tag).1 ha) h1 h2 ?_
      rw [List.map_cons, List.sum_cons, h3, ← add_assoc]
      exact ih _
    · rename_i ha
      exact Sums.skip (fun hs => ha ((accepts_iff f t.tag).2 hs)) (ih acc)

theorem enough_fuel {osig : Nat → List (Nat × QT)} {condEq : Cond → Cond → Bool} (o : Oracles) (hc : CondEqOk condEq) :
    ∀ trees : List (Tree Cond M), (∀ t ∈ trees, TreeOk t) →
      ∃ bound, 0 < bound ∧ ∀ fuel, bound ≤ fuel → ∀ t ∈ trees, FuelOk ⟨osig, condEq, o, fuel⟩ t := by
  intro trees
  induction trees with
  | nil => intro _; exact ⟨1, by omega, by simp⟩
  | cons t rest ih =>
    intro h
    obtain ⟨b, hpos, hb⟩ := ih fun t ht => h t (by simp [ht])
    obtain ⟨b', hb'⟩ := fuel_ok (osig := osig) o hc (h t (by simp))
    refine ⟨max b b', by omega, fun fuel hf t' ht' => ?_⟩
    rcases List.mem_cons.1 ht' with rfl | ht'
    · exact hb' fuel (by omega)
    · exact hb fuel (by omega) t' ht'

/-! ## C64 -/

/-- The evaluator of trees of intervals and sets over one `float` input: for every value of the input — missing, NaN,
infinite or a number — it returns the sum over all trees.  Partial: the split points have to be finite and at most
`FLT_MAX / 2` in absolute value, and NaN must not meet a set which is true for missing values; see the counterexamples. -/
theorem single_float_partial (osig : Nat → List (Nat × QT)) {condEq : Cond → Cond → Bool} (hc : CondEqOk condEq) {o : Oracles}
    (ho : o.Ok) (id : Nat) (trees : List (Tree Cond M)) (ht : ∀ t ∈ trees, TreeOk t)
    (hid : ∀ t ∈ trees, ∀ n ∈ t.splits, (∃ l r, n.cond = .interval id l r) ∨ ∃ vs d, n.cond = .setF32 id vs d)
    (hs : ∀ t ∈ trees, ∀ n ∈ t.splits, n.cond.Safe) :
    ∃ bound, ∀ fuel, bound ≤ fuel → ∃ pw : Piecewise Fl M,
      buildSingle ⟨osig, condEq, o, fuel⟩ f32Kind trees = some (.ok pw) ∧
      ∀ env : Env, EnvOk env → NanOk env trees → ∃ y, pw.eval f32Kind (env.f id) = some y ∧
        Sums (fun acc a w => acc + a * w) (Cond.eval env) {} trees 0 y := by
  obtain ⟨bound, hpos, hb⟩ := enough_fuel (osig := osig) o hc trees ht
  refine ⟨bound, fun fuel hf => ?_⟩
  have hsig : ∀ t ∈ trees, ∀ n ∈ t.splits, n.cond.sig osig = [(id, .f32)] := by
    intro t h n hn
    rcases hid t h n hn with ⟨l, r, e⟩ | ⟨vs, d, e⟩ <;> rw [e] <;> rfl
  obtain ⟨m, hm⟩ := (from_trees_accepts (Cond.sig osig) trees).1.2 ⟨fun t h => (ht t h).toWellFormed, by
    rintro i q q' ⟨t, h, n, hn, hu⟩ ⟨t', h', n', hn', hu'⟩
    rw [hsig t h n hn] at hu
    rw [hsig t' h' n' hn'] at hu'
    simp only [List.mem_singleton, Prod.mk.injEq] at hu hu'
    rw [hu.2, hu'.2]⟩
  obtain ⟨pw, h1, h2⟩ := buildSingle_ok (ctx := ⟨osig, condEq, o, fuel⟩) ho (by show 0 < fuel; omega) f32_ok
    (fun t h => ⟨ht t h, hb fuel hf t h⟩) hm hsig (fun t h n hn => ⟨hs t h n hn, by
      rcases hid t h n hn with ⟨l, r, e⟩ | ⟨vs, d, e⟩ <;> rw [e] <;> trivial⟩)
  refine ⟨pw, h1, fun env henv hnan => ⟨_, h2 env hnan (fun _ x hx => henv.f id x hx), ?_⟩⟩
  have := sums_treeVal env {} trees (fun t h => (ht t h).toProper) 0
  rw [List.filter_eq_self.2 fun t h => default_accepts (ht t h), zero_add] at this
  exact this

/-- The evaluator of trees of sets over one `int64_t` input.  Partial: the values in the sets have to be in
`[-2^62, 2^62)`; see the counterexample. -/
theorem single_int64_partial (osig : Nat → List (Nat × QT)) {condEq : Cond → Cond → Bool} (hc : CondEqOk condEq) {o : Oracles}
    (ho : o.Ok) (id : Nat) (trees : List (Tree Cond M)) (ht : ∀ t ∈ trees, TreeOk t)
    (hid : ∀ t ∈ trees, ∀ n ∈ t.splits, ∃ vs d, n.cond = .setI64 id vs d ∧ ∀ v ∈ vs, -2 ^ 62 ≤ v ∧ v < 2 ^ 62) :
    ∃ bound, ∀ fuel, bound ≤ fuel → ∃ pw : Piecewise Int M,
      buildSingle ⟨osig, condEq, o, fuel⟩ i64Kind trees = some (.ok pw) ∧
      ∀ env : Env, ∃ y, pw.eval i64Kind (env.i id) = some y ∧
        Sums (fun acc a w => acc + a * w) (Cond.eval env) {} trees 0 y := by
  obtain ⟨bound, hpos, hb⟩ := enough_fuel (osig := osig) o hc trees ht
  refine ⟨bound, fun fuel hf => ?_⟩
  have hsig : ∀ t ∈ trees, ∀ n ∈ t.splits, n.cond.sig osig = [(id, .i64)] := by
    intro t h n hn
    obtain ⟨vs, d, e, -⟩ := hid t h n hn
    rw [e]; rfl
  obtain ⟨m, hm⟩ := (from_trees_accepts (Cond.sig osig) trees).1.2 ⟨fun t h => (ht t h).toWellFormed, by
    rintro i q q' ⟨t, h, n, hn, hu⟩ ⟨t', h', n', hn', hu'⟩
    rw [hsig t h n hn] at hu
    rw [hsig t' h' n' hn'] at hu'
    simp only [List.mem_singleton, Prod.mk.injEq] at hu hu'
    rw [hu.2, hu'.2]⟩
  obtain ⟨pw, h1, h2⟩ := buildSingle_ok (ctx := ⟨osig, condEq, o, fuel⟩) ho (by show 0 < fuel; omega) i64_ok
    (fun t h => ⟨ht t h, hb fuel hf t h⟩) hm hsig (fun t h n hn => by
      obtain ⟨vs, d, e, hv⟩ := hid t h n hn
      rw [e]; exact ⟨hv, trivial⟩)
  refine ⟨pw, h1, fun env => ⟨_, h2 env ?_ (fun _ _ _ => trivial), ?_⟩⟩
  · intro t h n hn i vs e
    obtain ⟨vs', d, e', -⟩ := hid t h n hn
    rw [e'] at e
    cases e
  have := sums_treeVal env {} trees (fun t h => (ht t h).toProper) 0
  rw [List.filter_eq_self.2 fun t h => default_accepts (ht t h), zero_add] at this
  exact this

/-! ## C65 -/

/-- Every tree is selected by at most one of the filters. -/
def Separate (outputs : List Filter) (trees : List (Tree Cond M)) : Prop :=
  ∀ t ∈ trees, outputs.Pairwise fun f f' => ¬ (f.Selects t.tag ∧ f'.Selects t.tag)

theorem separate_disjoint {outputs : List Filter} {trees : List (Tree Cond M)} :
    Separate outputs trees ↔ ∀ t ∈ trees, Disjoint' outputs t.tag := by
  simp only [Separate, Disjoint', accepts_iff]

/-- Whatever evaluators are enabled, compilation of a forest either reports that no evaluator fits — only if the regular
evaluators are disabled — or gives an evaluator whose outputs are, for every input, the sums of the trees which the filters
of the outputs select.  Partial: proper trees only, and with single input evaluators only split points and inputs as in
`single_float_partial`. -/
theorem forest_evaluator_partial (osig : Nat → List (Nat × QT)) {condEq : Cond → Cond → Bool} (hc : CondEqOk condEq)
    {o : Oracles} (ho : o.Ok) (params : Params) (trees : List (Tree Cond M)) {m : Meta QT}
    (hm : fromTrees (Cond.sig osig) trees = .ok m) (ht : ∀ t ∈ trees, TreeOk t) (outputs : List Filter) (hne : outputs ≠ [])
    (hd : Separate outputs trees)
    (hs : params.single = true → ∀ t ∈ trees, ∀ n ∈ t.splits, n.cond.Safe ∧ n.cond.Basic osig) :
    ∃ bound, ∀ fuel, bound ≤ fuel →
      (params.regular = false ∧ compileForest ⟨osig, condEq, o, fuel⟩ params trees outputs = some (.error .noEvaluator)) ∨
      ∃ e, compileForest ⟨osig, condEq, o, fuel⟩ params trees outputs = some (.ok e) ∧
        ∀ env, (params.single = true → EnvOk env ∧ NanOk env trees) →
          ∃ outs, e.eval ⟨osig, condEq, o, fuel⟩ env = some outs ∧ outs.length = outputs.length ∧
            ∀ (g : Nat) (f : Filter), outputs[g]? = some f → ∃ y, outs[g]? = some y ∧
              Sums (fun acc a w => acc + a * w) (Cond.eval env) f trees 0 y := by
  obtain ⟨bound, hpos, hb⟩ := enough_fuel (osig := osig) o hc trees ht
  refine ⟨bound, fun fuel hf => ?_⟩
  have hpos' : 0 < (⟨osig, condEq, o, fuel⟩ : Ctx).fuel := by show 0 < fuel; omega
  rcases fillParts_ok (ctx := ⟨osig, condEq, o, fuel⟩) ho hpos' params (fun t h => ⟨ht t h, hb fuel hf t h⟩) hne
    (separate_disjoint.1 hd) with ⟨h1, h2⟩ | ⟨p, core, S, h1, h2, hS, hmem, hsing, h3⟩
  · exact .inl ⟨h1, by rw [compileForest, h2]⟩
  · right
    have hmemg : ∀ g, ∀ t ∈ ofGroup S g, t ∈ trees := by
      intro g t h
      simp only [ofGroup, List.mem_map, List.mem_filter] at h
      obtain ⟨x, ⟨hx, -⟩, rfl⟩ := h
      exact hmem x hx
    have hst : ∀ g, SingleTrees ⟨osig, condEq, o, fuel⟩ (ofGroup S g) := by
      intro g
      by_cases hsi : params.single = true
      · exact ⟨fun t h => ⟨ht t (hmemg g t h), hb fuel hf t (hmemg g t h)⟩, fun t h => hs hsi t (hmemg g t h),
          fromTrees_sub hm (hmemg g)⟩
      · rw [hS (by simpa using hsi)]
        exact ⟨by simp [ofGroup], by simp [ofGroup], fromTrees_sub hm (by simp [ofGroup])⟩
    obtain ⟨xs, x1, x2⟩ := buildSingles_ok ho hpos' p.singles (fun g => ofGroup S g) fun g s hgs => ⟨hsing.2 g s hgs, hst g⟩
    refine ⟨⟨core, xs⟩, by simp only [compileForest, h1, h2, x1], fun env henv => ?_⟩
    obtain ⟨outs, d1, d2, d3⟩ := h3 env
    obtain ⟨res, r1, r2, r3⟩ := x2 env (fun g _ hne => by
      by_cases hsi : params.single = true
      · exact ⟨(henv hsi).1, fun t h => (henv hsi).2 t (hmemg g t h)⟩
      · rw [hS (by simpa using hsi)] at hne; exact absurd rfl hne) outs (by rw [hsing.1]; exact d2)
    refine ⟨res, by simp [Evaluator.eval, d1, r1], by rw [r2, d2], fun g f hgf => ?_⟩
    obtain ⟨y, y1, y2⟩ := d3 g f hgf
    refine ⟨_, r3 g y y1, ?_⟩
    rw [y2]
    have := sums_treeVal env f trees (fun t h => (ht t h).toProper) 0
    rw [zero_add] at this
    exact this

/-- Which evaluators are enabled cannot be observed: two compilations of a forest give the same outputs as each other and
as the naive evaluation. -/
theorem forest_evaluator_agree_partial (osig : Nat → List (Nat × QT)) {condEq : Cond → Cond → Bool} (hc : CondEqOk condEq)
    {o : Oracles} (ho : o.Ok) (params params' : Params) (trees : List (Tree Cond M)) {m : Meta QT}
    (hm : fromTrees (Cond.sig osig) trees = .ok m) (ht : ∀ t ∈ trees, TreeOk t) (outputs : List Filter) (hne : outputs ≠ [])
    (hd : Separate outputs trees) (hs : ∀ t ∈ trees, ∀ n ∈ t.splits, n.cond.Safe ∧ n.cond.Basic osig) :
    ∃ bound, ∀ fuel, bound ≤ fuel → ∀ e e' : Evaluator M,
      compileForest ⟨osig, condEq, o, fuel⟩ params trees outputs = some (.ok e) →
      compileForest ⟨osig, condEq, o, fuel⟩ params' trees outputs = some (.ok e') →
      ∀ env, EnvOk env → NanOk env trees → ∃ outs, e.eval ⟨osig, condEq, o, fuel⟩ env = some outs ∧
        e'.eval ⟨osig, condEq, o, fuel⟩ env = some outs ∧
        ∀ (g : Nat) (f : Filter) (x : M) (fuel' : Nat), outputs[g]? = some f →
          naive 0 (fun acc a w => acc + a * w) (Cond.eval env) f fuel' trees = .value x → outs[g]? = some x := by
  obtain ⟨b, hb⟩ := forest_evaluator_partial osig hc ho params trees hm ht outputs hne hd fun _ => hs
  obtain ⟨b', hb'⟩ := forest_evaluator_partial osig hc ho params' trees hm ht outputs hne hd fun _ => hs
  refine ⟨max b b', fun fuel hf e e' he he' env henv hnan => ?_⟩
  rcases hb fuel (by omega) with ⟨-, h⟩ | ⟨e1, h, hv⟩
  · rw [he] at h; cases h
  rcases hb' fuel (by omega) with ⟨-, h'⟩ | ⟨e2, h', hv'⟩
  · rw [he'] at h'; cases h'
  rw [he] at h; cases h
  rw [he'] at h'; cases h'
  obtain ⟨outs, o1, o2, o3⟩ := hv env fun _ => ⟨henv, hnan⟩
  obtain ⟨outs', p1, p2, p3⟩ := hv' env fun _ => ⟨henv, hnan⟩
  have heq : outs = outs' := by
    refine List.ext_getElem? fun g => ?_
    cases hg : outputs[g]? with
    | none =>
      have := List.getElem?_eq_none_iff.1 hg
      rw [List.getElem?_eq_none (by omega), List.getElem?_eq_none (by omega)]
    | some f =>
      obtain ⟨y, y1, y2⟩ := o3 g f hg
      obtain ⟨z, z1, z2⟩ := p3 g f hg
      rw [y1, z1, sums_unique y2 z2]
  subst heq
  refine ⟨outs, o1, p1, fun g f x fuel' hg hx => ?_⟩
  obtain ⟨y, y1, y2⟩ := o3 g f hg
  rw [y1, sums_unique y2 ((naive_sound _ trees m hm 0 _ _ f fuel').2 x hx)]

/-- Without outputs, or if some tree is selected by two outputs, compilation fails. -/
theorem forest_evaluator_rejects (ctx : Ctx) (params : Params) (trees : List (Tree Cond M)) :
    compileForest ctx params trees [] = some (.error .noOutput) ∧
    ∀ outputs, outputs ≠ [] → ¬ Separate outputs trees →
      compileForest ctx params trees outputs = some (.error .intersection) := by
  refine ⟨rfl, fun outputs hne h => ?_⟩
  have hs : splitTreesByGroups trees outputs = .error .intersection := by
    rw [splitTreesByGroups, if_neg (by simpa using hne), replicate_none]
    refine assignGroups_error trees outputs 0 _ ?_
    rw [separate_disjoint] at h
    simp only [not_forall] at h
    obtain ⟨t, ht, h⟩ := h
    exact ⟨t, ht, .inl h⟩
  simp only [compileForest, fillParts, hs]

/-! ### Non-vacuity -/

/-- No custom condition has inputs; conditions are compared by their parameters. -/
def sampleCtx (fuel : Nat) : Ctx := ⟨fun _ => [], Cond.equals false, sampleOracles, fuel⟩

/-- A tree over input 0 alone, a tree over both inputs, a constant tree, a tree with a custom condition. -/
def evalForest : List (Tree Cond Int) :=
  [⟨[⟨.split 1, .leaf 0, .interval 0 (.num 1) (.num 5)⟩, ⟨.leaf 1, .leaf 2, .setF32 0 [.num 7, .num 9] false⟩], [1, 2, 3], 10, ⟨0, 0⟩⟩,
    bitmaskTree, ⟨[], [4], 1000, ⟨1, 1⟩⟩, ⟨[⟨.leaf 0, .leaf 1, .other 3⟩], [5, 6], 1, ⟨1, 0⟩⟩]

theorem evalForest_ok : ∀ t ∈ evalForest, TreeOk t ∧ ∀ n ∈ t.splits, n.cond.Safe ∧ n.cond.Basic (fun _ => []) := by
  have rep : ∀ n : Int, n.natAbs ≤ 9 → (Fl.num n).Safe := by
    intro n hn
    refine ⟨?_, ?_⟩
    · exact ⟨n, 0, by simp, by omega⟩
    · have : 18 ≤ maxF := by decide
      omega
  intro t ht
  simp only [evalForest, List.mem_cons, List.not_mem_nil, or_false] at ht
  rcases ht with rfl | rfl | rfl | rfl
  · refine ⟨⟨⟨⟨by decide, by decide, rfl, by simp; omega, by simp⟩, by decide +kernel, by decide +kernel⟩, by decide,
      by simp [Cond.NoNan]⟩, ?_⟩
    simp only [List.mem_cons, List.not_mem_nil, or_false, forall_eq_or_imp, forall_eq, Cond.Safe, Cond.Basic, and_true]
    exact ⟨⟨.inr (rep _ (by decide)), .inr (rep _ (by decide))⟩, rep _ (by decide), rep _ (by decide)⟩
  · refine ⟨⟨bitmaskTree_proper, by decide, by simp [bitmaskTree, Cond.NoNan]⟩, ?_⟩
    simp only [bitmaskTree, List.mem_cons, List.not_mem_nil, or_false, forall_eq_or_imp, forall_eq, Cond.Safe, Cond.Basic, and_true]
    exact ⟨⟨.inr (rep _ (by decide)), .inr (rep _ (by decide))⟩, by omega, by omega⟩
  · exact ⟨⟨⟨⟨by decide, by decide, rfl, by simp, by simp⟩, by decide +kernel, by decide +kernel⟩, by decide, by simp⟩, by simp⟩
  · exact ⟨⟨⟨⟨by decide, by decide, rfl, by simp; omega, by simp⟩, by decide +kernel, by decide +kernel⟩, by decide,
      by simp [Cond.NoNan]⟩, by simp [Cond.Safe, Cond.Basic]⟩

def evalOutputs : List Filter := [{ submodels := [0] }, { stepTo := 1, submodels := [1] }]

example : CondEqOk (Cond.equals false) ∧ sampleOracles.Ok ∧
    (∃ m, fromTrees (Cond.sig fun _ => []) evalForest = .ok m) ∧ Separate evalOutputs evalForest := by
  refine ⟨fun a b h => .inr h, sampleOracles_ok, ?_, ?_⟩
  · refine (from_trees_accepts _ _).1.2 ⟨fun t ht => (evalForest_ok t ht).1.toWellFormed, ?_⟩
    rintro id q q' ⟨t, ht, n, hn, hu⟩ ⟨t', ht', n', hn', hu'⟩
    simp only [evalForest, bitmaskTree, List.mem_cons, List.not_mem_nil, or_false] at ht ht'
    rcases ht with rfl | rfl | rfl | rfl <;> rcases ht' with rfl | rfl | rfl | rfl <;>
      simp only [List.mem_cons, List.not_mem_nil, or_false] at hn hn' <;>
      (try rcases hn with rfl | rfl) <;> (try rcases hn' with rfl | rfl) <;>
      simp_all [Cond.sig]
  · rw [separate_disjoint]
    intro t ht
    simp only [evalForest, bitmaskTree, List.mem_cons, List.not_mem_nil, or_false] at ht
    rcases ht with rfl | rfl | rfl | rfl <;> simp [Disjoint', evalOutputs, Filter.accepts]

/-- Compile and evaluate. -/
def runForest (ctx : Ctx) (params : Params) (trees : List (Tree Cond Int)) (outputs : List Filter) (env : Env) : Option (List Int) :=
  (compileForest ctx params trees outputs).bind fun r =>
    match r with
    | .ok e => e.eval ctx env
    | .error _ => none

example : [({} : Params), ⟨true, true, false⟩, ⟨true, false, true⟩, ⟨true, false, false⟩].map (fun p =>
      runForest (sampleCtx 20) p evalForest evalOutputs ⟨fun _ => some (.num 2), fun _ => none, fun _ => true⟩) =
    List.replicate 4 (some [16, 60]) ∧
  [({} : Params), ⟨true, true, false⟩, ⟨true, false, true⟩, ⟨true, false, false⟩].map (fun p =>
      runForest (sampleCtx 20) p evalForest evalOutputs ⟨fun _ => some (.num 9), fun _ => some 5, fun _ => false⟩) =
    List.replicate 4 (some [35, 20]) :=
  ⟨by decide +kernel, by decide +kernel⟩

/-! ### What fails without the hypotheses -/

/-- A tree with one split: 1 if the condition holds, else 0. -/
def oneSplit (c : Cond) : Tree Cond Int := ⟨[⟨.leaf 0, .leaf 1, c⟩], [0, 1], 1, ⟨0, 0⟩⟩

theorem oneSplit_proper (c : Cond) : Proper (oneSplit c) :=
  ⟨⟨by simp [oneSplit], by simp [oneSplit], rfl, by simp [oneSplit]; omega, by simp [oneSplit]⟩,
    by simp [oneSplit, Tree.childRefs], by simp [oneSplit, Tree.childRefs, Tree.root]⟩

/-- An environment with one `float`. -/
def floatEnv (v : Fl) : Env := ⟨fun _ => some v, fun _ => none, fun _ => false⟩

/-- The interval [2^127, 1.5 * 2^127] and the input 1.25 * 2^127: the sum of the bounds overflows, so the value between the
bounds is computed at infinity and is wrong.  Without single input evaluators it is right. -/
theorem single_float_overflow_counterexample :
    let trees := [oneSplit (.interval 0 (.num (2 ^ 276)) (.num (3 * 2 ^ 275)))]
    runForest (sampleCtx 20) {} trees [{}] (floatEnv (.num (5 * 2 ^ 274))) = some [0] ∧
    runForest (sampleCtx 20) { single := false } trees [{}] (floatEnv (.num (5 * 2 ^ 274))) = some [1] :=
  ⟨by decide +kernel, by decide +kernel⟩

/-- The interval [-FLT_MAX, +inf] and the input -inf: the value below the first split point is computed at -FLT_MAX. -/
theorem single_float_infinite_counterexample :
    let trees := [oneSplit (.interval 0 (.num (-maxF)) .pinf)]
    runForest (sampleCtx 20) {} trees [{}] (floatEnv .ninf) = some [1] ∧
    runForest (sampleCtx 20) { single := false } trees [{}] (floatEnv .ninf) = some [0] :=
  ⟨by decide +kernel, by decide +kernel⟩

/-- The set {-inf, 0} and the input -1: the value between the split points is computed at -inf. -/
theorem single_float_set_counterexample :
    let trees := [oneSplit (.setF32 0 [.ninf, .num 0] false)]
    runForest (sampleCtx 20) {} trees [{}] (floatEnv (.num (-1))) = some [1] ∧
    runForest (sampleCtx 20) { single := false } trees [{}] (floatEnv (.num (-1))) = some [0] :=
  ⟨by decide +kernel, by decide +kernel⟩

/-- A set which is true for missing values and the input NaN: NaN is not in the set, the single input evaluator treats it
as missing. -/
theorem single_float_nan_counterexample :
    let trees := [oneSplit (.setF32 0 [.num 0] true)]
    runForest (sampleCtx 20) {} trees [{}] (floatEnv .nan) = some [1] ∧
    runForest (sampleCtx 20) { single := false } trees [{}] (floatEnv .nan) = some [0] :=
  ⟨by decide +kernel, by decide +kernel⟩

/-- The set {2^62, 2^62 + 1}: the sum of the split points overflows `int64_t`, which is undefined behaviour. -/
theorem single_int64_overflow_counterexample :
    runForest (sampleCtx 20) {} [oneSplit (.setI64 0 [2 ^ 62, 2 ^ 62 + 1] false)] [{}]
      ⟨fun _ => none, fun _ => some 0, fun _ => false⟩ = none ∧
    (compileForest (sampleCtx 20) {} [oneSplit (.setI64 0 [2 ^ 62, 2 ^ 62 + 1] false)] [{}]).isNone = true ∧
    runForest (sampleCtx 20) { single := false } [oneSplit (.setI64 0 [2 ^ 62, 2 ^ 62 + 1] false)] [{}]
      ⟨fun _ => none, fun _ => some 0, fun _ => false⟩ = some [0] :=
  ⟨by decide +kernel, by decide +kernel, by decide +kernel⟩

/-- A custom condition with one optional `float` input: the forest is valid and can be evaluated without single input
evaluators, with them compilation fails. -/
theorem single_custom_condition_counterexample :
    let ctx : Ctx := ⟨fun _ => [(0, .f32)], Cond.equals false, sampleOracles, 20⟩
    (∃ m, fromTrees (Cond.sig ctx.osig) [oneSplit (.other 0)] = .ok m) ∧
    compileForest ctx {} [oneSplit (.other 0)] [{}] = some (.error .unsupported) ∧
    runForest ctx { single := false } [oneSplit (.other 0)] [{}] ⟨fun _ => none, fun _ => none, fun _ => true⟩ = some [1] :=
  ⟨⟨⟨1, 1, [(0, .f32)]⟩, by decide +kernel⟩, rfl, by decide +kernel⟩

end Verif.Forest
