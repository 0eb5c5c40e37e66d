import Verif.Forest.SingleEvalLemmas
import Verif.Forest.ForestProps

/-!
# Lemmas: the evaluator of a whole forest
-/

namespace Verif.Forest

variable {M T : Type} [Semiring M]

/-! ### The evaluator inside of the single input evaluator -/

theorem fillParts_ok {ctx : Ctx} (ho : ctx.o.Ok) (hpos : 0 < ctx.fuel) (params : Params) {trees : List (Tree Cond M)}
    (ht : ∀ t ∈ trees, TreeOk t ∧ FuelOk ctx t) {outputs : List Filter} (hne : outputs ≠ [])
    (hd : ∀ t ∈ trees, Disjoint' outputs t.tag) :
    (params.regular = false ∧ fillParts ctx params trees outputs = some (.error .noEvaluator)) ∨
    ∃ p core, ∃ S : List (Tree Cond M × Nat), fillParts ctx params trees outputs = some (.ok p) ∧
      p.buildCore ctx outputs.length = .ok core ∧
      (params.single = false → S = []) ∧ (∀ x ∈ S, x.1 ∈ trees) ∧
      GroupRel (SinglesOf ctx.osig) outputs.length S p.singles ∧
      ∀ env, ∃ outs, core.eval ctx env = some outs ∧ outs.length = outputs.length ∧
        ∀ (g : Nat) (f : Filter), outputs[g]? = some f → ∃ y, outs[g]? = some y ∧
          y + ((ofGroup S g).map (treeVal env)).sum = ((trees.filter fun t => f.accepts t.tag).map (treeVal env)).sum := by
  have hs := splitTreesByGroups_ok trees outputs hne hd
  have ha := addTrees_inv (G := outputs.length) params trees (trees.map fun t => groupOf outputs t.tag) [] (newParts M outputs.length)
    (hasInv_new ctx _ params) ht (fun g hg => by
      obtain ⟨t, -, h⟩ := List.mem_map.1 hg
      exact groupOf_lt h)
  simp only [fillParts, hs]
  rcases ha with ⟨h1, h2⟩ | ⟨p, h1, U, I, K, S, ops, hinv, hS⟩
  · left
    rw [h2]
    exact ⟨h1, rfl⟩
  · right
    simp only [h1]
    rw [List.nil_append, used_map] at hinv
    have hmem : ∀ x ∈ trees.filterMap (fun t => (groupOf outputs t.tag).map fun g => (t, g)), x.1 ∈ trees := by
      intro x hx
      simp only [List.mem_filterMap, Option.map_eq_some_iff] at hx
      obtain ⟨t, h1, g, -, rfl⟩ := hx
      exact h1
    obtain ⟨p', core, c1, c2, c3, c4⟩ := core_eval ho hinv (fun x hx => ht _ (hmem x hx)) hpos
    refine ⟨p', core, S, c1, c3, hS, fun x hx => hmem x (hinv.mem x (by tauto)), by rw [c2]; exact hinv.singles, fun env => ?_⟩
    obtain ⟨outs, d1, d2, d3⟩ := c4 env
    refine ⟨outs, d1, d2, fun g f hf => ?_⟩
    have hg : g < outputs.length := (List.getElem?_eq_some_iff.1 hf).1
    obtain ⟨y, e1, e2⟩ := d3 g hg
    refine ⟨y, e1, ?_⟩
    rw [e2, ofGroup_used hf trees hd]

theorem default_accepts {t : Tree Cond M} (ht : TreeOk t) : ({} : Filter).accepts t.tag = true := by
  simp [Filter.accepts, ht.step]

theorem compileInner_ok {ctx : Ctx} (ho : ctx.o.Ok) (hpos : 0 < ctx.fuel) {trees : List (Tree Cond M)}
    (ht : ∀ t ∈ trees, TreeOk t ∧ FuelOk ctx t) :
    ∃ core, compileInner ctx trees = some (.ok core) ∧
      ∀ env, evalInner ctx core env = some ((trees.map (treeVal env)).sum) := by
  rcases fillParts_ok ho hpos ⟨true, true, false⟩ ht (outputs := [{}]) (by simp) (fun t _ => List.pairwise_singleton _ _) with
    ⟨h, -⟩ | ⟨p, core, S, h1, h2, hS, -, -, h3⟩
  · simp at h
  · refine ⟨core, by simp only [compileInner, h1]; rw [show [({} : Filter)].length = 1 from rfl] at h2; rw [h2], fun env => ?_⟩
    obtain ⟨outs, d1, d2, d3⟩ := h3 env
    obtain ⟨y, e1, e2⟩ := d3 0 {} rfl
    rw [hS rfl] at e2
    rw [evalInner, d1, Option.bind_some, e1]
    simp only [ofGroup, List.filter_nil, List.map_nil, List.sum_nil, add_zero] at e2
    rw [e2, List.filter_eq_self.2 fun t htm => default_accepts (ht t htm).1]

/-! ### Trees with a single input -/

theorem singleInputLoop_spec (osig : Nat → List (Nat × QT)) : ∀ (ns : List (SplitNode Cond)) (cur : Option (Nat × QT)) (s : Nat × QT),
    singleInputLoop osig ns cur = some (some s) →
    (∀ n ∈ ns, ∃ q, n.cond.sig osig = [(s.1, q)]) ∧ (∀ c, cur = some c → c.1 = s.1) ∧
    (cur = some s ∨ ∃ n ∈ ns, n.cond.sig osig = [s]) := by
  intro ns
  induction ns with
  | nil => intro cur s h; simp only [singleInputLoop, Option.some.injEq] at h; subst h; simp
  | cons n ns ih =>
    intro cur s h
    rw [singleInputLoop] at h
    split at h
    · rename_i x hx
      split at h
      · cases h
      · rename_i hc
        obtain ⟨h1, h2, h3⟩ := ih _ _ h
        have hx1 : x.1 = s.1 := h2 x rfl
        refine ⟨fun m hm => ?_, fun c hcur => ?_, ?_⟩
        · rcases List.mem_cons.1 hm with rfl | hm
          · exact ⟨x.2, by rw [hx, ← hx1]⟩
          · exact h1 m hm
        · subst hcur
          simp only [Option.any_some, bne_iff_ne, ne_eq, Decidable.not_not] at hc
          rw [hc, hx1]
        · right
          rcases h3 with h3 | ⟨m, hm, h3⟩
          · cases h3; exact ⟨n, by simp, hx⟩
          · exact ⟨m, by simp [hm], h3⟩
    · cases h

theorem singleInput_spec {osig : Nat → List (Nat × QT)} {trees : List (Tree Cond M)} {m : Meta QT}
    (hm : fromTrees (Cond.sig osig) trees = .ok m) {t : Tree Cond M} (ht : t ∈ trees) {id : Nat} {q : QT}
    (h : singleInput osig t = some (id, q)) : ∀ n ∈ t.splits, n.cond.sig osig = [(id, q)] := by
  intro n hn
  have hj : singleInputLoop osig t.splits none = some (some (id, q)) := by
    rw [singleInput] at h
    cases hx : singleInputLoop osig t.splits none with
    | none => rw [hx] at h; cases h
    | some x => rw [hx] at h; simp only [Option.join_some] at h; rw [h]
  obtain ⟨h1, -, h3⟩ := singleInputLoop_spec osig t.splits none (id, q) hj
  obtain ⟨q', hq'⟩ := h1 n hn
  rcases h3 with h3 | ⟨k, hk, h3⟩
  · cases h3
  · have := ((from_trees_accepts (Cond.sig osig) trees).1.1 ⟨m, hm⟩).2 id q' q ⟨t, ht, n, hn, by rw [hq']; simp⟩
      ⟨t, ht, k, hk, by rw [h3]; simp⟩
    rw [hq', this]

theorem fromTrees_sub {osig : Nat → List (Nat × QT)} {trees : List (Tree Cond M)} {m : Meta QT}
    (hm : fromTrees (Cond.sig osig) trees = .ok m) {ts : List (Tree Cond M)} (h : ∀ t ∈ ts, t ∈ trees) :
    ∃ m', fromTrees (Cond.sig osig) ts = .ok m' := by
  obtain ⟨h1, h2⟩ := (from_trees_accepts (Cond.sig osig) trees).1.1 ⟨m, hm⟩
  refine (from_trees_accepts (Cond.sig osig) ts).1.2 ⟨fun t ht => h1 t (h t ht), fun id q q' u u' => h2 id q q' ?_ ?_⟩
  · obtain ⟨t, ht, g⟩ := u; exact ⟨t, h t ht, g⟩
  · obtain ⟨t, ht, g⟩ := u'; exact ⟨t, h t ht, g⟩

theorem path_congr {t : Tree Cond M} {ev ev' : Cond → Bool} (h : ∀ n ∈ t.splits, ev n.cond = ev' n.cond) {r : Ref} {i : Nat}
    (hp : Path ev t r i) : Path ev' t r i := by
  induction hp with
  | leaf i => exact .leaf i
  | yes hn he _ ih => exact .yes hn (by rw [← h _ (List.mem_of_getElem? hn)]; exact he) ih
  | no hn he _ ih => exact .no hn (by rw [← h _ (List.mem_of_getElem? hn)]; exact he) ih

theorem treeVal_congr {t : Tree Cond M} (hp : Proper t) {env env' : Env}
    (h : ∀ n ∈ t.splits, n.cond.eval env = n.cond.eval env') : treeVal env t = treeVal env' t := by
  obtain ⟨i, a, h1, h2, h3⟩ := treeVal_spec hp env'
  exact treeVal_eq ⟨i, a, path_congr (fun n hn => (h n hn).symm) h1, h2, h3⟩

theorem sum_congr {ts : List (Tree Cond M)} {env env' : Env} (h : ∀ t ∈ ts, treeVal env t = treeVal env' t) :
    (ts.map (treeVal env)).sum = (ts.map (treeVal env')).sum := by
  rw [List.map_congr_left h]

/-- The piecewise constant evaluator of trees with the same input. -/
theorem buildSingle_ok {ctx : Ctx} (ho : ctx.o.Ok) (hpos : 0 < ctx.fuel) {k : NumKind T} {q : QT} {PS VS : T → Prop}
    (hk : KindOk k q PS VS) {ts : List (Tree Cond M)} (hts : ∀ t ∈ ts, TreeOk t ∧ FuelOk ctx t)
    {m : Meta QT} (hm : fromTrees (Cond.sig ctx.osig) ts = .ok m) {id : Nat}
    (hsig : ∀ t ∈ ts, ∀ n ∈ t.splits, n.cond.sig ctx.osig = [(id, q)])
    (hsafe : ∀ t ∈ ts, ∀ n ∈ t.splits, n.cond.Safe ∧ n.cond.Basic ctx.osig) :
    ∃ pw, buildSingle ctx k ts = some (.ok pw) ∧ ∀ env : Env, NanOk env ts →
      (ts ≠ [] → ∀ x, k.read env id = some x → VS x) → pw.eval k (k.read env id) = some ((ts.map (treeVal env)).sum) := by
  obtain ⟨core, c1, c2⟩ := compileInner_ok ho hpos hts
  obtain ⟨ps, p1, p2⟩ := allPoints_spec (k := k) (ts.flatMap fun t => t.splits.map (·.cond)) (by
    intro c hc
    simp only [List.mem_flatMap, List.mem_map] at hc
    obtain ⟨t, ht, n, hn, rfl⟩ := hc
    obtain ⟨ps, h, -⟩ := hk.points ctx.osig n.cond id (hsafe t ht n hn).2 (hsig t ht n hn) (hsafe t ht n hn).1
    exact ⟨ps, h⟩)
  have hPS : ∀ p ∈ ps, PS p ∧ k.nan p = false := by
    intro p hp
    obtain ⟨c, hc, qs, g1, g2⟩ := (p2 p).1 hp
    simp only [List.mem_flatMap, List.mem_map] at hc
    obtain ⟨t, ht, n, hn, rfl⟩ := hc
    obtain ⟨ps', h, h', -⟩ := hk.points ctx.osig n.cond id (hsafe t ht n hn).2 (hsig t ht n hn) (hsafe t ht n hn).1
    rw [h] at g1
    cases g1
    exact h' p g2
  obtain ⟨qs, q1, q2, q3⟩ := splitPoints_spec hk.laws ho p1 fun a ha => (hPS a ha).2
  have hq : ∀ p ∈ qs, PS p ∧ k.nan p = false := fun p hp => hPS p ((q3 p).1 hp)
  have hconst : ∀ u v, k.nan u = false → k.nan v = false → SameGap k qs u v →
      (ts.map (treeVal (k.frame (some u)))).sum = (ts.map (treeVal (k.frame (some v)))).sum := by
    intro u v hu hv hg
    refine sum_congr fun t ht => treeVal_congr (hts t ht).1.toProper fun n hn => ?_
    obtain ⟨ps', h, -, h'⟩ := hk.points ctx.osig n.cond id (hsafe t ht n hn).2 (hsig t ht n hn) (hsafe t ht n hn).1
    refine h' u v hu hv fun p hp => hg p ((q3 p).2 ((p2 p).2 ⟨n.cond, ?_, ps', h, hp⟩))
    simp only [List.mem_flatMap, List.mem_map]
    exact ⟨t, ht, n, hn, rfl⟩
  obtain ⟨pw, w1, w2⟩ := buildPiecewise_ok hk.laws (ev := fun v => evalInner ctx core (k.frame v))
    (f := fun v => (ts.map (treeVal (k.frame v))).sum) (fun v => c2 _) q2 (fun p hp => (hq p hp).2)
    (fun l hl r hr _ => hk.mid l r (hq l hl).1 (hq r hr).1) hconst
  refine ⟨pw, by simp only [buildSingle, q1, hm, c1, w1]; rfl, fun env hnan hvs => ?_⟩
  rw [w2 (k.read env id) ?_ ?_]
  · congr 1
    refine sum_congr fun t ht => treeVal_congr (hts t ht).1.toProper fun n hn => ?_
    exact (hk.env ctx.osig n.cond id (hsafe t ht n hn).2 (hsig t ht n hn) env).symm
  · intro x hx hxn
    rw [hx]
    refine sum_congr fun t ht => treeVal_congr (hts t ht).1.toProper fun n hn => ?_
    exact hk.nan ctx.osig n.cond id (hsafe t ht n hn).2 (hsig t ht n hn) env x hx hxn
      fun vs hvs => hnan t ht n hn id vs hvs
  · intro x hx hxn
    have hv : ∀ l ∈ qs, VS x := by
      intro l hl
      refine hvs ?_ x hx
      rintro rfl
      obtain ⟨c, hc, -⟩ := (p2 l).1 ((q3 l).1 hl)
      simp at hc
    exact ⟨fun l hl r hr => hk.between l r x (hq l hl).1 (hq r hr).1 (hv l hl), fun p hp _ => hk.low p (hq p hp).1,
      fun p hp _ => hk.high p (hq p hp).1⟩

/-! ### All single input evaluators -/

/-- What is known about the trees of the single input builder. -/
structure SingleTrees (ctx : Ctx) (ts : List (Tree Cond M)) : Prop where
  ok : ∀ t ∈ ts, TreeOk t ∧ FuelOk ctx t
  safe : ∀ t ∈ ts, ∀ n ∈ t.splits, n.cond.Safe ∧ n.cond.Basic ctx.osig
  forest : ∃ m, fromTrees (Cond.sig ctx.osig) ts = .ok m

theorem SingleTrees.sub {ctx : Ctx} {ts ts' : List (Tree Cond M)} (h : SingleTrees ctx ts) (hs : ∀ t ∈ ts', t ∈ ts) :
    SingleTrees ctx ts' := by
  obtain ⟨m, hm⟩ := h.forest
  exact ⟨fun t ht => h.ok t (hs t ht), fun t ht => h.safe t (hs t ht), fromTrees_sub hm hs⟩

theorem buildVector_ok {ctx : Ctx} (ho : ctx.o.Ok) (hpos : 0 < ctx.fuel) {k : NumKind T} {q : QT} {PS VS : T → Prop}
    (hk : KindOk k q PS VS) : ∀ es : List (Nat × List (Tree Cond M)), SingleTrees ctx (es.flatMap Prod.snd) →
    (∀ e ∈ es, ∀ t ∈ e.2, singleInput ctx.osig t = some (e.1, q)) →
    ∃ pws, buildVector ctx k es = some (.ok pws) ∧ ∀ env : Env, NanOk env (es.flatMap Prod.snd) →
      (es.flatMap Prod.snd ≠ [] → ∀ id x, k.read env id = some x → VS x) → ∀ acc,
        sumPredictors k env pws acc = some (acc + ((es.flatMap Prod.snd).map (treeVal env)).sum) := by
  intro es
  induction es with
  | nil => intro _ _; exact ⟨[], rfl, fun env _ _ acc => by simp [sumPredictors]⟩
  | cons e es ih =>
    obtain ⟨id, ts⟩ := e
    intro hts hsi
    have h1 : SingleTrees ctx ts := hts.sub fun t ht => by simp [ht]
    obtain ⟨m, hm⟩ := hts.forest
    obtain ⟨m1, hm1⟩ := h1.forest
    obtain ⟨pw, w1, w2⟩ := buildSingle_ok ho hpos hk h1.ok hm1 (id := id)
      (fun t ht => singleInput_spec hm (by simp [ht]) (hsi (id, ts) (by simp) t ht)) h1.safe
    obtain ⟨pws, v1, v2⟩ := ih (hts.sub fun t ht => by rw [List.flatMap_cons, List.mem_append]; exact .inr ht)
      fun e he => hsi e (by simp [he])
    refine ⟨(id, pw) :: pws, by simp only [buildVector, w1, v1], fun env hn hv acc => ?_⟩
    have n1 : NanOk env ts := fun t ht => hn t (by simp [ht])
    have n2 : NanOk env (es.flatMap Prod.snd) := fun t ht => hn t (by rw [List.flatMap_cons, List.mem_append]; exact .inr ht)
    rw [sumPredictors, w2 env n1 (fun h => hv (by simp [h]) id)]
    show sumPredictors k env pws _ = _
    rw [v2 env n2 (fun h => hv (by rw [List.flatMap_cons]; exact List.append_ne_nil_of_right_ne_nil _ h)), List.flatMap_cons, List.map_append, List.sum_append, add_assoc]

/-- The inputs which are covered. -/
def InputOk (env : Env) (trees : List (Tree Cond M)) : Prop := trees ≠ [] → EnvOk env ∧ NanOk env trees

theorem buildGroup_ok {ctx : Ctx} (ho : ctx.o.Ok) (hpos : 0 < ctx.fuel) {s : Singles M} {ts : List (Tree Cond M)}
    (hs : SinglesOf ctx.osig s ts) (hts : SingleTrees ctx ts) :
    ∃ x, buildGroup ctx s = some (.ok x) ∧ ∀ env, InputOk env ts → ∃ a,
      sumPredictors f32Kind env x.f32 0 = some a ∧
      sumPredictors i64Kind env x.i64 a = some ((ts.map (treeVal env)).sum) := by
  obtain ⟨h1, h2, h3⟩ := hs
  have pf : ((ctx.o.order s.f32).flatMap Prod.snd).Perm (s.f32.flatMap Prod.snd) := (ho.order_perm _).flatMap_right _
  have pi : ((ctx.o.order s.i64).flatMap Prod.snd).Perm (s.i64.flatMap Prod.snd) := (ho.order_perm _).flatMap_right _
  have mf : ∀ t ∈ (ctx.o.order s.f32).flatMap Prod.snd, t ∈ ts := fun t ht =>
    h1.mem_iff.1 (List.mem_append.2 (.inl (pf.mem_iff.1 ht)))
  have mi : ∀ t ∈ (ctx.o.order s.i64).flatMap Prod.snd, t ∈ ts := fun t ht =>
    h1.mem_iff.1 (List.mem_append.2 (.inr (pi.mem_iff.1 ht)))
  obtain ⟨f, f1, f2⟩ := buildVector_ok ho hpos f32_ok (ctx.o.order s.f32) (hts.sub mf)
    fun e he => h2 e ((ho.order_perm _).mem_iff.1 he)
  obtain ⟨i, i1, i2⟩ := buildVector_ok ho hpos i64_ok (ctx.o.order s.i64) (hts.sub mi)
    fun e he => h3 e ((ho.order_perm _).mem_iff.1 he)
  refine ⟨⟨f, i⟩, by simp only [buildGroup, f1, i1], fun env henv => ?_⟩
  have ne : ∀ t ∈ ts, ts ≠ [] := fun t ht => List.ne_nil_of_mem ht
  refine ⟨_, f2 env (fun t ht => (henv (ne t (mf t ht))).2 t (mf t ht)) (fun hn id x hx => ?_) 0, ?_⟩
  · obtain ⟨t, ht⟩ := List.exists_mem_of_ne_nil _ hn
    exact (henv (ne t (mf t ht))).1.f id x hx
  rw [i2 env (fun t ht => (henv (ne t (mi t ht))).2 t (mi t ht)) (fun _ _ _ _ => trivial), zero_add, ← List.sum_append, ← List.map_append]
  congr 1
  exact (((pf.append pi).trans h1).map _).sum_eq

theorem buildSingles_ok {ctx : Ctx} (ho : ctx.o.Ok) (hpos : 0 < ctx.fuel) : ∀ (ss : List (Singles M)) (tss : Nat → List (Tree Cond M)),
    (∀ (g : Nat) (s : Singles M), ss[g]? = some s → SinglesOf ctx.osig s (tss g) ∧ SingleTrees ctx (tss g)) →
    ∃ xs, buildSingles ctx ss = some (.ok xs) ∧ ∀ env, (∀ g < ss.length, InputOk env (tss g)) → ∀ outs : List M,
      outs.length = ss.length → ∃ res, evalSingles env xs outs = some res ∧ res.length = outs.length ∧
        ∀ (g : Nat) (y : M), outs[g]? = some y → res[g]? = some (y + ((tss g).map (treeVal env)).sum) := by
  intro ss
  induction ss with
  | nil =>
    intro tss _
    refine ⟨[], rfl, fun env _ outs ho => ⟨outs, rfl, rfl, fun g y hy => ?_⟩⟩
    have : outs = [] := by simpa using ho
    subst this
    simp at hy
  | cons s ss ih =>
    intro tss h
    obtain ⟨h1, h2⟩ := h 0 s rfl
    obtain ⟨x, x1, x2⟩ := buildGroup_ok ho hpos h1 h2
    obtain ⟨xs, xs1, xs2⟩ := ih (fun g => tss (g + 1)) fun g s hs => h (g + 1) s (by rw [List.getElem?_cons_succ]; exact hs)
    refine ⟨x :: xs, by simp only [buildSingles, x1, xs1], fun env henv outs hlen => ?_⟩
    cases outs with
    | nil => simp at hlen
    | cons out outs =>
      obtain ⟨a, a1, a2⟩ := x2 env (henv 0 (by simp))
      obtain ⟨res, r1, r2, r3⟩ := xs2 env (fun g hg => henv (g + 1) (by simp only [List.length_cons]; omega)) outs
        (by simpa using hlen)
      refine ⟨(out + ((tss 0).map (treeVal env)).sum) :: res, by simp [evalSingles, a1, a2, r1], by simp [r2], fun g y hy => ?_⟩
      cases g with
      | zero => simp only [List.getElem?_cons_zero, Option.some.injEq] at hy ⊢; rw [hy]
      | succ g => rw [List.getElem?_cons_succ] at hy ⊢; exact r3 g y hy

end Verif.Forest
