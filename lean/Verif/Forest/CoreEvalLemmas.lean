import Verif.Forest.PartsLemmas

/-!
# Lemmas: groups, constants, evaluation by the regular and bitmask predictors
-/

namespace Verif.Forest

variable {M : Type}

/-! ### Groups -/

theorem assignGroup_ok (g : Nat) (f : Filter) (a : Tree Cond M → Option Nat) : ∀ ts : List (Tree Cond M),
    (∀ t ∈ ts, f.accepts t.tag = true → a t = none) →
    assignGroup g f ts (ts.map a) = .ok (ts.map fun t => if f.accepts t.tag then some g else a t) := by
  intro ts
  induction ts with
  | nil => intro _; rfl
  | cons t ts ih =>
    intro h
    simp only [List.map_cons, assignGroup]
    rw [ih fun t' ht' => h t' (by simp [ht'])]
    cases hf : f.accepts t.tag with
    | false => simp [Except.map]
    | true => simp [Except.map, h t (by simp) hf]

theorem assignGroup_error (g : Nat) (f : Filter) (a : Tree Cond M → Option Nat) : ∀ ts : List (Tree Cond M),
    (∃ t ∈ ts, f.accepts t.tag = true ∧ (a t).isSome) → assignGroup g f ts (ts.map a) = .error .intersection := by
  intro ts
  induction ts with
  | nil => rintro ⟨t, ht, -⟩; simp at ht
  | cons t ts ih =>
    rintro ⟨t', ht', h1, h2⟩
    simp only [List.map_cons, assignGroup]
    rcases List.mem_cons.1 ht' with rfl | ht'
    · simp [h1, h2]
    · rw [ih ⟨t', ht', h1, h2⟩]
      split
      · rfl
      · split <;> rfl

/-- At most one of the filters accepts the tag. -/
def Disjoint' (fs : List Filter) (tag : Tag) : Prop :=
  fs.Pairwise fun f f' => ¬ (f.accepts tag = true ∧ f'.accepts tag = true)

theorem assignGroups_ok (ts : List (Tree Cond M)) : ∀ (fs : List Filter) (g : Nat) (a : Tree Cond M → Option Nat),
    (∀ t ∈ ts, Disjoint' fs t.tag ∧ ∀ f ∈ fs, f.accepts t.tag = true → a t = none) →
    assignGroups ts g fs (ts.map a) =
      .ok (ts.map fun t => ((fs.findIdx? fun f => f.accepts t.tag).map (· + g)).or (a t)) := by
  intro fs
  induction fs with
  | nil => intro g a _; simp [assignGroups]
  | cons f fs ih =>
    intro g a h
    rw [assignGroups, assignGroup_ok g f a ts fun t ht => (h t ht).2 f (by simp)]
    simp only
    rw [ih]
    · congr 1
      refine List.map_congr_left fun t ht => ?_
      obtain ⟨h1, h2⟩ := h t ht
      obtain ⟨h1, -⟩ := List.pairwise_cons.1 h1
      rw [List.findIdx?_cons]
      cases hf : f.accepts t.tag with
      | false =>
        simp only [Bool.false_eq_true, if_false, Option.map_map]
        congr 2
        funext i; simp only [Function.comp]; omega
      | true =>
        have : (fs.findIdx? fun f => f.accepts t.tag) = none := by
          rw [List.findIdx?_eq_none_iff]
          intro f' hf'
          cases hx : f'.accepts t.tag with
          | false => rfl
          | true => exact absurd ⟨hf, hx⟩ (h1 f' hf')
        simp [this]
    · intro t ht
      obtain ⟨h1, h2⟩ := h t ht
      obtain ⟨h1, h1'⟩ := List.pairwise_cons.1 h1
      refine ⟨h1', fun f' hf' hacc => ?_⟩
      cases hf : f.accepts t.tag with
      | false => simp [h2 f' (by simp [hf']) hacc]
      | true => exact absurd ⟨hf, hacc⟩ (h1 f' hf')

theorem assignGroups_error (ts : List (Tree Cond M)) : ∀ (fs : List Filter) (g : Nat) (a : Tree Cond M → Option Nat),
    (∃ t ∈ ts, ¬ Disjoint' fs t.tag ∨ ∃ f ∈ fs, f.accepts t.tag = true ∧ (a t).isSome) →
    assignGroups ts g fs (ts.map a) = .error .intersection := by
  intro fs
  induction fs with
  | nil => rintro g a ⟨t, ht, h | ⟨f, hf, -⟩⟩
           · exact absurd List.Pairwise.nil h
           · simp at hf
  | cons f fs ih =>
    rintro g a ⟨t, ht, h⟩
    rw [assignGroups]
    by_cases hc : ∃ t ∈ ts, f.accepts t.tag = true ∧ (a t).isSome
    · rw [assignGroup_error g f a ts hc]
    · have hc' : ∀ t ∈ ts, f.accepts t.tag = true → a t = none := by
        intro t ht hacc
        cases ha : a t with
        | none => rfl
        | some x => exact absurd ⟨t, ht, hacc, by simp [ha]⟩ hc
      rw [assignGroup_ok g f a ts hc']
      simp only
      refine ih _ _ ⟨t, ht, ?_⟩
      rcases h with h | ⟨f', hf', hacc, hs⟩
      · by_cases hd : Disjoint' fs t.tag
        · right
          have : ∃ f' ∈ fs, f.accepts t.tag = true ∧ f'.accepts t.tag = true := by
            by_contra hno
            refine h (List.pairwise_cons.2 ⟨fun f' hf' hb => hno ⟨f', hf', hb⟩, hd⟩)
          obtain ⟨f', hf', g1, g2⟩ := this
          exact ⟨f', hf', g2, by simp [g1]⟩
        · exact .inl hd
      · rcases List.mem_cons.1 hf' with rfl | hf'
        · exact absurd ⟨t, ht, hacc, hs⟩ hc
        · exact .inr ⟨f', hf', hacc, by cases hx : f.accepts t.tag <;> simp [hs]⟩

theorem replicate_none (ts : List (Tree Cond M)) : List.replicate ts.length (none : Option Nat) = ts.map fun _ => none := by
  rw [List.map_const']

/-- The group of a tree. -/
def groupOf (fs : List Filter) (tag : Tag) : Option Nat := fs.findIdx? fun f => f.accepts tag

theorem splitTreesByGroups_ok (ts : List (Tree Cond M)) (fs : List Filter) (hne : fs ≠ [])
    (h : ∀ t ∈ ts, Disjoint' fs t.tag) : splitTreesByGroups ts fs = .ok (ts.map fun t => groupOf fs t.tag) := by
  rw [splitTreesByGroups, if_neg (by simpa using hne), replicate_none,
    assignGroups_ok ts fs 0 _ fun t ht => ⟨h t ht, fun _ _ _ => rfl⟩]
  simp [groupOf]

theorem used_map (a : Tree Cond M → Option Nat) : ∀ ts : List (Tree Cond M),
    used ts (ts.map a) = ts.filterMap fun t => (a t).map fun g => (t, g) := by
  intro ts
  induction ts with
  | nil => rfl
  | cons t ts ih =>
    simp only [List.map_cons]
    cases h : a t with
    | none => rw [used, ih]; simp [h]
    | some g => rw [used, ih]; simp [h]

theorem groupOf_eq_some {fs : List Filter} {tag : Tag} (hd : Disjoint' fs tag) {g : Nat} {f : Filter} (hf : fs[g]? = some f) :
    groupOf fs tag = some g ↔ f.accepts tag = true := by
  obtain ⟨hg, rfl⟩ := List.getElem?_eq_some_iff.1 hf
  rw [groupOf, List.findIdx?_eq_some_iff_getElem]
  constructor
  · rintro ⟨h, h1, -⟩; exact h1
  · intro h
    refine ⟨hg, h, fun j hj hacc => ?_⟩
    exact List.pairwise_iff_getElem.1 hd j g (by omega) hg hj ⟨hacc, h⟩

theorem groupOf_lt {fs : List Filter} {tag : Tag} {g : Nat} (h : groupOf fs tag = some g) : g < fs.length := by
  rw [groupOf, List.findIdx?_eq_some_iff_getElem] at h
  exact h.1

variable [Semiring M]

theorem ofGroup_used {fs : List Filter} {g : Nat} {f : Filter} (hf : fs[g]? = some f) : ∀ ts : List (Tree Cond M),
    (∀ t ∈ ts, Disjoint' fs t.tag) →
    ofGroup (ts.filterMap fun t => (groupOf fs t.tag).map fun g => (t, g)) g = ts.filter fun t => f.accepts t.tag := by
  intro ts
  induction ts with
  | nil => intro _; rfl
  | cons t ts ih =>
    intro h
    have ih := ih fun t' ht' => h t' (by simp [ht'])
    have hi := groupOf_eq_some (h t (by simp)) hf
    rw [List.filter_cons, List.filterMap_cons]
    cases hg : groupOf fs t.tag with
    | none =>
      rw [hg] at hi
      have : f.accepts t.tag = false := by cases hx : f.accepts t.tag <;> simp_all
      simp [this, ih]
    | some g' =>
      simp only [Option.map_some]
      rw [show ∀ l, (t, g') :: l = [(t, g')] ++ l from fun _ => rfl, ofGroup_append, ih]
      rw [hg] at hi
      by_cases he : g' = g
      · subst he; simp [ofGroup, hi.1 rfl]
      · have : f.accepts t.tag = false := by cases hx : f.accepts t.tag <;> simp_all
        simp [ofGroup, he, this]

/-! ### Constants -/

theorem constTree_compile (c : Int × M) :
    compileRegular (fun a w : M => a * w) (constTree c) = some (.ok ⟨[], [c.2 * 1]⟩) := rfl

theorem constTree_proper (m : M) : Proper (constTree (0, m)) := by
  refine ⟨⟨by simp [constTree], by simp [constTree], by simp [constTree], by simp [constTree], by simp [constTree]⟩, ?_, ?_⟩ <;>
    simp [constTree, Tree.childRefs]

theorem constTree_value (env : Env) (m : M) : TreeValue env (constTree (0, m)) m :=
  ⟨0, m, .leaf 0, rfl, by simp [constTree]⟩

/-- The compiled constants. -/
def constsCompiled (cs : List (Int × M)) : List (Compact Cond M × Int) := cs.map fun c => (⟨[], [c.2 * 1]⟩, c.1)

theorem constsCompiled_as (cs : List (Int × M)) : CompiledAs (constsCompiled cs) (cs.map fun c => constTree (0, c.2)) := by
  simp only [CompiledAs, constsCompiled, List.map_map]
  refine List.map_congr_left fun c _ => ?_
  rfl

theorem addConstsOf_eq (g : Nat) : ∀ (cs : List (Int × M)) (p : Parts M),
    addConstsOf g cs p = some (.ok { p with interval := p.interval.modify g (· ++ constsCompiled cs) }) := by
  intro cs
  induction cs with
  | nil =>
    intro p
    have : p.interval.modify g (fun x => x ++ constsCompiled []) = p.interval := by
      rw [show (fun x : List (Compact Cond M × Int) => x ++ constsCompiled []) = id from by funext x; simp [constsCompiled]]
      exact List.modify_id ..
    rw [addConstsOf, this]
  | cons c cs ih =>
    intro p
    rw [addConstsOf, Parts.addRegular, constTree_compile]
    simp only [show onlyIntervals (constTree c) = true from rfl, if_true]
    rw [ih]
    simp only [List.modify_modify_eq]
    congr 4
    funext x
    simp [constsCompiled, constTree]

theorem addConsts_ok (o : Oracles) : ∀ (css : List (List (Int × M))) (g0 : Nat) (p : Parts M),
    ∃ p', addConsts o g0 css p = some (.ok p') ∧ p'.universal = p.universal ∧ p'.bitmask = p.bitmask ∧
      p'.singles = p.singles ∧ p'.interval.length = p.interval.length ∧
      ∀ (g : Nat) (cs : List (Compact Cond M × Int)), p.interval[g]? = some cs →
        (g < g0 → p'.interval[g]? = some cs) ∧
        ∀ m, g0 ≤ g → css[g - g0]? = some m → p'.interval[g]? = some (cs ++ constsCompiled (o.order m)) := by
  intro css
  induction css with
  | nil => intro g0 p; exact ⟨p, rfl, rfl, rfl, rfl, rfl, fun g cs h => ⟨fun _ => h, by simp⟩⟩
  | cons m css ih =>
    intro g0 p
    rw [addConsts, addConstsOf_eq]
    obtain ⟨p', h1, h2, h3, h4, h5, h6⟩ := ih (g0 + 1) { p with interval := p.interval.modify g0 (· ++ constsCompiled (o.order m)) }
    refine ⟨p', h1, h2, h3, h4, by rw [h5]; simp, fun g cs hg => ?_⟩
    by_cases he : g = g0
    · subst he
      have := h6 g (cs ++ constsCompiled (o.order m)) (by simp [List.getElem?_modify, hg])
      refine ⟨by omega, fun m' _ hm' => ?_⟩
      simp only [Nat.sub_self, List.getElem?_cons_zero, Option.some.injEq] at hm'
      subst hm'
      exact this.1 (by omega)
    · have := h6 g cs (by simp [List.getElem?_modify, hg, Ne.symm he])
      refine ⟨fun h => this.1 (by omega), fun m' h hm' => this.2 m' (by omega) ?_⟩
      rw [show g - g0 = (g - (g0 + 1)) + 1 by omega, List.getElem?_cons_succ] at hm'
      exact hm'

/-! ### Evaluation -/

open Classical in
/-- The value of a tree. -/
noncomputable def treeVal (env : Env) (t : Tree Cond M) : M := if h : ∃ v, TreeValue env t v then h.choose else 0

theorem treeVal_spec {t : Tree Cond M} (hp : Proper t) (env : Env) : TreeValue env t (treeVal env t) := by
  rw [treeVal, dif_pos (treeValue_exists hp env)]
  exact (treeValue_exists hp env).choose_spec

theorem treeVal_eq {env : Env} {t : Tree Cond M} {v : M} (h : TreeValue env t v) : treeVal env t = v := by
  rw [treeVal, dif_pos ⟨v, h⟩]
  exact treeValue_unique (Exists.choose_spec (⟨v, h⟩ : ∃ v, TreeValue env t v)) h

theorem predict_compiled {cs : List (Compact Cond M × Int)} {ts : List (Tree Cond M)} (h : CompiledAs cs ts) (env : Env)
    {fuel : Nat} (ht : ∀ t ∈ ts, Proper t ∧ t.splits.length < fuel) :
    predictBoosted (· + ·) (Cond.eval env) (fun _ => true) fuel cs 0 = some ((ts.map (treeVal env)).sum) := by
  have hlen : cs.length = ts.length := by have := congrArg List.length h; simpa using this
  have hmem : ∀ p ∈ ts.zip (cs.map Prod.snd), p.1 ∈ ts := fun p hp => (List.of_mem_zip hp).1
  have := boosted_predict_sum (fun a w : M => a * w) (· + ·) (fun a b c => add_right_comm a b c) (Cond.eval env)
    (fun _ => true) (ts.zip (cs.map Prod.snd)) cs ?_ (fun p hp => (ht p.1 (hmem p hp)).1.toWellFormed) (treeVal env)
    (fun p hp => treeVal_spec (ht p.1 (hmem p hp)).1 env) fuel (fun p hp => (ht p.1 (hmem p hp)).2) 0
  · rw [this]
    congr 1
    rw [List.filter_true, show (fun p : Tree Cond M × Int => treeVal env p.1) = (treeVal env) ∘ Prod.fst from rfl,
      ← List.map_map, List.map_fst_zip (by simp [hlen]), ← List.sum_eq_foldl]
  · refine ⟨by rw [List.map_snd_zip (by simp [hlen])], ?_⟩
    rw [h, show (fun p : Tree Cond M × Int => compileRegular (fun a w : M => a * w) p.1) =
      compileRegular (fun a w : M => a * w) ∘ Prod.fst from rfl, ← List.map_map, List.map_fst_zip (by simp [hlen])]

theorem predictRegular_ok {fuel : Nat} {env : Env} (x y : Nat → M) :
    ∀ (l : List (List (Compact Cond M × Int) × List (Compact Cond M × Int))) (g0 : Nat),
    (∀ (g : Nat) u i, l[g]? = some (u, i) →
      predictBoosted (· + ·) (Cond.eval env) (fun _ => true) fuel u 0 = some (x (g0 + g)) ∧
      predictBoosted (· + ·) (Cond.eval env) (fun _ => true) fuel i 0 = some (y (g0 + g))) →
    predictRegular fuel env l = some ((List.range' g0 l.length).map fun g => x g + y g) := by
  intro l
  induction l with
  | nil => intro g0 _; rfl
  | cons p l ih =>
    intro g0 h
    obtain ⟨u, i⟩ := p
    have h0 := h 0 u i rfl
    have h1 := ih (g0 + 1) fun g u i hg => by
      have := h (g + 1) u i (by rw [List.getElem?_cons_succ]; exact hg)
      rw [show g0 + 1 + g = g0 + (g + 1) by omega]; exact this
    simp only [predictRegular, h0.1, h0.2, h1, List.length_cons, List.range'_succ, List.map_cons]
    rfl

theorem value_unique {scale : M → M → M} {env : Env} {op : AddOp M M} {v w : M} (h : op.Value scale env v)
    (h' : op.Value scale env w) : v = w := by
  cases op with
  | small t g =>
    obtain ⟨i, a, h1, h2, rfl⟩ := h
    obtain ⟨j, b, g1, g2, rfl⟩ := h'
    rw [path_unique h1 g1, g2] at h2
    cases h2; rfl
  | oblivious t =>
    simp only [AddOp.Value] at h h'
    rw [h] at h'; cases h'; rfl

/-- The sum over the trees of a group, as a sum over all trees. -/
theorem sum_ofGroup (L : List (Tree Cond M × Nat)) (g : Nat) (val : Tree Cond M → M) :
    ((ofGroup L g).map val).sum = (L.map fun x => if x.2 = g then val x.1 else 0).sum := by
  induction L with
  | nil => rfl
  | cons x L ih =>
    rw [show ∀ l, x :: l = [x] ++ l from fun _ => rfl, ofGroup_append, List.map_append, List.sum_append, ih]
    by_cases h : x.2 = g <;> simp [ofGroup, h]

theorem core_eval {ctx : Ctx} (ho : ctx.o.Ok) {G : Nat} {l : List (Tree Cond M × Nat)} {p : Parts M}
    {U I K S : List (Tree Cond M × Nat)} {ops : List (AddOp M M × Tree Cond M)} (h : Inv ctx G l p U I K S ops)
    (hl : ∀ x ∈ l, TreeOk x.1 ∧ FuelOk ctx x.1) (hpos : 0 < ctx.fuel) :
    ∃ p' core, addConsts ctx.o 0 p.consts p = some (.ok p') ∧ p'.singles = p.singles ∧ p'.buildCore ctx G = .ok core ∧
      ∀ env, ∃ outs, core.eval ctx env = some outs ∧ outs.length = G ∧ ∀ g < G, ∃ y, outs[g]? = some y ∧
        y + ((ofGroup S g).map (treeVal env)).sum = ((ofGroup l g).map (treeVal env)).sum := by
  obtain ⟨p', c1, c2, c3, c4, c5, c6⟩ := addConsts_ok ctx.o p.consts 0 p
  obtain ⟨b, ev, b1, b2, b3⟩ := bitmask_eval ho G ctx.fuel (fun a w : M => a * w) (ops.map Prod.fst)
    (by intro op hop; obtain ⟨x, hx, rfl⟩ := List.mem_map.1 hop; exact (h.ops x hx).1)
    (by intro t g hop; obtain ⟨x, hx, he⟩ := List.mem_map.1 hop; exact (h.ops x hx).2.1 t g he)
  rw [h.bitmask] at b1
  cases b1
  refine ⟨p', ⟨p'.universal.zip p'.interval, ev⟩, c1, c4, by simp [Parts.buildCore, c3, b2], fun env => ?_⟩
  have hmemU : ∀ {L : List (Tree Cond M × Nat)} {g : Nat} {t : Tree Cond M}, (∀ x ∈ L, x ∈ l) → t ∈ ofGroup L g →
      Proper t ∧ t.splits.length < ctx.fuel := by
    intro L g t hL ht
    obtain ⟨x, hx, rfl⟩ := List.mem_map.1 ht
    have := hl x (hL x (List.mem_filter.1 hx).1)
    exact ⟨this.1.toProper, this.2.1⟩
  -- the constants of a group
  have hconst : ∀ (g : Nat) (m : List (Int × M)), p.consts[g]? = some m →
      (((ctx.o.order m).map fun c => constTree (0, c.2)).map (treeVal env)).sum = ((ofGroup K g).map (treeVal env)).sum := by
    intro g m hm
    have h1 : ((ctx.o.order m).map fun c => constTree (0, c.2)).map (treeVal env) = (ctx.o.order m).map Prod.snd := by
      rw [List.map_map]
      exact List.map_congr_left fun c _ => treeVal_eq (constTree_value env c.2)
    rw [h1, ((ho.order_perm m).map Prod.snd).sum_eq, h.consts.2 g m hm]
    congr 1
    refine List.map_congr_left fun t ht => ?_
    obtain ⟨x, hx, rfl⟩ := List.mem_map.1 ht
    have hxK := (List.mem_filter.1 hx).1
    have hreg := (hl x (h.mem x (by simp [hxK]))).1.regions
    have hs := h.const x hxK
    rw [hs] at hreg
    have ha : x.1.adjustments[0]? = some x.1.adjustments[0] := List.getElem?_eq_getElem (by rw [hreg]; simp)
    refine (treeVal_eq ⟨0, _, ?_, ha, ?_⟩).symm
    · rw [Tree.root, hs]; exact .leaf 0
    · simp [constVal, ha]
  have hreg := predictRegular_ok (fuel := ctx.fuel) (env := env) (fun g => ((ofGroup U g).map (treeVal env)).sum)
    (fun g => ((ofGroup I g).map (treeVal env)).sum + ((ofGroup K g).map (treeVal env)).sum)
    (p'.universal.zip p'.interval) 0 (by
      intro g u i hg
      rw [Nat.zero_add]
      obtain ⟨g1, g2⟩ := List.getElem?_zip_eq_some.1 hg
      rw [c2] at g1
      constructor
      · exact predict_compiled (h.universal.2 g u g1) env fun t ht => hmemU (fun x hx => h.mem x (.inl hx)) ht
      · have hgl : g < p.interval.length := by
          obtain ⟨hg', -⟩ := List.getElem?_eq_some_iff.1 g2; omega
        have hi : p.interval[g]? = some p.interval[g] := List.getElem?_eq_getElem hgl
        have hgc : g < p.consts.length := by rw [h.consts.1, ← h.interval.1]; exact hgl
        have hm : p.consts[g]? = some p.consts[g] := List.getElem?_eq_getElem hgc
        have := (c6 g _ hi).2 _ (Nat.zero_le _) hm
        rw [g2] at this
        rw [show i = _ from Option.some.inj this]
        have hcomp : CompiledAs (p.interval[g] ++ constsCompiled (ctx.o.order p.consts[g]))
            (ofGroup I g ++ (ctx.o.order p.consts[g]).map fun c => constTree (0, c.2)) := by
          rw [CompiledAs, List.map_append, List.map_append, h.interval.2 g _ hi, constsCompiled_as]
        rw [predict_compiled hcomp env, List.map_append, List.sum_append, hconst g _ hm]
        intro t ht
        rcases List.mem_append.1 ht with ht | ht
        · exact hmemU (fun x hx => h.mem x (.inr (.inl hx))) ht
        · obtain ⟨c, -, rfl⟩ := List.mem_map.1 ht
          exact ⟨constTree_proper _, hpos⟩)
  have hzl : (p'.universal.zip p'.interval).length = G := by
    rw [List.length_zip, c2, c5, h.universal.1, h.interval.1]; simp
  classical
  let valop : AddOp M M → M := fun op => if hv : ∃ v, op.Value (fun a w : M => a * w) env v then hv.choose else 0
  have hop : ∀ x ∈ ops, x.1.Value (fun a w : M => a * w) env (treeVal env x.2) := fun x hx =>
    (h.ops x hx).2.2.2 env _ (treeVal_spec (h.ops x hx).2.2.1.toProper env)
  have hvalop : ∀ x ∈ ops, valop x.1 = treeVal env x.2 := by
    intro x hx
    have : ∃ v, x.1.Value (fun a w : M => a * w) env v := ⟨_, hop x hx⟩
    show (if hv : ∃ v, x.1.Value (fun a w : M => a * w) env v then hv.choose else 0) = _
    rw [dif_pos this]
    exact value_unique this.choose_spec (hop x hx)
  obtain ⟨outs, o1, o2, o3⟩ := b3 env valop (by
    intro op hopm
    obtain ⟨x, hx, rfl⟩ := List.mem_map.1 hopm
    rw [hvalop x hx]; exact hop x hx) ((List.range' 0 (p'.universal.zip p'.interval).length).map fun g =>
      ((ofGroup U g).map (treeVal env)).sum +
      (((ofGroup I g).map (treeVal env)).sum + ((ofGroup K g).map (treeVal env)).sum))
    (by rw [List.length_map, List.length_range']; exact hzl)
  refine ⟨outs, by simp only [Core.eval, hreg, Option.bind_eq_bind, Option.bind_some]; exact o1, o2, fun g hg => ?_⟩
  have hget : ((List.range' 0 (p'.universal.zip p'.interval).length).map fun g => ((ofGroup U g).map (treeVal env)).sum +
      (((ofGroup I g).map (treeVal env)).sum + ((ofGroup K g).map (treeVal env)).sum))[g]? =
      some (((ofGroup U g).map (treeVal env)).sum +
      (((ofGroup I g).map (treeVal env)).sum + ((ofGroup K g).map (treeVal env)).sum)) := by
    rw [List.getElem?_map, hzl, List.getElem?_range' (by omega)]
    simp
  refine ⟨_, o3 g _ hget, ?_⟩
  have hops : (((ops.map Prod.fst).filter fun op => decide (op.group = g)).map valop).sum =
      (ops.map fun x => if x.1.group = g then treeVal env x.2 else 0).sum := by
    clear o3 o1 b3 b2 hreg h
    have hv := hvalop
    clear hvalop hop
    clear_value valop
    induction ops with
    | nil => rfl
    | cons x ops ih =>
      have ih := ih fun x hx => hv x (by simp [hx])
      simp only [List.map_cons, List.filter_cons, List.sum_cons, ← ih]
      by_cases hx : x.1.group = g
      · simp [hx, hv x (by simp)]
      · simp [hx]
  rw [hops, sum_ofGroup U, sum_ofGroup I, sum_ofGroup K, sum_ofGroup S, sum_ofGroup l,
    h.sum fun x => if x.2 = g then treeVal env x.1 else 0]
  abel

end Verif.Forest
