import Verif.Opt.PeepholeModel
import Verif.Opt.PatternProps

/-!
# C77: the peephole optimizer
-/

namespace Verif.Opt
open Verif.Expr
variable {O V A E N K : Type} [DecidableEq O] [DecidableEq V] [DecidableEq A] [DecidableEq N] [DecidableEq K]

/-! ## Specification -/

/-- Rules one after the other. -/
def runRules (rs : List (Rule O V A E K)) (n : Expr O V A) : Except E (Expr O V A) :=
  rs.foldlM (fun n r => r.run n) n

/-- The contract of `GetKey`: a rule with a key leaves nodes with another key alone — peephole_optimizer.h:70-76. -/
def Inert (keyOf : Expr O V A → K) (r : Rule O V A E K) : Prop := ∀ k, r.key = some k → ∀ n, keyOf n ≠ k → r.run n = .ok n

/-- The rules that concern a node. -/
def rulesFor (rules : List (Rule O V A E K)) (k : K) : List (Rule O V A E K) := rules.filter (fun r => r.key = some k)
/-- The rules without key. -/
def rulesAny (rules : List (Rule O V A E K)) : List (Rule O V A E K) := rules.filter (fun r => r.key = none)

/-- The optimizer of a list of rules. -/
def mkOptimizer (rules : List (Rule O V A E K)) : Optimizer O V A E K := createOptimizer rules ⟨[], []⟩

/-- `k` steps, each of which changes the expression. -/
inductive Steps {T : Type} (step : T → Except E T) : Nat → T → T → Prop
  | refl (n : T) : Steps step 0 n n
  | head {n m r : T} {k : Nat} : step n = .ok m → m ≠ n → Steps step k m r → Steps step (k + 1) n r

/-! ## Lemmas -/

theorem findBucket_push (m : List (K × List (Rule O V A E K))) (k k' : K) (r : Rule O V A E K) :
    findBucket (pushRule k r m) k' =
      if k = k' then some (((findBucket m k').getD []) ++ [r]) else findBucket m k' := by
  induction m with
  | nil =>
    unfold pushRule findBucket
    by_cases h : k = k' <;> simp [h]
  | cons e m ih =>
    obtain ⟨k1, rs⟩ := e
    unfold pushRule
    by_cases h1 : k1 = k
    · rw [if_pos h1]
      subst h1
      unfold findBucket
      by_cases h : k1 = k' <;> simp [h]
    · rw [if_neg h1]
      by_cases h : k1 = k'
      · subst h
        rw [if_neg (by rintro rfl; exact h1 rfl)]
        unfold findBucket
        simp
      · have e1 : findBucket ((k1, rs) :: pushRule k r m) k' = findBucket (pushRule k r m) k' := by
          unfold findBucket; simp [h]
        have e2 : findBucket ((k1, rs) :: m) k' = findBucket m k' := by
          unfold findBucket; simp [h]
        rw [e1, e2, ih]

theorem create_eq : ∀ (rules : List (Rule O V A E K)) (d : Optimizer O V A E K),
    (createOptimizer rules d).transforms = d.transforms ++ rulesAny rules ∧
    ∀ k, (findBucket (createOptimizer rules d).patterns k).getD [] = (findBucket d.patterns k).getD [] ++ rulesFor rules k := by
  intro rules
  induction rules with
  | nil => intro d; simp [createOptimizer, rulesAny, rulesFor]
  | cons r rs ih =>
    intro d
    rw [createOptimizer]
    cases hk : r.key with
    | none =>
      dsimp only
      obtain ⟨h1, h2⟩ := ih { d with transforms := d.transforms ++ [r] }
      refine ⟨?_, ?_⟩
      · rw [h1]; simp [rulesAny, hk]
      · intro k; rw [h2]; simp [rulesFor, hk]
    | some k0 =>
      dsimp only
      obtain ⟨h1, h2⟩ := ih { d with patterns := pushRule k0 r d.patterns }
      refine ⟨?_, ?_⟩
      · rw [h1]; simp [rulesAny, hk]
      · intro k
        rw [h2]
        dsimp only
        rw [findBucket_push]
        by_cases h : k0 = k
        · subst h; simp [rulesFor, hk]
        · simp [rulesFor, hk, h]

theorem transformsLoop_eq (rs : List (Rule O V A E K)) (n : Expr O V A) : transformsLoop rs n = runRules rs n := by
  induction rs generalizing n with
  | nil => rfl
  | cons r rs ih =>
    rw [transformsLoop, runRules, List.foldlM_cons]
    cases h : r.run n with
    | error e => rfl
    | ok m => exact ih m

theorem inert_run {keyOf : Expr O V A → K} {k : K} : ∀ {rs : List (Rule O V A E K)},
    (∀ r ∈ rs, Inert keyOf r ∧ r.key = some k) → ∀ {n : Expr O V A}, keyOf n ≠ k → runRules rs n = .ok n := by
  intro rs
  induction rs with
  | nil => intro _ n _; rfl
  | cons r rs ih =>
    intro h n hn
    rw [runRules, List.foldlM_cons, (h r (by simp)).1 k (h r (by simp)).2 n hn]
    exact ih (fun r hr => h r (List.mem_cons_of_mem _ hr)) hn

theorem bucketLoop_eq {keyOf : Expr O V A → K} {k : K} : ∀ {rs : List (Rule O V A E K)},
    (∀ r ∈ rs, Inert keyOf r ∧ r.key = some k) → ∀ n : Expr O V A, bucketLoop keyOf k rs n = runRules rs n := by
  intro rs
  induction rs with
  | nil => intro _ n; rfl
  | cons r rs ih =>
    intro h n
    rw [bucketLoop, runRules, List.foldlM_cons]
    cases hr : r.run n with
    | error e => rfl
    | ok m =>
      dsimp only
      have h' : ∀ r ∈ rs, Inert keyOf r ∧ r.key = some k := fun r hr => h r (List.mem_cons_of_mem _ hr)
      by_cases hk : keyOf m ≠ k
      · rw [if_pos hk]
        exact (inert_run h' hk).symm
      · rw [if_neg hk]
        exact ih h' m

/-! ## Theorems -/

/-- **One node.**  For rules that keep the contract of `GetKey`, `ApplyToNode` runs, in the order of registration, the rules
whose key is that of the node, each on the result of the previous one, and then the rules without key: the hash table and the
early exit change nothing. -/
theorem apply_node (keyOf : Expr O V A → K) (rules : List (Rule O V A E K)) (h : ∀ r ∈ rules, Inert keyOf r) (n : Expr O V A) :
    applyToNode keyOf (mkOptimizer rules) n = runRules (rulesFor rules (keyOf n) ++ rulesAny rules) n := by
  obtain ⟨h1, h2⟩ := create_eq rules ⟨[], []⟩
  have h2 := h2 (keyOf n)
  have e0 : findBucket (⟨[], []⟩ : Optimizer O V A E K).patterns (keyOf n) = none := rfl
  rw [e0, Option.getD_none, List.nil_append] at h2
  rw [List.nil_append] at h1
  have hin : ∀ r ∈ rulesFor rules (keyOf n), Inert keyOf r ∧ r.key = some (keyOf n) := by
    intro r hr
    have := List.mem_filter.1 hr
    exact ⟨h r this.1, by simpa using this.2⟩
  have e3 : runRules (rulesFor rules (keyOf n) ++ rulesAny rules) n =
      (runRules (rulesFor rules (keyOf n)) n).bind (runRules (rulesAny rules)) := by
    unfold runRules
    rw [List.foldlM_append]
    rfl
  rw [e3]
  unfold applyToNode mkOptimizer
  cases hb : findBucket (createOptimizer rules ⟨[], []⟩).patterns (keyOf n) with
  | none =>
    rw [hb, Option.getD_none] at h2
    rw [← h2]
    dsimp only
    rw [transformsLoop_eq, h1]
    rfl
  | some rs =>
    rw [hb, Option.getD_some] at h2
    dsimp only
    rw [h2, bucketLoop_eq hin]
    cases runRules (rulesFor rules (keyOf n)) n with
    | error e => rfl
    | ok m => dsimp only; rw [transformsLoop_eq, h1]; rfl

/-- A pattern optimization as a rule. -/
def patternRule (G : Lang O V A E) (name : O → N) (hashName : N → K) (hashNode : Expr O V A → K) (src : Expr O V A)
    (c : Compiled O V A N) : Rule O V A E K :=
  ⟨some (patternKey name hashName hashNode src), fun n => (applyToRoot G name c n).getD (.ok n)⟩

/-- **Pattern rules keep the contract**, whatever the hash functions are, and are defined on every expression. -/
theorem pattern_rule_inert (G : Lang O V A E) (name : O → N) (resolve : O → Option O) (hashName : N → K)
    (hashNode : Expr O V A → K) (src dst : Expr O V A) (ms : Matchers O V A)
    (hs : ∀ n, Sub n src → WF G n) (hd : ∀ n, Sub n dst → WF G n) (c : Compiled O V A N)
    (hc : compilePattern G name resolve src dst ms = some (.ok c)) :
    Inert (patternKey name hashName hashNode) (patternRule G name hashName hashNode src c) ∧
    ∀ n, ∃ r, applyToRoot G name c n = some r ∧ (patternRule G name hashName hashNode src c).run n = r := by
  obtain ⟨res, g1, g2⟩ := create_rule G name resolve src dst ms hs hd
  rw [hc] at g1; cases g1
  obtain ⟨hnp, hleaf, _⟩ := g2.1 ⟨c, rfl⟩
  constructor
  · intro k hk n hn
    have hk' : patternKey name hashName hashNode src = k := by simpa [patternRule] using hk
    obtain ⟨dst', _, _, h3⟩ := apply_rule G name resolve src dst ms hs hd c hc n
    have := h3 (by
      rintro ⟨φ, hi, _, rfl⟩
      apply hn
      rw [← hk']
      have := hi src (.refl _)
      unfold patternKey
      cases hl : src.label with
      | leaf k => exact absurd ⟨src, k, .refl _, hl⟩ hleaf
      | placeholder k => exact absurd hl (hnp k)
      | literal v => rw [hl] at this; dsimp only at this; rw [this, hl]
      | op o =>
        rw [hl] at this
        obtain ⟨o', q1, q2, _⟩ := this
        rw [q1]; dsimp only; rw [q2])
    show (applyToRoot G name c n).getD (.ok n) = .ok n
    rw [this]; rfl
  · intro n
    obtain ⟨dst', _, h2, h3⟩ := apply_rule G name resolve src dst ms hs hd c hc n
    by_cases hm : ∃ φ, Matches name (findMatcher ms) src n φ
    · obtain ⟨φ, hφ⟩ := hm
      exact ⟨_, h2 φ hφ, by show (applyToRoot G name c n).getD (.ok n) = _; rw [h2 φ hφ]; rfl⟩
    · exact ⟨_, h3 hm, by show (applyToRoot G name c n).getD (.ok n) = _; rw [h3 hm]; rfl⟩

theorem Steps.snoc {T : Type} {step : T → Except E T} {k : Nat} {n m r : T} (h : Steps step k n m) (h1 : step m = .ok r)
    (h2 : r ≠ m) : Steps step (k + 1) n r := by
  induction h with
  | refl n => exact .head h1 h2 (.refl _)
  | head a b _ ih => exact .head a b (ih h1 h2)

theorem optimizeLoop_ok {Q : Type} [DecidableEq Q] (qtype : Expr O V A → Q) (keyOf : Expr O V A → K) (d : Optimizer O V A E K) :
    ∀ (left : Nat) (n r : Expr O V A), optimizeLoop qtype keyOf d left n = .ok r ↔
      applyToNode keyOf d r = .ok r ∧ qtype r = qtype n ∧ ∃ k, k < left ∧ Steps (applyToNode keyOf d) k n r ∧
        ∀ j m, Steps (applyToNode keyOf d) j n m → j ≤ k → qtype m = qtype n := by
  intro left
  induction left with
  | zero =>
    intro n r
    rw [optimizeLoop]
    constructor
    · intro h; cases h
    · rintro ⟨_, _, k, hk, _⟩; omega
  | succ left ih =>
    intro n r
    rw [optimizeLoop]
    cases hs : applyToNode keyOf d n with
    | error e =>
      dsimp only
      constructor
      · intro h; cases h
      · rintro ⟨h1, _, k, _, h2, _⟩
        cases h2 with
        | refl => rw [hs] at h1; cases h1
        | head a _ _ => rw [hs] at a; cases a
    | ok n' =>
      dsimp only
      by_cases hq : qtype n' ≠ qtype n
      · rw [if_pos hq]
        constructor
        · intro h; cases h
        · rintro ⟨h1, _, k, _, h2, h3⟩
          cases h2 with
          | refl => rw [hs] at h1; cases h1; exact absurd rfl hq
          | head a b _ =>
            rw [hs] at a; cases a
            exact absurd (h3 1 n' (.head hs b (.refl _)) (by omega)) hq
      · rw [if_neg hq]
        push Not at hq
        by_cases hn : n ≠ n'
        · rw [if_pos hn, ih]
          constructor
          · rintro ⟨h1, h2, k, h3, h4, h5⟩
            refine ⟨h1, h2.trans hq, k + 1, by omega, .head hs (Ne.symm hn) h4, ?_⟩
            intro j m hj hjk
            cases hj with
            | refl => rfl
            | head a _ c =>
              rw [hs] at a; cases a
              rw [h5 _ m c (by omega), hq]
          · rintro ⟨h1, h2, k, h3, h4, h5⟩
            cases h4 with
            | refl => rw [hs] at h1; cases h1; exact absurd rfl hn
            | @head _ _ _ k a b c =>
              rw [hs] at a; cases a
              refine ⟨h1, h2.trans hq.symm, k, by omega, c, ?_⟩
              intro j m hj hjk
              rw [h5 (j + 1) m (.head hs b hj) (by omega), hq]
        · rw [if_neg hn]
          push Not at hn
          subst hn
          constructor
          · intro h; cases h
            exact ⟨hs, rfl, 0, by omega, .refl _, by
              intro j m hj hjk
              cases hj with
              | refl => rfl
              | head _ _ _ => omega⟩
          · rintro ⟨_, _, k, _, h4, _⟩
            cases h4 with
            | refl => rfl
            | head a b _ => rw [hs] at a; cases a; exact absurd rfl b

/-- **The optimizer.**  The function of `MakeOptimizer` returns `r` exactly if `r` is a fixpoint of `ApplyToNode`, reached from
the expression by less than a hundred changing applications, none of which changes the output type. -/
theorem optimize_ok {Q : Type} [DecidableEq Q] (qtype : Expr O V A → Q) (keyOf : Expr O V A → K) (d : Optimizer O V A E K)
    (n r : Expr O V A) : optimize qtype keyOf d n = .ok r ↔
      applyToNode keyOf d r = .ok r ∧ qtype r = qtype n ∧ ∃ k, k < 100 ∧ Steps (applyToNode keyOf d) k n r ∧
        ∀ j m, Steps (applyToNode keyOf d) j n m → j ≤ k → qtype m = qtype n :=
  optimizeLoop_ok qtype keyOf d 100 n r

/-- It gives up exactly if a hundred applications all change the expression and keep the output type. -/
theorem optimize_gives_up {Q : Type} [DecidableEq Q] (qtype : Expr O V A → Q) (keyOf : Expr O V A → K) (d : Optimizer O V A E K)
    (n : Expr O V A) : optimize qtype keyOf d n = .error .tooManyIterations ↔
      (∃ r, Steps (applyToNode keyOf d) 100 n r) ∧ ∀ j m, Steps (applyToNode keyOf d) j n m → j ≤ 100 → qtype m = qtype n := by
  have key : ∀ (left : Nat) (n : Expr O V A), optimizeLoop qtype keyOf d left n = .error .tooManyIterations ↔
      (∃ r, Steps (applyToNode keyOf d) left n r) ∧ ∀ j m, Steps (applyToNode keyOf d) j n m → j ≤ left → qtype m = qtype n := by
    intro left
    induction left with
    | zero =>
      intro n
      rw [optimizeLoop]
      constructor
      · intro _
        refine ⟨⟨n, .refl _⟩, ?_⟩
        intro j m hj hj0
        cases hj with
        | refl => rfl
        | head _ _ _ => omega
      · intro _; rfl
    | succ left ih =>
      intro n
      rw [optimizeLoop]
      cases hs : applyToNode keyOf d n with
      | error e =>
        dsimp only
        constructor
        · intro h; cases h
        · rintro ⟨⟨r, h2⟩, _⟩
          cases h2 with
          | head a _ _ => rw [hs] at a; cases a
      | ok n' =>
        dsimp only
        by_cases hq : qtype n' ≠ qtype n
        · rw [if_pos hq]
          constructor
          · intro h; cases h
          · rintro ⟨⟨r, h2⟩, h3⟩
            cases h2 with
            | head a b _ =>
              rw [hs] at a; cases a
              exact absurd (h3 1 n' (.head hs b (.refl _)) (by omega)) hq
        · rw [if_neg hq]
          push Not at hq
          by_cases hn : n ≠ n'
          · rw [if_pos hn, ih]
            constructor
            · rintro ⟨⟨r, h1⟩, h2⟩
              refine ⟨⟨r, .head hs (Ne.symm hn) h1⟩, ?_⟩
              intro j m hj hjk
              cases hj with
              | refl => rfl
              | head a _ c =>
                rw [hs] at a; cases a
                rw [h2 _ m c (by omega), hq]
            · rintro ⟨⟨r, h1⟩, h2⟩
              cases h1 with
              | head a b c =>
                rw [hs] at a; cases a
                refine ⟨⟨r, c⟩, ?_⟩
                intro j m hj hjk
                rw [h2 (j + 1) m (.head hs b hj) (by omega), hq]
          · rw [if_neg hn]
            push Not at hn
            subst hn
            constructor
            · intro h; cases h
            · rintro ⟨⟨r, h1⟩, _⟩
              cases h1 with
              | head a b _ => rw [hs] at a; cases a; exact absurd rfl b
  exact key 100 n

/-! ## Values -/

theorem runRules_pres {T : Type} (f : Expr O V A → T) : ∀ {rs : List (Rule O V A E K)},
    (∀ r ∈ rs, ∀ n m, r.run n = .ok m → f m = f n) → ∀ {n m : Expr O V A}, runRules rs n = .ok m → f m = f n := by
  intro rs
  induction rs with
  | nil => intro _ n m h; cases h; rfl
  | cons r rs ih =>
    intro h n m hm
    rw [runRules, List.foldlM_cons] at hm
    cases hr : r.run n with
    | error e => rw [hr] at hm; cases hm
    | ok x =>
      rw [hr] at hm
      exact (ih (fun r hr => h r (List.mem_cons_of_mem _ hr)) hm).trans (h r (by simp) n x hr)

theorem steps_pres {S T : Type} (f : T → S) {step : T → Except E T} (h : ∀ n m, step n = .ok m → f m = f n) {k : Nat}
    {n r : T} (hs : Steps step k n r) : f r = f n := by
  induction hs with
  | refl => rfl
  | head a _ _ ih => exact ih.trans (h _ _ a)

/-- A bottom-up transformation with a function keeping values keeps values. -/
theorem value_transform {D : Type} {G : Lang O V A E} (ops : O → List D → D) (lit : V → D) (leaf pl : List Nat → D)
    {fn : Expr O V A → Except E (Expr O V A)}
    (h : ∀ n m, fn n = .ok m → value ops lit leaf pl m = value ops lit leaf pl n) {t r : Expr O V A}
    (hr : fold (transformNode G fn) t = .ok r) : value ops lit leaf pl r = value ops lit leaf pl t := by
  induction t using Expr.ind generalizing r with
  | h n ih =>
    rw [fold_eq] at hr
    cases hds : folds (transformNode G fn) n.deps with
    | error e => rw [hds] at hr; cases hr
    | ok xs =>
      rw [hds] at hr
      simp only [Except.bind] at hr
      have hmap : xs.map (value ops lit leaf pl) = n.deps.map (value ops lit leaf pl) := by
        have := folds_ok.1 hds
        apply List.ext_getElem?
        intro j
        have hj := congrArg (fun l => l[j]?) this
        simp only [List.getElem?_map] at hj ⊢
        cases hd : n.deps[j]? with
        | none => rw [hd] at hj; cases hx : xs[j]? with
          | none => rfl
          | some x => rw [hx] at hj; simp at hj
        | some d =>
          rw [hd] at hj
          cases hx : xs[j]? with
          | none => rw [hx] at hj; simp at hj
          | some x =>
            rw [hx] at hj
            simp only [Option.map_some, Option.some.injEq] at hj ⊢
            exact ih d (List.mem_of_getElem? hd) hj
      unfold transformNode at hr
      cases hl : n.label with
      | op o =>
        rw [hl] at hr
        dsimp only at hr
        by_cases hx : xs = n.deps
        · rw [if_pos hx] at hr; exact h n r hr
        · rw [if_neg hx] at hr
          cases hmk : G.mkOp o xs with
          | error e => rw [hmk] at hr; cases hr
          | ok m =>
            rw [hmk] at hr
            obtain ⟨q1, q2⟩ := mkOp_ok hmk
            rw [h m r hr, value_op _ _ _ _ q1, value_op _ _ _ _ hl, q2, hmap]
      | leaf k => rw [hl] at hr; exact h n r hr
      | placeholder k => rw [hl] at hr; exact h n r hr
      | literal v => rw [hl] at hr; exact h n r hr

/-- **Values.**  If every rule keeps the value of expressions, so do the optimizer and the application to all nodes. -/
theorem optimize_value {D Q : Type} [DecidableEq Q] (G : Lang O V A E) (ops : O → List D → D) (lit : V → D)
    (leaf pl : List Nat → D) (qtype : Expr O V A → Q) (keyOf : Expr O V A → K) (rules : List (Rule O V A E K))
    (hi : ∀ r ∈ rules, Inert keyOf r)
    (h : ∀ r ∈ rules, ∀ n m, r.run n = .ok m → value ops lit leaf pl m = value ops lit leaf pl n) (n r : Expr O V A) :
    (optimize qtype keyOf (mkOptimizer rules) n = .ok r → value ops lit leaf pl r = value ops lit leaf pl n) ∧
    (applyAll G keyOf (mkOptimizer rules) n = some (.ok r) → value ops lit leaf pl r = value ops lit leaf pl n) := by
  have hstep : ∀ n m, applyToNode keyOf (mkOptimizer rules) n = .ok m → value ops lit leaf pl m = value ops lit leaf pl n := by
    intro n m hm
    rw [apply_node keyOf rules hi] at hm
    refine runRules_pres (value ops lit leaf pl) ?_ hm
    intro r hr
    rcases List.mem_append.1 hr with hr | hr
    · exact h r (List.mem_filter.1 hr).1
    · exact h r (List.mem_filter.1 hr).1
  constructor
  · intro ho
    obtain ⟨_, _, k, _, hs, _⟩ := (optimize_ok qtype keyOf _ n r).1 ho
    exact steps_pres (value ops lit leaf pl) hstep hs
  · intro ho
    unfold applyAll at ho
    rcases transform_eq G (applyToNode keyOf (mkOptimizer rules)) n with ⟨e, _, t2⟩ | ⟨r', calls, nodes, t1, t2, _⟩
    · rw [t2] at ho; cases ho
    · rw [t2] at ho
      simp only [Option.map_some, Except.map, Option.some.injEq, Except.ok.injEq] at ho
      subst ho
      exact value_transform ops lit leaf pl hstep t1

/-! ## Normal forms -/

theorem runRules_le (μ : Expr O V A → Nat) : ∀ {rs : List (Rule O V A E K)},
    (∀ r ∈ rs, ∀ n m, r.run n = .ok m → m ≠ n → μ m < μ n) → ∀ {n m : Expr O V A}, runRules rs n = .ok m →
      μ m ≤ μ n ∧ (μ m = μ n → m = n ∧ ∀ r ∈ rs, r.run n = .ok n) := by
  intro rs
  induction rs with
  | nil => intro _ n m h; cases h; simp
  | cons r rs ih =>
    intro h n m hm
    rw [runRules, List.foldlM_cons] at hm
    cases hr : r.run n with
    | error e => rw [hr] at hm; cases hm
    | ok x =>
      rw [hr] at hm
      obtain ⟨h1, h2⟩ := ih (fun r hr => h r (List.mem_cons_of_mem _ hr)) hm
      by_cases hx : x = n
      · subst hx
        refine ⟨h1, fun he => ?_⟩
        obtain ⟨h3, h4⟩ := h2 he
        refine ⟨h3, ?_⟩
        intro r' hr'
        rcases List.mem_cons.1 hr' with rfl | hr'
        · exact hr
        · exact h4 r' hr'
      · have := h r (by simp) n x hr hx
        exact ⟨by omega, fun he => by omega⟩

/-- **Normal forms.**  If every rule that changes an expression makes it smaller in some measure, no rule applicable to the
result of the optimizer changes it. -/
theorem optimize_normal {Q : Type} [DecidableEq Q] (qtype : Expr O V A → Q) (keyOf : Expr O V A → K)
    (rules : List (Rule O V A E K)) (hi : ∀ r ∈ rules, Inert keyOf r) (μ : Expr O V A → Nat)
    (h : ∀ r ∈ rules, ∀ n m, r.run n = .ok m → m ≠ n → μ m < μ n) (n res : Expr O V A)
    (ho : optimize qtype keyOf (mkOptimizer rules) n = .ok res) : ∀ r ∈ rules, r.run res = .ok res := by
  obtain ⟨hf, _⟩ := (optimize_ok qtype keyOf _ n res).1 ho
  rw [apply_node keyOf rules hi] at hf
  have hall : ∀ r ∈ rulesFor rules (keyOf res) ++ rulesAny rules, ∀ n m, r.run n = .ok m → m ≠ n → μ m < μ n := by
    intro r hr
    rcases List.mem_append.1 hr with hr | hr
    · exact h r (List.mem_filter.1 hr).1
    · exact h r (List.mem_filter.1 hr).1
  have hfix := ((runRules_le μ hall hf).2 rfl).2
  intro r hr
  cases hk : r.key with
  | none => exact hfix r (List.mem_append_right _ (List.mem_filter.2 ⟨hr, by simp [hk]⟩))
  | some k =>
    by_cases hkk : keyOf res = k
    · exact hfix r (List.mem_append_left _ (List.mem_filter.2 ⟨hr, by simp [hk, hkk]⟩))
    · exact hi r hr k hk res hkk

/-! ## Examples and counterexamples -/

/-- The key of a node, hashes without collisions. -/
def exKey : Expr Nat Nat Nat → Sum Nat (Expr Nat Nat Nat) := patternKey exName Sum.inl Sum.inr

/-- `f(a, b) → f(b, a)`: a rule of two argument swaps, and its copy. -/
def swapRule : Rule Nat Nat Nat Nat (Sum Nat (Expr Nat Nat Nat)) :=
  ⟨some (.inl 0), fun n => match n with
    | .mk (.op 0) a [x, y] => .ok (.mk (.op 0) a [y, x])
    | n => .ok n⟩

theorem swap_inert : Inert exKey swapRule := by
  intro k hk n hn
  have hk' : k = .inl 0 := by simpa [swapRule, eq_comm] using hk
  subst hk'
  unfold swapRule
  dsimp only
  split
  · exact absurd rfl hn
  · rfl

/-- A result of the optimizer need not be in normal form: two rules of a bucket that undo each other look like no change, and no
error is reported. -/
theorem optimize_normal_counterexample :
    (∀ r ∈ [swapRule, swapRule], Inert exKey r) ∧
    optimize (fun _ => ()) exKey (mkOptimizer [swapRule, swapRule]) (.mk (.op 0) 0 [lx, ly]) = .ok (.mk (.op 0) 0 [lx, ly]) ∧
    swapRule.run (.mk (.op 0) 0 [lx, ly]) = .ok (.mk (.op 0) 0 [ly, lx]) := by
  refine ⟨?_, rfl, rfl⟩
  intro r hr
  have : r = swapRule := by simpa using hr
  subst this
  exact swap_inert

/-- With one of them the optimizer gives up instead. -/
example : optimize (fun _ => ()) exKey (mkOptimizer [swapRule]) (.mk (.op 0) 0 [lx, ly]) = .error .tooManyIterations := by
  decide +kernel

/-- `0(a, b) → 1(a)` and `1(a) → a`. -/
def dropRule : Rule Nat Nat Nat Nat (Sum Nat (Expr Nat Nat Nat)) :=
  ⟨some (.inl 0), fun n => match n with
    | .mk (.op 0) a [x, _] => .ok (.mk (.op 1) a [x])
    | n => .ok n⟩
def idRule : Rule Nat Nat Nat Nat (Sum Nat (Expr Nat Nat Nat)) :=
  ⟨some (.inl 1), fun n => match n with
    | .mk (.op 1) _ [x] => .ok x
    | n => .ok n⟩

/-- The hypotheses of `optimize_normal` and `apply_node` hold for this set of rules. -/
theorem ex_rules : (∀ r ∈ [dropRule, idRule], Inert exKey r) ∧
    ∀ r ∈ [dropRule, idRule], ∀ n m, r.run n = .ok m → m ≠ n → m.size < n.size := by
  constructor
  · intro r hr k hk n hn
    rcases List.mem_cons.1 hr with rfl | hr
    · have hk' : k = .inl 0 := by simpa [dropRule, eq_comm] using hk
      subst hk'
      unfold dropRule
      dsimp only
      split
      · exact absurd rfl hn
      · rfl
    · rw [List.mem_singleton.1 hr] at hk ⊢
      have hk' : k = .inl 1 := by simpa [idRule, eq_comm] using hk
      subst hk'
      unfold idRule
      dsimp only
      split
      · exact absurd rfl hn
      · rfl
  · intro r hr n m hm hne
    rcases List.mem_cons.1 hr with rfl | hr
    · unfold dropRule at hm
      dsimp only at hm
      split at hm
      · cases hm; simp only [Expr.size, Expr.sizes]
        rename_i y
        have := size_eq y
        omega
      · cases hm; exact absurd rfl hne
    · rw [List.mem_singleton.1 hr] at hm
      unfold idRule at hm
      dsimp only at hm
      split at hm
      · cases hm; simp only [Expr.size, Expr.sizes]; omega
      · cases hm; exact absurd rfl hne

example : optimize (fun _ => ()) exKey (mkOptimizer [dropRule, idRule]) (.mk (.op 0) 0 [.mk (.op 0) 0 [lx, ly], ly]) = .ok lx := by
  decide +kernel
example : applyToNode exKey (mkOptimizer [dropRule, idRule]) (.mk (.op 0) 0 [lx, ly]) = .ok (.mk (.op 1) 0 [lx]) := by
  decide +kernel

/-- What one application does depends on collisions of the hashes: with the same hash for both names, the rule for the new
operator runs in the same application. -/
theorem collision_counterexample :
    applyToNode exKey (mkOptimizer [dropRule, idRule]) (.mk (.op 0) 0 [lx, ly]) = .ok (.mk (.op 1) 0 [lx]) ∧
    applyToNode (fun _ => ()) (mkOptimizer ([dropRule, idRule].map (fun r => ⟨some (), r.run⟩))) (.mk (.op 0) 0 [lx, ly]) =
      .ok lx := by
  constructor <;> decide +kernel

end Verif.Opt
