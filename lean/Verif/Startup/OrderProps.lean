import Verif.Startup.StartupProps

/-!
# The order of execution does not depend on the order of registration
-/

namespace Verif.Startup
open Relation

/-! ## More fuel does not change the result -/

theorem execList_mono {f f' : X → Key → Res} (h : ∀ x k r, f x k = some r → f' x k = some r) :
    ∀ (ks : List Key) (x : X) r, execList f ks x = some r → execList f' ks x = some r := by
  intro ks
  induction ks with
  | nil => intro x r hr; exact hr
  | cons k ks ih =>
    intro x r hr
    rw [execList] at hr ⊢
    cases hf : f x k with
    | none => rw [hf] at hr; simp at hr
    | some p =>
      obtain ⟨y, s⟩ := p
      rw [hf] at hr
      rw [h x k _ hf]
      cases s with
      | error e => exact hr
      | ok u => exact ih y r hr

theorem exec_mono (g : Graph) (su : List Nat → Nat → Bool) : ∀ (fuel : Nat) (x : X) (k : Key) r,
    exec g su fuel x k = some r → exec g su (fuel + 1) x k = some r := by
  intro fuel
  induction fuel with
  | zero => intro x k r h; simp [exec] at h
  | succ fuel ih =>
    intro x k r h
    rw [exec] at h ⊢
    cases hs : x.st k with
    | done => rw [hs] at h; exact h
    | executing => rw [hs] at h; exact h
    | pending =>
      rw [hs] at h
      dsimp only at h ⊢
      generalize hx1 : ({ x.set k .executing with stack := k :: (x.set k .executing).stack } : X) = x1 at h ⊢
      cases he : execList (exec g su fuel) (sortKeys (g.deps k)) x1 with
      | none => rw [he] at h; simp at h
      | some p =>
        rw [he] at h
        rw [execList_mono (fun x k r => ih x k r) _ _ _ he]
        exact h

theorem exec_mono_le (g : Graph) (su : List Nat → Nat → Bool) {f f' : Nat} (hf : f ≤ f') (x : X) (k : Key) (r)
    (h : exec g su f x k = some r) : exec g su f' x k = some r := by
  induction hf with
  | refl => exact h
  | step _ ih => exact exec_mono g su _ x k r ih

theorem runLoop_mono {f f' : X → Key → Res} (h : ∀ x k r, f x k = some r → f' x k = some r) :
    ∀ (ks : List Key) (x : X) (c : List String) r, runLoop f ks x c = some r → runLoop f' ks x c = some r := by
  intro ks
  induction ks with
  | nil => intro x c r hr; exact hr
  | cons k ks ih =>
    intro x c r hr
    rw [runLoop] at hr ⊢
    cases hf : f x k with
    | none => rw [hf] at hr; simp at hr
    | some p =>
      obtain ⟨y, s⟩ := p
      rw [hf] at hr
      rw [h x k _ hf]
      cases s with
      | error e => exact hr
      | ok u => exact ih y _ r hr

/-! ## Two digraphs with the same names -/

/-- The name of an initializer given by its index. -/
def nameAt (inits : List Init) (i : Nat) : String := ((inits[i]?).map Init.name).getD ""

/-- The outcome of a function given by name. -/
def byName (su : List String → String → Bool) (inits : List Init) (t : List Nat) (i : Nat) : Bool :=
  su (t.map (nameAt inits)) (nameAt inits i)

/-- The error with the name of the initializer in place of its index. -/
def Err.named (inits : List Init) : Err → String ⊕ Err
  | .initFailed i => .inl (nameAt inits i)
  | e => .inr e

/-- The same nodes with the same dependencies up to order. -/
structure Same (ia ib : List Init) (a b : Graph) : Prop where
  deps : ∀ n, (a.deps (.named n)).Perm (b.deps (.named n))
  named : ∀ n, ∀ d ∈ a.deps (.named n), ∃ m, d = .named m
  init : ∀ n, (a.init (.named n)).map (nameAt ia) = (b.init (.named n)).map (nameAt ib)

/-- The same state. -/
structure XSame (ia ib : List Init) (x y : X) : Prop where
  st : x.st = y.st
  stack : x.stack = y.stack
  trace : x.trace.map (nameAt ia) = y.trace.map (nameAt ib)

def ResSame (ia ib : List Init) : Except Err Unit → Except Err Unit → Prop
  | .ok _, .ok _ => True
  | .error e, .error e' => e.named ia = e'.named ib
  | _, _ => False

def RSame (ia ib : List Init) : Res → Res → Prop
  | none, none => True
  | some (x, s), some (y, s') => XSame ia ib x y ∧ ResSame ia ib s s'
  | _, _ => False

theorem sortKeys_perm {a b : List Key} (h : a.Perm b) (hn : ∀ k ∈ a, ∃ m, k = .named m) :
    sortKeys a = sortKeys b := by
  have hp : (sortKeys a).Perm (sortKeys b) :=
    ((List.perm_insertionSort _ a).trans h).trans (List.perm_insertionSort _ b).symm
  have htot : ∀ a b : Key, a.name ≤ b.name ∨ b.name ≤ a.name := fun a b => le_total _ _
  haveI : Std.Total (fun a b : Key => a.name ≤ b.name) := ⟨htot⟩
  haveI : IsTrans Key (fun a b : Key => a.name ≤ b.name) := ⟨fun a b c => le_trans⟩
  have sa : (sortKeys a).Pairwise (fun a b => a.name ≤ b.name) := List.pairwise_insertionSort _ a
  have sb : (sortKeys b).Pairwise (fun a b => a.name ≤ b.name) := List.pairwise_insertionSort _ b
  have hna : ∀ k ∈ sortKeys a, ∃ m, k = .named m := fun k hk => hn k (mem_sortKeys.1 hk)
  refine List.Perm.eq_of_pairwise (le := fun a b : Key => a.name ≤ b.name) ?_ sa sb hp
  intro k k' hk hk' h1 h2
  obtain ⟨m, rfl⟩ := hna k hk
  obtain ⟨m', rfl⟩ := hna k' (hp.mem_iff.2 hk')
  have : m = m' := le_antisymm h1 h2
  rw [this]

theorem execList_same {ia ib : List Init} {f f' : X → Key → Res}
    (h : ∀ x y n, XSame ia ib x y → RSame ia ib (f x (.named n)) (f' y (.named n))) :
    ∀ (ks : List Key) (x y : X), (∀ k ∈ ks, ∃ m, k = .named m) → XSame ia ib x y →
      RSame ia ib (execList f ks x) (execList f' ks y) := by
  intro ks
  induction ks with
  | nil => intro x y _ hxy; exact ⟨hxy, trivial⟩
  | cons k ks ih =>
    intro x y hk hxy
    obtain ⟨n, rfl⟩ := hk k (by simp)
    have hh := h x y n hxy
    rw [execList, execList]
    generalize f x (.named n) = r at hh
    generalize f' y (.named n) = r' at hh
    match r, r', hh with
    | none, none, _ => trivial
    | some (x1, .error e), some (y1, .error e'), hh => exact hh
    | some (x1, .ok _), some (y1, .ok _), hh =>
      exact ih x1 y1 (fun q hq => hk q (List.mem_cons_of_mem _ hq)) hh.1
    | some (x1, .ok _), some (y1, .error e'), hh => exact absurd hh.2 (by simp [ResSame])
    | some (x1, .error e), some (y1, .ok _), hh => exact absurd hh.2 (by simp [ResSame])

theorem exec_same {ia ib : List Init} {a b : Graph} (hab : Same ia ib a b)
    (su : List String → String → Bool) : ∀ (fuel : Nat) (x y : X) (n : String), XSame ia ib x y →
    RSame ia ib (exec a (byName su ia) fuel x (.named n)) (exec b (byName su ib) fuel y (.named n)) := by
  intro fuel
  induction fuel with
  | zero => intro x y n _; trivial
  | succ fuel ih =>
    intro x y n hxy
    rw [exec, exec, ← hxy.st]
    cases hs : x.st (.named n) with
    | done => exact ⟨hxy, trivial⟩
    | executing =>
      dsimp only
      rw [← hxy.stack]
      cases cycleNames (.named n) x.stack with
      | none => trivial
      | some names => exact ⟨hxy, rfl⟩
    | pending =>
      dsimp only
      have h1 : XSame ia ib { x.set (.named n) .executing with stack := .named n :: (x.set (.named n) .executing).stack }
          { y.set (.named n) .executing with stack := .named n :: (y.set (.named n) .executing).stack } := by
        refine ⟨?_, ?_, hxy.trace⟩
        · simp only [X.set, hxy.st]
        · simp only [X.set, hxy.stack]
      generalize ({ x.set (.named n) .executing with stack := .named n :: (x.set (.named n) .executing).stack } : X) = x1 at h1 ⊢
      generalize ({ y.set (.named n) .executing with stack := .named n :: (y.set (.named n) .executing).stack } : X) = y1 at h1 ⊢
      have h2 := execList_same (fun x y m h => ih x y m h) (sortKeys (a.deps (.named n))) x1 y1
        (fun k hk => hab.named n k (mem_sortKeys.1 hk)) h1
      rw [← sortKeys_perm (hab.deps n) (hab.named n)]
      generalize execList (exec a (byName su ia) fuel) (sortKeys (a.deps (.named n))) x1 = r at h2 ⊢
      generalize execList (exec b (byName su ib) fuel) (sortKeys (a.deps (.named n))) y1 = r' at h2 ⊢
      match r, r', h2 with
      | none, none, _ => trivial
      | some (x2, .error e), some (y2, .error e'), hh => exact hh
      | some (x2, .ok _), some (y2, .error e'), hh => exact absurd hh.2 (by simp [ResSame])
      | some (x2, .error e), some (y2, .ok _), hh => exact absurd hh.2 (by simp [ResSame])
      | some (x2, .ok _), some (y2, .ok _), hh =>
        obtain ⟨⟨e1, e2, e3⟩, _⟩ := hh
        show RSame ia ib (finishNode a _ x2 _) (finishNode b _ y2 _)
        unfold finishNode
        rw [← e2]
        cases x2.stack with
        | nil => trivial
        | cons q st =>
          dsimp only
          have hi := hab.init n
          cases ha : a.init (.named n) with
          | none =>
            cases hb : b.init (.named n) with
            | some j => rw [ha, hb] at hi; simp at hi
            | none =>
              dsimp only
              split
              · exact ⟨⟨by simp only [X.set, e1], rfl, e3⟩, trivial⟩
              · cases st with
                | nil => trivial
                | cons p st => exact ⟨⟨by simp only [X.set, e1], rfl, e3⟩, rfl⟩
          | some i =>
            cases hb : b.init (.named n) with
            | none => rw [ha, hb] at hi; simp at hi
            | some j =>
              rw [ha, hb] at hi
              simp only [Option.map_some, Option.some.injEq] at hi
              dsimp only
              refine ⟨⟨by simp only [X.set, e1], rfl, by simp [X.set, e3, hi]⟩, ?_⟩
              have hsu : byName su ia (X.set x2 (.named n) .done).trace i =
                  byName su ib (X.set y2 (.named n) .done).trace j := by
                simp only [byName, X.set, e3, hi]
              rw [hsu]
              split
              · trivial
              · show Sum.inl (nameAt ia i) = Sum.inl (nameAt ib j)
                rw [hi]

theorem runLoop_same {ia ib : List Init} {f f' : X → Key → Res}
    (h : ∀ x y n, XSame ia ib x y → RSame ia ib (f x (.named n)) (f' y (.named n))) :
    ∀ (ks : List Key) (x y : X) (c : List String), (∀ k ∈ ks, ∃ m, k = .named m) → XSame ia ib x y →
      match runLoop f ks x c, runLoop f' ks y c with
      | none, none => True
      | some (x', c1, s), some (y', c2, s') => XSame ia ib x' y' ∧ c1 = c2 ∧ ResSame ia ib s s'
      | _, _ => False := by
  intro ks
  induction ks with
  | nil => intro x y c _ hxy; exact ⟨hxy, rfl, trivial⟩
  | cons k ks ih =>
    intro x y c hk hxy
    obtain ⟨n, rfl⟩ := hk k (by simp)
    have hh := h x y n hxy
    rw [runLoop, runLoop]
    generalize f x (.named n) = r at hh
    generalize f' y (.named n) = r' at hh
    match r, r', hh with
    | none, none, _ => trivial
    | some (x1, .error e), some (y1, .error e'), hh => exact ⟨hh.1, rfl, hh.2⟩
    | some (x1, .ok _), some (y1, .ok _), hh =>
      exact ih x1 y1 _ (fun q hq => hk q (List.mem_cons_of_mem _ hq)) hh.1
    | some (x1, .ok _), some (y1, .error e'), hh => exact absurd hh.2 (by simp [ResSame])
    | some (x1, .error e), some (y1, .ok _), hh => exact absurd hh.2 (by simp [ResSame])

/-! ## The dependencies of the nodes -/

/-- The dependencies of node `n` that come from initializer `x`. -/
def contrib (completed : List String) (n : String) (x : Init) : List Key :=
  (if x.name = n then (x.deps.filter (fun d => d ∉ completed)).map .named else []) ++
    List.replicate (x.rdeps.count n) (.named x.name)

theorem getNode_deps (g : Graph) (n : String) : (getNode g n).1.deps = g.deps := (getNode_spec g n).2.1

theorem depsLoop_deps (completed : List String) (m n : String) : ∀ (ds : List String) (g : Graph), "" ∉ ds →
    (depsLoop completed (.named m) ds g).deps (.named n) = g.deps (.named n) ++
      (if m = n then (ds.filter (fun d => d ∉ completed)).map .named else []) := by
  intro ds
  induction ds with
  | nil => intro g _; simp [depsLoop]
  | cons d ds ih =>
    intro g h0
    have hd : d ≠ "" := by rintro rfl; simp at h0
    have h0' : "" ∉ ds := fun h => h0 (List.mem_cons_of_mem _ h)
    rw [depsLoop]
    by_cases hc : d ∈ completed
    · rw [if_pos hc, ih g h0']
      simp [hc]
    · rw [if_neg hc, ih _ h0']
      simp only [addDep, getNode_deps, ((getNode_spec g d).2.2.2.2.1 hd).1]
      by_cases hmn : m = n
      · subst hmn
        simp [hc]
      · simp [hmn, Ne.symm hmn]

theorem rdepsLoop_deps (completed : List String) (i : Nat) (k : Key) (n : String) (hn : n ≠ "") :
    ∀ (rs : List String) (g g' : Graph), rdepsLoop completed i k rs g = .ok g' →
    g'.deps (.named n) = g.deps (.named n) ++ List.replicate (rs.count n) k := by
  intro rs
  induction rs with
  | nil => intro g g' h; simp only [rdepsLoop, Except.ok.injEq] at h; subst h; simp
  | cons r rs ih =>
    intro g g' h
    rw [rdepsLoop] at h
    by_cases hc : r ∈ completed
    · rw [if_pos hc] at h; simp at h
    · rw [if_neg hc] at h
      rw [ih _ _ h]
      simp only [addDep, getNode_deps]
      by_cases hr : r = ""
      · have := ((getNode_spec g r).2.2.2.2.2 hr).1
        have hne : ¬ n = r := by rw [hr]; exact hn
        have hne2 : ¬ r = n := fun h => hne h.symm
        rw [this]
        simp [List.count_cons, hne2]
      · rw [((getNode_spec g r).2.2.2.2.1 hr).1]
        by_cases hrn : r = n
        · subst hrn
          simp [List.count_cons, List.replicate_succ]
        · simp [List.count_cons, hrn, Ne.symm hrn]

theorem initNodes_deps (completed : List String) (n : String) (hn : n ≠ "") :
    ∀ (xs : List Init) (i : Nat) (g g' : Graph) (ks : List Key),
    (∀ x ∈ xs, x.name ≠ "" ∧ "" ∉ x.deps) → initNodes completed i xs g = .ok (g', ks) →
    g'.deps (.named n) = g.deps (.named n) ++ xs.flatMap (contrib completed n) := by
  intro xs
  induction xs with
  | nil => intro i g g' ks _ h; simp only [initNodes, Except.ok.injEq, Prod.mk.injEq] at h; simp [h.1]
  | cons x xs ih =>
    intro i g g' ks hx h
    rw [initNodes] at h
    cases h1 : initNode completed g i x with
    | error e => rw [h1] at h; simp [bind, Except.bind] at h
    | ok p =>
      obtain ⟨g1, k⟩ := p
      rw [h1] at h
      simp only [bind, Except.bind] at h
      cases h2 : initNodes completed (i + 1) xs g1 with
      | error e => rw [h2] at h; simp at h
      | ok p2 =>
        obtain ⟨g2, ks2⟩ := p2
        rw [h2] at h
        simp only [Except.ok.injEq, Prod.mk.injEq] at h
        obtain ⟨rfl, _⟩ := h
        rw [ih (i + 1) g1 g2 ks2 (fun y hy => hx y (List.mem_cons_of_mem _ hy)) h2]
        rw [List.flatMap_cons, ← List.append_assoc]
        congr 1
        obtain ⟨hxn, hxd⟩ := hx x (by simp)
        unfold initNode at h1
        split at h1
        · simp at h1
        · obtain ⟨q1, q2, _, _, q5, _⟩ := getNode_spec g x.name
          have q5 := (q5 hxn).1
          generalize getNode g x.name = gn at q1 q2 q5 h1
          obtain ⟨gn, kn⟩ := gn
          dsimp only at q1 q2 q5 h1
          subst q5
          split at h1
          · simp at h1
          · generalize hgb : depsLoop completed (.named x.name) x.deps _ = gb at h1
            cases h3 : rdepsLoop completed i (.named x.name) x.rdeps gb with
            | error e => rw [h3] at h1; simp [Except.map] at h1
            | ok gc =>
              rw [h3] at h1
              simp only [Except.map, Except.ok.injEq, Prod.mk.injEq] at h1
              obtain ⟨rfl, _⟩ := h1
              rw [rdepsLoop_deps completed i _ n hn _ _ _ h3, ← hgb, depsLoop_deps _ _ _ _ _ hxd]
              simp only [q2, contrib, List.append_assoc]

/-! ## Registration order -/

theorem acceptable_perm {completed : List String} {ia ib : List Init} (hp : ia.Perm ib)
    (hn : ∀ x ∈ ia, x.name ≠ "") (h : Acceptable completed ia) : Acceptable completed ib := by
  have hnd : (ia.map Init.name).Nodup := by
    rw [List.nodup_iff_getElem?_ne_getElem?]
    intro i j hij hj he
    rw [List.getElem?_map, List.getElem?_map] at he
    have hj' : j < ia.length := by simpa using hj
    rw [List.getElem?_eq_getElem hj', List.getElem?_eq_getElem (by omega)] at he
    simp only [Option.map_some, Option.some.injEq] at he
    have := h.unique i j _ _ (List.getElem?_eq_getElem (by omega)) (List.getElem?_eq_getElem hj') he
      (hn _ (List.getElem_mem _))
    omega
  have hndb : (ib.map Init.name).Nodup := ((hp.map _).nodup_iff).1 hnd
  -- the order in terms of names
  have hpath : ∀ i j, TransGen (Before ib) i j → ∀ (x y : Init) (i' j' : Nat), ib[i]? = some x → ib[j]? = some y →
      ia[i']? = some x → ia[j']? = some y → TransGen (Before ia) i' j' := by
    intro i j hij
    induction hij with
    | single hb =>
      intro x y i' j' hx hy hx' hy'
      obtain ⟨x1, y1, h1, h2, h3⟩ := hb
      rw [hx] at h1; rw [hy] at h2
      simp only [Option.some.injEq] at h1 h2
      subst h1; subst h2
      exact TransGen.single ⟨x, y, hx', hy', h3⟩
    | tail _ hb ih =>
      intro x y i' j' hx hy hx' hy'
      obtain ⟨z, y1, h1, h2, h3⟩ := hb
      rw [hy] at h2
      simp only [Option.some.injEq] at h2
      subst h2
      obtain ⟨m, hm⟩ := List.mem_iff_getElem?.1 (hp.mem_iff.2 (List.mem_of_getElem? h1))
      exact TransGen.tail (ih x z i' m hx h1 hx' hm) ⟨z, y, hm, hy', h3⟩
  refine ⟨fun x hx => h.notPhony x (hp.mem_iff.2 hx), fun x hx => h.isNew x (hp.mem_iff.2 hx), ?_,
    fun x hx => h.reverse x (hp.mem_iff.2 hx), ?_, ?_⟩
  · intro i j x y hx hy hxy _
    by_contra hij
    have key : ∀ i j : Nat, i < j → ∀ x y : Init, ib[i]? = some x → ib[j]? = some y → x.name = y.name → False := by
      intro i j hlt x y hx hy hxy
      rw [List.nodup_iff_getElem?_ne_getElem?] at hndb
      refine hndb i j hlt (by simpa using (List.getElem?_eq_some_iff.1 hy).1) ?_
      rw [List.getElem?_map, List.getElem?_map, hx, hy]
      simp [hxy]
    rcases Nat.lt_or_gt_of_ne hij with h | h
    · exact key i j h x y hx hy hxy
    · exact key j i h y x hy hx hxy.symm
  · intro x hx d hd
    rcases h.defined x (hp.mem_iff.2 hx) d hd with h | h | ⟨h, y, hy, hyn⟩
    · exact Or.inl h
    · exact Or.inr (Or.inl h)
    · exact Or.inr (Or.inr ⟨h, y, hp.mem_iff.1 hy, hyn⟩)
  · intro i hi
    obtain ⟨b, ⟨x, _, hx, _⟩, _⟩ := TransGen.head'_iff.1 hi
    obtain ⟨m, hm⟩ := List.mem_iff_getElem?.1 (hp.mem_iff.2 (List.mem_of_getElem? hx))
    exact h.acyclic m (hpath i i hi x x m m hx hx hm hm)

/-- The part of a run after the digraph is built. -/
theorem run_eq {completed : List String} (hc : CompletedOk completed) {inits : List Init}
    (ha : Acceptable completed inits) (su : List Nat → Nat → Bool) :
    ∃ g ks, initNodes completed 0 inits Graph.empty = .ok (g, ks) ∧ GInv completed inits ks g ∧
      ∀ f, g.keys.length + 1 ≤ f → ∃ y c s,
        runLoop (exec g su f) (sortKeys ks) ⟨fun _ => .pending, [], []⟩ completed = some (y, c, s) ∧
        run completed su inits = some (y.trace, c, s) := by
  have h0 := initNodes_spec hc.1 inits [] [] Graph.empty (ginv_empty completed)
  simp only [List.length_nil, List.nil_append] at h0
  unfold run
  revert h0
  cases initNodes completed 0 inits Graph.empty with
  | error e => rintro ⟨h0, _⟩; exact absurd ha h0
  | ok p =>
    obtain ⟨g, ks⟩ := p
    intro h0
    have h : GInv completed inits ks g := h0
    refine ⟨g, ks, rfl, h, fun f hf => ?_⟩
    have hks : ∀ k ∈ sortKeys ks, k ∈ g.keys ∧ g.init k ≠ none := by
      intro k hk
      have hk' := mem_sortKeys.1 hk
      obtain ⟨j, hj⟩ := List.mem_iff_getElem?.1 hk'
      exact ⟨h.inKeys.1 k hk', by rw [(h.init k j).2 hj]; simp⟩
    have hpc : pendCount g ⟨fun _ => .pending, [], []⟩ < g.keys.length + 1 :=
      Nat.lt_succ_of_le (List.length_filter_le _ _)
    obtain ⟨y, c', s, hy, _, _⟩ := runLoop_spec (succeeds := su) h.inj h.inKeys.2 (g.keys.length + 1) (sortKeys ks)
      ⟨fun _ => .pending, [], []⟩ completed hks hpc (xinv_start g su) rfl
    exact ⟨y, c', s, runLoop_mono (fun x k r => exec_mono_le g su hf x k r) _ _ _ _ hy, by simp [hy]⟩

/-- **C75.** The order in which named initializers are called does not depend on the order in which they
were registered, e.g. on the order in which the linker puts the static variables. -/
theorem run_registration_order {completed : List String} (hc : CompletedOk completed) {ia ib : List Init}
    (hp : ia.Perm ib) (hn : ∀ x ∈ ia, x.name ≠ "") (ha : Acceptable completed ia)
    (su : List String → String → Bool) :
    ∃ ta ca sa tb cb sb, run completed (byName su ia) ia = some (ta, ca, sa) ∧
      run completed (byName su ib) ib = some (tb, cb, sb) ∧
      ta.map (nameAt ia) = tb.map (nameAt ib) ∧ ca = cb ∧ ResSame ia ib sa sb := by
  have hb := acceptable_perm hp hn ha
  have hnb : ∀ x ∈ ib, x.name ≠ "" := fun x hx => hn x (hp.mem_iff.2 hx)
  have hdeps : ∀ {is : List Init}, Acceptable completed is → ∀ x ∈ is, "" ∉ x.deps := by
    intro is h x hx hd
    rcases h.defined x hx "" hd with h | h | h
    · exact hc.1 h
    · rw [isPhony_empty] at h; simp at h
    · exact h.1 rfl
  obtain ⟨ga, ka, a1, a2, a3⟩ := run_eq hc ha (byName su ia)
  obtain ⟨gb, kb, b1, b2, b3⟩ := run_eq hc hb (byName su ib)
  obtain ⟨y, c, s, y1, y2⟩ := a3 (ga.keys.length + gb.keys.length + 1) (by omega)
  obtain ⟨z, d, t, z1, z2⟩ := b3 (ga.keys.length + gb.keys.length + 1) (by omega)
  refine ⟨_, _, _, _, _, _, y2, z2, ?_⟩
  have hnameA : ∀ n i, ga.init (.named n) = some i → nameAt ia i = n := by
    intro n i hi
    obtain ⟨x, hx, hxn, _⟩ := a2.named hi
    simp [nameAt, hx, hxn]
  have hnameB : ∀ n i, gb.init (.named n) = some i → nameAt ib i = n := by
    intro n i hi
    obtain ⟨x, hx, hxn, _⟩ := b2.named hi
    simp [nameAt, hx, hxn]
  have hemptyA : ∀ q, Key.named "" ∉ ga.deps q := by
    intro q hq
    rcases a2.sound q _ hq with ⟨j, x, _, _, ⟨m, _, _, hm0, hm⟩ | ⟨_, a, h, _⟩⟩ | ⟨j, x, hx, hk, _⟩
    · simp at hm; exact hm0 hm
    · simp at h
    · have := (a2.key j x _ hx hk).1 (hn x (List.mem_of_getElem? hx))
      simp at this
      exact hn x (List.mem_of_getElem? hx) this
  have hE : ∀ {is : List Init} {ks : List Key} {g : Graph}, GInv completed is ks g → (∀ x ∈ is, x.name ≠ "") →
      g.deps (.named "") = [] := by
    intro is ks g h hne
    apply List.eq_nil_iff_forall_not_mem.2
    intro q hq
    rcases h.sound _ q hq with ⟨j, x, hx, hk, _⟩ | ⟨j, x, _, _, ⟨r, _, h0, hr⟩ | ⟨a, h, _⟩⟩
    · have := (h.key j x _ hx hk).1 (hne x (List.mem_of_getElem? hx))
      simp at this
      exact hne x (List.mem_of_getElem? hx) this
    · simp at hr; exact h0 hr
    · simp at h
  have hsame : Same ia ib ga gb := by
    refine ⟨?_, ?_, ?_⟩
    · intro n
      by_cases h0 : n = ""
      · rw [h0, hE a2 hn, hE b2 hnb]
      · rw [initNodes_deps completed n h0 ia 0 _ _ _ (fun x hx => ⟨hn x hx, hdeps ha x hx⟩) a1,
          initNodes_deps completed n h0 ib 0 _ _ _ (fun x hx => ⟨hnb x hx, hdeps hb x hx⟩) b1]
        exact List.Perm.append_left _ (hp.flatMap_right _)
    · intro n d hd
      by_cases h0 : n = ""
      · rw [h0, hE a2 hn] at hd; simp at hd
      · rw [initNodes_deps completed n h0 ia 0 _ _ _ (fun x hx => ⟨hn x hx, hdeps ha x hx⟩) a1] at hd
        simp only [Graph.empty, List.nil_append, List.mem_flatMap, contrib, List.mem_append] at hd
        obtain ⟨x, _, h | h⟩ := hd
        · split at h
          · obtain ⟨m, _, rfl⟩ := List.mem_map.1 h
            exact ⟨m, rfl⟩
          · simp at h
        · exact ⟨_, (List.mem_replicate.1 h).2⟩
    · intro n
      cases hai : ga.init (.named n) with
      | none =>
        cases hbi : gb.init (.named n) with
        | none => rfl
        | some j =>
          obtain ⟨x, hx, hxn, hn0⟩ := b2.named hbi
          obtain ⟨i, hi⟩ := List.mem_iff_getElem?.1 (hp.mem_iff.2 (List.mem_of_getElem? hx))
          have := a2.ofName hi (by rw [hxn]; exact hn0)
          rw [hxn, hai] at this; simp at this
      | some i =>
        obtain ⟨x, hx, hxn, hn0⟩ := a2.named hai
        obtain ⟨j, hj⟩ := List.mem_iff_getElem?.1 (hp.mem_iff.1 (List.mem_of_getElem? hx))
        have hbi := b2.ofName hj (by rw [hxn]; exact hn0)
        rw [hxn] at hbi
        rw [hbi]
        simp [hnameA n i hai, hnameB n j hbi]
  have hkeys : ∀ {is : List Init} {ks : List Key} {g : Graph}, GInv completed is ks g → (∀ x ∈ is, x.name ≠ "") →
      ks = is.map (fun x => Key.named x.name) := by
    intro is ks g h hne
    apply List.ext_getElem?
    intro i
    rw [List.getElem?_map]
    cases hx : is[i]? with
    | none =>
      rw [Option.map_none, List.getElem?_eq_none_iff, h.len, ← List.getElem?_eq_none_iff]
      exact hx
    | some x =>
      obtain ⟨k, hk, _⟩ := h.getKey hx
      rw [hk, (h.key i x k hx hk).1 (hne x (List.mem_of_getElem? hx))]
      rfl
  have hka := hkeys a2 hn
  have hkb := hkeys b2 hnb
  have hkn : ∀ k ∈ ka, ∃ m, k = .named m := by
    intro k hk
    rw [hka] at hk
    obtain ⟨x, _, rfl⟩ := List.mem_map.1 hk
    exact ⟨_, rfl⟩
  have hperm : sortKeys ka = sortKeys kb := by
    refine sortKeys_perm ?_ hkn
    rw [hka, hkb]
    exact hp.map _
  have hrun := runLoop_same (fun x y n h => exec_same hsame su (ga.keys.length + gb.keys.length + 1) x y n h)
    (sortKeys ka) ⟨fun _ => .pending, [], []⟩ ⟨fun _ => .pending, [], []⟩ completed
    (fun k hk => hkn k (mem_sortKeys.1 hk)) ⟨rfl, rfl, rfl⟩
  rw [y1, hperm, z1] at hrun
  exact ⟨hrun.1.trace, hrun.2.1, hrun.2.2⟩

/-! ## Case -/

example : Acceptable [] [⟨"b", ["a"], []⟩, ⟨"a", [], []⟩] := by
  have hr : run [] (fun _ _ => true) [⟨"b", ["a"], []⟩, ⟨"a", [], []⟩] = some ([1, 0], ["a", "b"], .ok ()) := by
    rfl
  exact (run_succeeds_iff ⟨by simp, by simp⟩ hr).1 rfl

end Verif.Startup
