import Verif.Expr.DeepLemmas
import Mathlib.Data.List.Perm.Subperm

/-!
# `DeepTransform` (C42)
-/

namespace Verif.Expr
variable {O V A E : Type} [DecidableEq O] [DecidableEq V] [DecidableEq A]
variable {G : Lang O V A E} {fn : Expr O V A → Except E (Expr O V A)}

/-- The outcome of one iteration that is not an error: the invariant, and either a frame and a cache entry more or a frame less;
errors only when there is no result. -/
def StepOk (G : Lang O V A E) (fn : Expr O V A → Except E (Expr O V A)) (root : Expr O V A) (cache : Cache O V A)
    (rest : List (Frame O V A)) : Next O V A E → Prop
  | .fail (.tooMany _) => False
  | .fail _ => ∀ r, ¬ Deep G fn root r
  | .go c s => Inv G fn root c s ∧ cache.length ≤ c.length ∧
      (s.length = rest.length ∨ (s.length = rest.length + 2 ∧ cache.length < c.length))

theorem applyFn_ok {root : Expr O V A} {cache cache0 : Cache O V A} {f : Frame O V A} {rest : List (Frame O V A)}
    {new : Expr O V A} (hlen : cache0.length ≤ cache.length) (hnew : Rebuilt G fn f.node new)
    (hreach : Relation.ReflTransGen (Needs G fn) root f.node)
    (h : ∀ t, fn new = .ok t → Core G fn root cache (⟨f.node, f.depIdx, some (new, t)⟩ :: rest)) :
    StepOk G fn root cache0 rest (applyFn fn cache f rest new) := by
  unfold applyFn
  cases hfn : fn new with
  | error e =>
    dsimp only
    intro r hr
    obtain ⟨r', hr'⟩ := deep_reach hr hreach
    rcases (deep_iff hnew).1 hr' with ⟨h1, _⟩ | ⟨t, h1, _⟩ <;> rw [hfn] at h1 <;> cases h1
  | ok t =>
    dsimp only
    have hc := h t hfn
    have hp1 : (lookup cache f.node).isSome := by
      have := (hc.pend f.node).2 (by rw [pending_cons]; exact List.mem_append_left _ (node_mem_pendingOf ⟨f.node, f.depIdx, some (new, t)⟩))
      simp [this]
    have hpm : ∀ k, k ∈ pendingOf (⟨f.node, f.depIdx, some (new, t)⟩ : Frame O V A) ↔ k = f.node ∨ k = new := by
      intro k
      unfold pendingOf
      dsimp only
      split
      · rename_i hh; simp [hh]
      · simp
    have hp2 : (lookup cache new).isSome := by
      have := (hc.pend new).2 (by rw [pending_cons]; exact List.mem_append_left _ ((hpm new).2 (Or.inr rfl)))
      simp [this]
    have hpop : ∀ r, Deep G fn f.node r → StepOk G fn root cache0 rest (.go (store cache f.node new r) rest) := by
      intro r hr
      have hk := store_keys (cache := cache) r hp1 hp2
      refine ⟨hc.pop hk (r := r) ?_ ?_, ?_, Or.inl rfl⟩
      · intro k
        rw [store_lookup]
        simp only [hpm]
      · intro k hk
        rcases (hpm k).1 hk with rfl | rfl
        · exact hr
        · exact (deep_via_rebuilt hnew).1 hr
      · have := congrArg List.length hk
        simp at this
        omega
    by_cases ht : t = new
    · rw [if_pos ht]
      exact hpop t ((deep_iff hnew).2 (Or.inl ⟨by rw [hfn, ht], ht⟩))
    · rw [if_neg ht]
      have hneed : Needs G fn f.node t := Or.inr ⟨new, hnew, hfn, ht⟩
      cases hl : lookup cache t with
      | none =>
        dsimp only
        refine ⟨⟨hc.push hl rfl rfl ⟨hnew, hfn⟩ ⟨rfl, ht⟩ (hreach.tail hneed), ?_⟩, ?_, Or.inr ⟨rfl, ?_⟩⟩
        · intro g rest' a b hg hs
          cases hg; cases hs
        · simp; omega
        · simp; omega
      | some o =>
        cases o with
        | none =>
          dsimp only
          intro r hr
          obtain ⟨r', hr'⟩ := deep_reach hr hreach
          have hm := (hc.pend t).1 hl
          rw [pending_cons, List.mem_append] at hm
          refine acc_no_cycle (deep_acc hr') ?_
          rcases hm with hm | hm
          · rcases (hpm t).1 hm with h1 | h1
            · rw [h1] at hneed; exact .single hneed
            · exact absurd h1 ht
          · exact .head hneed (pending_needs rest _ hc.chain (fun g hg => hc.frames g (by simp [hg])) t hm)
        | some r =>
          dsimp only
          exact hpop r ((deep_iff hnew).2 (Or.inr ⟨t, hfn, ht, hc.sound t r hl⟩))

theorem firstStage_ok {root : Expr O V A} {cache : Cache O V A} {f : Frame O V A} {rest : List (Frame O V A)}
    (hc : Inv G fn root cache (f :: rest)) (hs : f.second = none) :
    StepOk G fn root cache rest (firstStage G fn cache f rest) := by
  have hreach := hc.reach f (by simp)
  have hpf : pendingOf f = [f.node] := by unfold pendingOf; rw [hs]
  have hfok : ∀ (j : Nat) (d : Expr O V A), j < f.depIdx → f.node.deps[j]? = some d → (lookup cache d).isSome := by
    have := hc.frames f (by simp)
    unfold FrameOk at this
    rw [hs] at this
    exact this
  unfold firstStage
  dsimp only
  rcases skipCached_spec cache (f.node.deps.drop f.depIdx) with ⟨h1, h2, h3⟩ | ⟨d, h1, h2, h3, h4⟩
  · rw [h1, h2]
    have hall : ∀ d ∈ f.node.deps, (lookup cache d).isSome := by
      intro d hd
      obtain ⟨j, hj⟩ := list_get_of_mem hd
      by_cases hjl : j < f.depIdx
      · exact hfok j d hjl hj
      · apply h3
        rw [List.mem_iff_getElem?]
        exact ⟨j - f.depIdx, by rw [List.getElem?_drop]; rw [show f.depIdx + (j - f.depIdx) = j by omega]; exact hj⟩
    rw [List.getElem?_eq_none (by simp; omega)]
    dsimp only
    cases hcol : collect cache f.node.deps with
    | none =>
      dsimp only
      intro r hr
      obtain ⟨d, hd, hn⟩ := collect_none hcol
      have hdn : lookup cache d = some none := by
        have := hall d hd
        cases hl : lookup cache d with
        | none => rw [hl] at this; cases this
        | some o =>
          cases o with
          | none => rfl
          | some x => exact absurd hl (hn x)
      obtain ⟨r', hr'⟩ := deep_reach hr hreach
      refine acc_no_cycle (deep_acc hr') ?_
      have hm := (hc.pend d).1 hdn
      rw [pending_cons, hpf, List.mem_append] at hm
      have hneed : Needs G fn f.node d := Or.inl hd
      rcases hm with hm | hm
      · simp at hm; rw [hm] at hneed; exact .single hneed
      · exact .head hneed (pending_needs rest f hc.chain (fun g hg => hc.frames g (by simp [hg])) d hm)
    | some ds =>
      dsimp only
      have hds : DeepList G fn f.node.deps ds := collect_some hc.sound hcol
      cases hw : G.withNewDeps f.node ds with
      | error e =>
        dsimp only
        intro r hr
        obtain ⟨r', hr'⟩ := deep_reach hr hreach
        obtain ⟨m, ds', hds', hm⟩ := deep_rebuilt hr'
        rw [deepList_det hds' hds, hw] at hm
        cases hm
      | ok new =>
        dsimp only
        have hnew : Rebuilt G fn f.node new := ⟨ds, hds, hw⟩
        by_cases hne : new = f.node
        · rw [if_neg (by simpa using hne)]
          apply applyFn_ok (Nat.le_refl _) hnew hreach
          intro t ht
          have := hc.toCore.convert hs hnew ht (fun h => absurd hne h) f.depIdx
          rwa [if_neg (by simpa using hne)] at this
        · rw [if_pos hne]
          cases hl : lookup cache new with
          | none =>
            dsimp only
            apply applyFn_ok (by simp) hnew hreach
            intro t ht
            have := hc.toCore.convert hs hnew ht (fun _ => hl) f.depIdx
            rwa [if_pos hne] at this
          | some o =>
            cases o with
            | some r =>
              dsimp only
              have hpn : (lookup cache f.node).isSome := by
                have := (hc.pend f.node).2 (by rw [pending_cons, hpf]; simp)
                simp [this]
              have hk := upd_keys hpn (some r : Option (Expr O V A))
              refine ⟨hc.toCore.pop hk (r := r) ?_ ?_, ?_, Or.inl rfl⟩
              · intro k
                rw [lookup_upd, hpf]
                simp
              · intro k hk
                rw [hpf] at hk
                simp at hk
                subst hk
                exact (deep_via_rebuilt hnew).2 (hc.sound new r hl)
              · have := congrArg List.length hk
                simp at this
                omega
            | none =>
              dsimp only
              intro r hr
              obtain ⟨r', hr'⟩ := deep_reach hr hreach
              have hm := (hc.pend new).1 hl
              rw [pending_cons, hpf, List.mem_append] at hm
              rcases hm with hm | hm
              · simp at hm; exact hne hm
              · have hcyc := pending_needs rest f hc.chain (fun g hg => hc.frames g (by simp [hg])) new hm
                rcases Relation.TransGen.head'_iff.1 hcyc with ⟨x, hx, hxn⟩
                rcases hx with hx | ⟨k, hk, hfk, hxk⟩
                · have hnx := rebuilt_normal hnew x hx
                  have hsub := normal_reach hnx hxn
                  have hnn : Normal fn f.node := fun s hs => hnx s (Sub.trans hs hsub)
                  exact hne (rebuilt_det hnew (rebuilt_self (fun d hd => hnn.dep hd)))
                · have := rebuilt_det hk (rebuilt_idem hnew)
                  subst this
                  exact acc_no_cycle (deep_acc hr') (.head' (Or.inr ⟨k, hnew, hfk, hxk⟩) hxn)
  · rw [h3]
    have hd : f.node.deps[f.depIdx + (skipCached cache (f.node.deps.drop f.depIdx)).1]? = some d := by
      rw [← List.getElem?_drop]; exact h1
    rw [hd]
    dsimp only
    have hmem := List.mem_of_getElem? hd
    refine ⟨⟨hc.toCore.push h2 rfl (by rw [hpf]; rfl) ?_ hmem (hreach.tail (Or.inl hmem)), ?_⟩, by simp, Or.inr ⟨rfl, by simp⟩⟩
    · intro j x hj hx
      dsimp only at hj hx
      rw [lookup_snoc h2]
      by_cases hxd : x = d
      · rw [if_pos hxd]; rfl
      · rw [if_neg hxd]
        by_cases hjl : j < f.depIdx
        · exact hfok j x hjl hx
        · by_cases hje : j = f.depIdx + (skipCached cache (f.node.deps.drop f.depIdx)).1
          · rw [hje, hd] at hx; cases hx; exact absurd rfl hxd
          · exact h4 (j - f.depIdx) x (by omega) (by
              rw [List.getElem?_drop, show f.depIdx + (j - f.depIdx) = j by omega]; exact hx)
    · intro g rest' a b hg hs'
      cases hg; cases hs'

theorem deepStep_ok {root : Expr O V A} {cache : Cache O V A} {f : Frame O V A} {rest : List (Frame O V A)} (limit : Nat)
    (hc : Inv G fn root cache (f :: rest)) :
    (limit < cache.length ∧ deepStep G fn limit cache f rest = some (.fail (.tooMany cache.length))) ∨
    (cache.length ≤ limit ∧ ∃ nx, deepStep G fn limit cache f rest = some nx ∧ StepOk G fn root cache rest nx) := by
  unfold deepStep
  by_cases hl : cache.length > limit
  · rw [if_pos hl]; exact Or.inl ⟨hl, rfl⟩
  · rw [if_neg hl]
    right
    refine ⟨by omega, ?_⟩
    cases hs : f.second with
    | none => exact ⟨_, rfl, firstStage_ok hc hs⟩
    | some nt =>
      obtain ⟨new, t⟩ := nt
      dsimp only
      obtain ⟨r, hr⟩ := hc.top f rest new t rfl hs
      rw [hr]
      dsimp only
      refine ⟨_, rfl, ?_⟩
      have hf := hc.frames f (by simp)
      unfold FrameOk at hf
      rw [hs] at hf
      obtain ⟨hnew, hfn⟩ := hf
      have hpm : ∀ k, k ∈ pendingOf f ↔ k = f.node ∨ k = new := by
        intro k
        unfold pendingOf
        rw [hs]
        dsimp only
        split
        · rename_i hh; simp [hh]
        · simp
      have hin : ∀ k, k = f.node ∨ k = new → (lookup cache k).isSome := by
        intro k hk
        have := (hc.pend k).2 (by rw [pending_cons]; exact List.mem_append_left _ ((hpm k).2 hk))
        simp [this]
      have hk := store_keys r (hin f.node (Or.inl rfl)) (hin new (Or.inr rfl))
      have htn : t ≠ new := by
        intro htn
        have := (hc.pend new).2 (by rw [pending_cons]; exact List.mem_append_left _ ((hpm new).2 (Or.inr rfl)))
        rw [← htn, hr] at this
        cases this
      have hdeep : Deep G fn f.node r := (deep_iff hnew).2 (Or.inr ⟨t, hfn, htn, hc.sound t r hr⟩)
      refine ⟨hc.toCore.pop hk (r := r) ?_ ?_, ?_, Or.inl rfl⟩
      · intro k
        rw [store_lookup]
        simp only [hpm]
      · intro k hk
        rcases (hpm k).1 hk with rfl | rfl
        · exact hdeep
        · exact (deep_via_rebuilt hnew).1 hdeep
      · have := congrArg List.length hk
        simp at this
        omega

/-- The final outcome. -/
def Outcome (G : Lang O V A E) (fn : Expr O V A → Except E (Expr O V A)) (limit : Nat) (root : Expr O V A) :
    Except (DeepErr O V A E) (Expr O V A) → Prop
  | .ok r => Deep G fn root r
  | .error (.tooMany n) => limit < n ∧ ∃ cache stack, cache.length = n ∧ Inv G fn root cache stack
  | .error _ => ∀ r, ¬ Deep G fn root r

theorem deepLoop_ok {root : Expr O V A} (limit : Nat) : ∀ (fuel : Nat) (cache : Cache O V A) (stack : List (Frame O V A)),
    Inv G fn root cache stack → 2 * (limit + 1 - cache.length) + stack.length < fuel →
    ∃ out, deepLoop G fn limit root fuel cache stack = some out ∧ Outcome G fn limit root out := by
  intro fuel
  induction fuel with
  | zero => intro cache stack _ h; omega
  | succ fuel ih =>
    intro cache stack hc hfuel
    cases stack with
    | nil =>
      rw [deepLoop]
      have := hc.rootIn
      cases hl : lookup cache root with
      | none => rw [hl] at this; cases this
      | some o =>
        cases o with
        | none => have := (hc.pend root).1 hl; cases this
        | some r => exact ⟨.ok r, rfl, hc.sound root r hl⟩
    | cons f rest =>
      rw [deepLoop]
      rcases deepStep_ok limit hc with ⟨h1, h2⟩ | ⟨h1, nx, h2, h3⟩
      · rw [h2]
        exact ⟨_, rfl, h1, cache, f :: rest, rfl, hc⟩
      · rw [h2]
        cases nx with
        | fail e =>
          cases e with
          | tooMany n => exact absurd h3 (by simp [StepOk])
          | loop n => exact ⟨_, rfl, h3⟩
          | other e => exact ⟨_, rfl, h3⟩
        | go c s =>
          dsimp only
          obtain ⟨h4, h5, h6⟩ := h3
          apply ih c s h4
          simp only [List.length_cons] at hfuel
          omega

theorem inv_init (root : Expr O V A) : Inv G fn root [(root, none)] [⟨root, 0, none⟩] := by
  have hl : ∀ k, lookup [(root, (none : Option (Expr O V A)))] k = if root = k then some none else none := by
    intro k; rw [lookup_cons, lookup_nil]
  refine ⟨⟨by simp, ?_, ?_, by simp [pending, pendingOf], ?_, trivial, ?_, by rw [hl]; simp, ?_⟩, ?_⟩
  · intro n r h
    rw [hl] at h
    split at h <;> cases h
  · intro n
    rw [hl]
    have : pending [(⟨root, 0, none⟩ : Frame O V A)] = [root] := rfl
    rw [this]
    by_cases h : root = n
    · simp [h]
    · simp only [h, if_false, List.mem_singleton, reduceCtorEq, false_iff]
      exact fun h' => h h'.symm
  · intro f hf
    simp at hf; subst hf
    intro j d hj; simp at hj
  · intro f hf
    simp at hf; subst hf
    exact .refl
  · intro k hk
    rw [hl] at hk
    by_cases h : root = k
    · subst h; exact Or.inl .refl
    · rw [if_neg h] at hk; cases hk
  · intro f rest new t h1 h2
    cases h1; cases h2

theorem deep_outcome (limit : Nat) (root : Expr O V A) :
    ∃ out, deepTransform G fn limit root = some out ∧ Outcome G fn limit root out :=
  deepLoop_ok limit _ _ _ (inv_init root) (by simp)

/-! ## The property -/

/-- `DeepTransform` ends for every transformation function (after at most `2 * limit + 3` iterations) and never reads a missing
cache entry or returns a null pointer. -/
theorem deep_terminates (limit : Nat) (root : Expr O V A) : (deepTransform G fn limit root).isSome := by
  obtain ⟨out, h, _⟩ := deep_outcome (G := G) (fn := fn) limit root
  rw [h]; rfl

/-- If it succeeds, the result is the one of the recursive definition, and no subexpression of it is changed by the function. -/
theorem deep_sound (limit : Nat) (root r : Expr O V A) (h : deepTransform G fn limit root = some (.ok r)) :
    Deep G fn root r ∧ ∀ s, Sub s r → fn s = .ok s := by
  obtain ⟨out, h', ho⟩ := deep_outcome (G := G) (fn := fn) limit root
  rw [h] at h'; cases h'
  exact ⟨ho, deep_normal ho⟩

/-- The recursive definition has at most one result. -/
theorem deep_unique {n r r' : Expr O V A} (h : Deep G fn n r) (h' : Deep G fn n r') : r = r' := deep_det h h'

/-- If it reports an infinite loop or an error of the function, then there is no result by the recursive definition. -/
theorem deep_error (limit : Nat) (root : Expr O V A) (e : DeepErr O V A E)
    (h : deepTransform G fn limit root = some (.error e)) : (∃ n, e = .tooMany n ∧ limit < n) ∨ ∀ r, ¬ Deep G fn root r := by
  obtain ⟨out, h', ho⟩ := deep_outcome (G := G) (fn := fn) limit root
  rw [h] at h'; cases h'
  cases e with
  | tooMany n => exact Or.inl ⟨n, rfl, ho.1⟩
  | loop n => exact Or.inr ho
  | other e => exact Or.inr ho

/-- If the recursive definition has a result, `DeepTransform` returns it whenever the limit is large enough. -/
theorem deep_complete (root r : Expr O V A) (h : Deep G fn root r) :
    ∃ bound, ∀ limit, bound ≤ limit → deepTransform G fn limit root = some (.ok r) := by
  classical
  obtain ⟨l, hl⟩ := deep_finite h
  have hreb : ∀ n, n ∈ l → ∃ m, ∀ m', Rebuilt G fn n m' → m' = m := by
    intro n _
    by_cases hm : ∃ m, Rebuilt G fn n m
    · obtain ⟨m, hm⟩ := hm
      exact ⟨m, fun m' h' => rebuilt_det h' hm⟩
    · exact ⟨n, fun m' h' => absurd ⟨m', h'⟩ hm⟩
  let g : Expr O V A → Expr O V A := fun n => if hn : n ∈ l then (hreb n hn).choose else n
  refine ⟨(l ++ l.map g).length, ?_⟩
  intro limit hlim
  obtain ⟨out, h', ho⟩ := deep_outcome (G := G) (fn := fn) limit root
  rw [h']
  cases out with
  | ok r' => rw [deep_det h ho]
  | error e =>
    exfalso
    cases e with
    | loop n => exact ho r h
    | other e => exact ho r h
    | tooMany n =>
      obtain ⟨h1, cache, stack, h2, h3⟩ := ho
      have hsub : cache.map Prod.fst ⊆ l ++ l.map g := by
        intro k hk
        rcases h3.bounded k (lookup_isSome_iff.2 hk) with hr | ⟨n, hn, hnk⟩
        · exact List.mem_append_left _ (hl k hr)
        · have hnl := hl n hn
          refine List.mem_append_right _ (List.mem_map.2 ⟨n, hnl, ?_⟩)
          show (if hn : n ∈ l then (hreb n hn).choose else n) = k
          rw [dif_pos hnl]
          exact ((hreb n hnl).choose_spec k hnk).symm
      have := (List.subperm_of_subset h3.keys hsub).length_le
      rw [List.length_map] at this
      omega

/-- An expression in which the function changes nothing is returned as it is. -/
theorem deep_fixed_point (limit : Nat) (root r r' : Expr O V A) (h : deepTransform G fn limit root = some (.ok r))
    (h' : deepTransform G fn limit r = some (.ok r')) : r' = r := by
  have h1 := (deep_sound limit root r h).1
  have h2 := (deep_sound limit r r' h').1
  exact deep_det h2 (normal_deep (deep_normal h1))

/-- If the function preserves values, so does `DeepTransform`. -/
theorem deep_value {D : Type} (ops : O → List D → D) (lit : V → D) (leaf placeholder : List Nat → D)
    (hfn : ∀ n m, fn n = .ok m → value ops lit leaf placeholder m = value ops lit leaf placeholder n)
    (limit : Nat) (root r : Expr O V A) (h : deepTransform G fn limit root = some (.ok r)) :
    value ops lit leaf placeholder r = value ops lit leaf placeholder root := by
  have hd := (deep_sound limit root r h).1
  clear h
  have rebuild : ∀ (n m : Expr O V A) (ds : List (Expr O V A)), ds.length = n.deps.length →
      (∀ (i : Nat) (d d' : Expr O V A), n.deps[i]? = some d → ds[i]? = some d' →
        value ops lit leaf placeholder d' = value ops lit leaf placeholder d) →
      G.withNewDeps n ds = .ok m → value ops lit leaf placeholder m = value ops lit leaf placeholder n := by
    intro n m ds hl hv hw
    obtain ⟨hlab, hdeps⟩ := withNewDeps_label G hw
    cases hn : n.label with
    | op o =>
      rw [value_op _ _ _ _ hn, value_op _ _ _ _ (hlab.trans hn), hdeps o hn]
      congr 1
      apply List.ext_getElem?
      intro i
      simp only [List.getElem?_map]
      by_cases hi : i < n.deps.length
      · have e1 := List.getElem?_eq_getElem hi
        have e2 := List.getElem?_eq_getElem (l := ds) (i := i) (by omega)
        rw [e1, e2]
        exact congrArg some (hv i _ _ e1 e2)
      · rw [List.getElem?_eq_none (by omega), List.getElem?_eq_none (by omega)]
    | leaf k =>
      obtain ⟨l, a, ds⟩ := n
      obtain ⟨l', a', ds'⟩ := m
      simp only [Expr.label] at hn hlab
      subst hn; subst hlab
      rw [value, value]
    | placeholder k =>
      obtain ⟨l, a, ds⟩ := n
      obtain ⟨l', a', ds'⟩ := m
      simp only [Expr.label] at hn hlab
      subst hn; subst hlab
      rw [value, value]
    | literal k =>
      obtain ⟨l, a, ds⟩ := n
      obtain ⟨l', a', ds'⟩ := m
      simp only [Expr.label] at hn hlab
      subst hn; subst hlab
      rw [value, value]
  induction hd with
  | done n m ds hl hd hw hf ih => exact rebuild n m ds hl ih hw
  | more n m t r ds hl hd hw hf ht hr ih1 ih2 => rw [ih2, hfn m t hf, rebuild n m ds hl ih1 hw]

/-! ## Examples -/

/-- A rewriting with several steps: operator 1 becomes operator 2, operator 2 on a leaf and a placeholder becomes operator 3 of the
leaf, and the placeholder becomes a literal. -/
def deepFn (n : Expr Nat Nat Nat) : Except Nat (Expr Nat Nat Nat) :=
  match n.label, n.deps with
  | .op 1, ds => exLang.mkOp 2 ds
  | .op 2, [a, _] => exLang.mkOp 3 [a]
  | .placeholder _, _ => .ok (.mk (.literal 5) 0 [])
  | _, _ => .ok n

example : deepTransform exLang deepFn 20 exF = some (.ok (.mk (.op 0) 3 [exX, .mk (.op 3) 1 [exX], exX])) := by rfl
/-- The limit counts the nodes in the cache. -/
example : deepTransform exLang deepFn 7 exF = some (.error (.tooMany 8)) := by rfl
example : (deepTransform exLang deepFn 9 exF).map (fun o => match o with | .ok _ => true | _ => false) = some true := by rfl

/-- `x` becomes `f(x)`. -/
def growFn (n : Expr Nat Nat Nat) : Except Nat (Expr Nat Nat Nat) :=
  if n = exX then exLang.mkOp 9 [exX] else .ok n

/-- An infinite transformation is found. -/
example : deepTransform exLang growFn 20 exF = some (.error (.loop (.mk (.op 9) 1 [exX]))) := by rfl

/-- The operators `0, 1, 2, …` in turn: never ends by itself. -/
def countFn (n : Expr Nat Nat Nat) : Except Nat (Expr Nat Nat Nat) :=
  match n.label with
  | .op o => exLang.mkOp (o + 1) n.deps
  | _ => .ok n

example : deepTransform exLang countFn 8 exF = some (.error (.tooMany 9)) := by rfl

end Verif.Expr
