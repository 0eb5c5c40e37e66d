import Verif.Lambda.LambdaLemmas

/-!
# Properties of lambda operators
-/

namespace Verif.Lambda
open Verif.Expr
variable {O V Q E T : Type}

/-! ## Which lambdas can be made -/

theorem wf_placeholder {G : Lang O V (Attr Q V) E} {n : Node O V Q} {k : List Nat} (h : WF G n)
    (hk : placeholderKey n = some k) : n = .mk (.placeholder k) G.noAttr [] := by
  cases h <;> simp_all [placeholderKey, Expr.label]

section
variable [DecidableEq O] [DecidableEq V] [DecidableEq Q]

theorem keys_nodup {G : Lang O V (Attr Q V) E} : ∀ {ns : List (Node O V Q)}, ns.Nodup → (∀ n ∈ ns, WF G n) →
    (ns.filterMap placeholderKey).Nodup := by
  intro ns
  induction ns with
  | nil => intro _ _; simp
  | cons n ns ih =>
    intro hnd hwf
    rw [List.nodup_cons] at hnd
    have ih' := ih hnd.2 (fun m hm => hwf m (by simp [hm]))
    cases h : placeholderKey n with
    | none => rw [List.filterMap_cons_none h]; exact ih'
    | some k =>
      rw [List.filterMap_cons_some h, List.nodup_cons]
      refine ⟨?_, ih'⟩
      intro hm
      obtain ⟨m, hm1, hm2⟩ := List.mem_filterMap.1 hm
      have h1 := wf_placeholder (hwf n (by simp)) h
      have h2 := wf_placeholder (hwf m (by simp [hm1])) hm2
      exact hnd.1 (by rw [h1, ← h2]; exact hm1)

theorem paramsKnown_iff (params : List (List Nat)) (ns : List (Node O V Q)) :
    paramsKnown params ns = true ↔ ∀ n ∈ ns, ∀ k, placeholderKey n = some k → k ∈ params := by
  unfold paramsKnown
  rw [List.all_eq_true]
  apply forall_congr'; intro n
  apply forall_congr'; intro _
  cases h : placeholderKey n with
  | none => simp
  | some k => simp

theorem index_ok {params : List (List Nat)} {variadic : Bool} {po : PostOrder O V (Attr Q V)} (hnd : params.Nodup)
    (hv : variadic = true → params ≠ []) (hu : (po.nodes.filterMap placeholderKey).Nodup)
    (hk : ∀ n ∈ po.nodes, ∀ k, placeholderKey n = some k → k ∈ params) :
    ∃ ix, indexLoop params po.nodes 0 (List.replicate params.length none) = some ix ∧
      IndexOk (⟨params, variadic, po, ix⟩ : LambdaOp O V Q) := by
  obtain ⟨ix, h1, h2, h3⟩ := indexLoop_spec hnd po.nodes 0 (List.replicate params.length none) hu (by
    intro k hk'
    obtain ⟨n, g1, g2⟩ := List.mem_filterMap.1 hk'
    exact hk n g1 k g2) (by simp)
  refine ⟨ix, h1, hnd, hv, h2, ?_, hk⟩
  intro j m
  show ix[j]? = some (some m) ↔ ∃ n p, po.nodes[m]? = some n ∧ placeholderKey n = some p ∧ params[j]? = some p
  constructor
  · intro hj
    have hjl := (List.getElem?_eq_some_iff.1 hj).1
    rw [h2] at hjl
    have hp : params[j]? = some params[j] := List.getElem?_eq_getElem hjl
    rcases (h3 j m _ hp).1 hj with ⟨t, n, g1, g2, g3⟩ | ⟨g1, -⟩
    · rw [Nat.zero_add] at g3
      subst g3
      exact ⟨n, _, g1, g2, hp⟩
    · rw [List.getElem?_replicate] at g1
      split at g1 <;> simp at g1
  · rintro ⟨n, p, g1, g2, g3⟩
    exact (h3 j m p g3).2 (Or.inl ⟨m, n, g1, g2, by omega⟩)

/-- What `make` has checked and computed. -/
theorem make_ok {params : List (List Nat)} {variadic : Bool} {body : Node O V Q} {L : LambdaOp O V Q}
    (h : make (E := E) params variadic body = some (.ok L)) :
    IndexOk L ∧ postOrder body = some L.body ∧ L.params = params ∧ L.variadic = variadic ∧
      (∀ n ∈ L.body.nodes, leafKey n = none) ∧ ∀ n ∈ L.body.nodes, ∀ k, placeholderKey n = some k → n.deps = [] := by
  unfold make at h
  split at h
  · cases h
  rename_i hs
  split at h
  · cases h
  rename_i po hpo
  have hb : ∀ {e : Err E}, (validateBody po.nodes : Except (Err E) Unit) = .error e → False := by
    intro e he; rw [he] at h; cases h
  unfold validateBody at h hb
  split at h
  · cases h
  rename_i e1
  have hval : po.nodes.any isLeaf = false ∧ po.nodes.any (fun n => isPlaceholder n && !n.deps.isEmpty) = false ∧
      keysUnique po.nodes [] = true := by
    clear h hb
    split at e1
    · cases e1
    split at e1
    · cases e1
    split at e1
    · exact ⟨by simp_all, by simp_all, by assumption⟩
    · cases e1
  split at h
  · rename_i hpk
    have hpk := (paramsKnown_iff params po.nodes).1 hpk
    have hu := ((keysUnique_iff po.nodes []).1 hval.2.2).1
    have hs1 : params.Nodup := by
      rcases Decidable.em params.Nodup with h' | h'
      · exact h'
      · exact absurd (Or.inl h') hs
    have hs2 : variadic = true → params ≠ [] := fun hv hp => hs (Or.inr ⟨hv, hp⟩)
    obtain ⟨ix, g1, g2⟩ := index_ok (variadic := variadic) hs1 hs2 hu hpk
    rw [g1] at h
    cases h
    refine ⟨g2, hpo, rfl, rfl, ?_, ?_⟩
    · intro n hn
      have := List.any_eq_false.1 hval.1 n hn
      simpa [isLeaf] using this
    · intro n hn k hk
      have := List.any_eq_false.1 hval.2.1 n hn
      simp [isPlaceholder, hk] at this
      exact this
  · cases h

/-- `LambdaOperator::Make` never fails otherwise than with a status, and it succeeds exactly if the names of the parameters are
different, a variadic parameter exists if one is declared, the body has no leaves and every placeholder of the body is a
parameter. -/
theorem make_accepts (G : Lang O V (Attr Q V) E) (params : List (List Nat)) (variadic : Bool) (body : Node O V Q)
    (hwf : WF G body) :
    make (E := E) params variadic body ≠ none ∧
    ((∃ L, make (E := E) params variadic body = some (.ok L)) ↔
      params.Nodup ∧ (variadic = true → params ≠ []) ∧ (∀ m, Sub m body → leafKey m = none) ∧
      ∀ m, Sub m body → ∀ k, placeholderKey m = some k → k ∈ params) := by
  obtain ⟨po, hpo, hnd, hsub, -, -, -⟩ := post_order body
  have hwfs : ∀ n ∈ po.nodes, WF G n := fun n hn => wf_sub hwf ((hsub n).1 hn)
  have hu := keys_nodup hnd hwfs
  have h2 : po.nodes.any (fun n => isPlaceholder n && !n.deps.isEmpty) = false := by
    rw [List.any_eq_false]
    intro n hn
    cases hk : placeholderKey n with
    | none => simp [isPlaceholder, hk]
    | some k => rw [wf_placeholder (hwfs n hn) hk]; simp [Expr.deps]
  have h3 : keysUnique po.nodes [] = true := (keysUnique_iff _ _).2 ⟨hu, by simp⟩
  unfold make
  split
  · rename_i hs
    refine ⟨by simp, ?_⟩
    constructor
    · rintro ⟨L, h⟩; cases h
    · rintro ⟨g1, g2, -, -⟩
      rcases hs with hs | ⟨hs1, hs2⟩
      · exact absurd g1 hs
      · exact absurd hs2 (g2 hs1)
  rename_i hs
  have hs1 : params.Nodup := by
    rcases Decidable.em params.Nodup with h' | h'
    · exact h'
    · exact absurd (Or.inl h') hs
  have hs2 : variadic = true → params ≠ [] := fun hv hp => hs (Or.inr ⟨hv, hp⟩)
  rw [hpo]
  simp only
  unfold validateBody
  by_cases h1 : po.nodes.any isLeaf = true
  · rw [if_pos h1]
    refine ⟨by simp, ?_⟩
    constructor
    · rintro ⟨L, h⟩; cases h
    · rintro ⟨-, -, g3, -⟩
      obtain ⟨n, hn, hl⟩ := List.any_eq_true.1 h1
      have := g3 n ((hsub n).1 hn)
      simp [isLeaf, this] at hl
  · rw [if_neg h1, if_neg (by rw [h2]; simp), if_pos h3]
    simp only
    have hleaf : ∀ m, Sub m body → leafKey m = none := by
      intro m hm
      have := List.any_eq_false.1 (by simpa using h1 : po.nodes.any isLeaf = false) m ((hsub m).2 hm)
      simpa [isLeaf] using this
    by_cases hpk : paramsKnown params po.nodes = true
    · rw [if_pos hpk]
      have hpk' := (paramsKnown_iff params po.nodes).1 hpk
      obtain ⟨ix, g1, g2⟩ := index_ok (variadic := variadic) hs1 hs2 hu hpk'
      rw [g1]
      refine ⟨by simp, ?_⟩
      constructor
      · intro _
        exact ⟨hs1, hs2, hleaf, fun m hm k hk => hpk' m ((hsub m).2 hm) k hk⟩
      · intro _
        exact ⟨_, rfl⟩
    · rw [if_neg hpk]
      refine ⟨by simp, ?_⟩
      constructor
      · rintro ⟨L, h⟩; cases h
      · rintro ⟨-, -, -, g4⟩
        exact absurd ((paramsKnown_iff params po.nodes).2 (fun n hn k hk => g4 n ((hsub n).1 hn) k hk)) hpk

/-! ## Attributes -/

theorem folds_lift (v : Node O V Q → List T → Except E T) : ∀ (ds : List (Node O V Q)),
    (∀ d ∈ ds, fold (fun n xs => liftErr (v n xs)) d = liftErr (fold v d)) →
    folds (fun n xs => liftErr (v n xs)) ds = liftErr (folds v ds) := by
  intro ds
  induction ds with
  | nil => intro _; rw [folds, folds]; rfl
  | cons d ds ih =>
    intro h
    rw [folds_cons, folds_cons, h d (by simp), ih (fun d' hd' => h d' (by simp [hd']))]
    cases fold v d with
    | error e => rfl
    | ok x => cases folds v ds <;> rfl

theorem fold_lift (v : Node O V Q → List T → Except E T) (n : Node O V Q) :
    fold (fun n xs => liftErr (v n xs)) n = liftErr (fold v n) := by
  induction n using Expr.ind with
  | h n ih =>
    rw [fold_eq, fold_eq, folds_lift v n.deps ih]
    cases folds v n.deps with
    | error e => rfl
    | ok xs => rfl

/-- The attributes as computed by `InferAttributes`, as a visitor. -/
def inferVisitor (G : Lang O V (Attr Q V) E) (σA : List Nat → Option (Attr Q V)) (n : Node O V Q)
    (as : List (Attr Q V)) : Except (Err E) (Attr Q V) :=
  match placeholderKey n with
  | some k => .ok ((σA k).getD n.attr)
  | none => inferStep G 0 n as

/-- The substitution with wrapped errors. -/
def lowerVisitor (G : Lang O V (Attr Q V) E) (σ : List Nat → Option (Node O V Q)) (n : Node O V Q)
    (ds : List (Node O V Q)) : Except (Err E) (Node O V Q) := liftErr (substVisitor G σ n ds)

/-- The attributes of a substituted node are known more precisely, and are the same if the value was known. -/
def Better (d s : Node O V Q) : Prop := Refines d.attr s.attr ∧ (d.attr.qvalue.isSome = true → s.attr = d.attr)

theorem agree_list {G : Lang O V (Attr Q V) E} {σ : List Nat → Option (Node O V Q)} {σA : List Nat → Option (Attr Q V)} :
    ∀ (ds : List (Node O V Q)),
    (∀ d ∈ ds, fold (inferVisitor G σA) d = (fold (lowerVisitor G σ) d).map Expr.attr ∧
      ∀ s, fold (lowerVisitor G σ) d = .ok s → Better d s) →
    folds (inferVisitor G σA) ds = (folds (lowerVisitor G σ) ds).map (List.map Expr.attr) ∧
      ∀ ss, folds (lowerVisitor G σ) ds = .ok ss → List.Forall₂ Refines (ds.map Expr.attr) (ss.map Expr.attr) := by
  intro ds
  induction ds with
  | nil =>
    intro _
    rw [folds, folds]
    refine ⟨rfl, ?_⟩
    intro ss h; cases h; simp
  | cons d ds ih =>
    intro h
    obtain ⟨h1, h2⟩ := h d (by simp)
    obtain ⟨h3, h4⟩ := ih (fun d' hd' => h d' (by simp [hd']))
    rw [folds_cons, folds_cons, h1, h3]
    cases hd : fold (lowerVisitor G σ) d with
    | error e => exact ⟨rfl, fun ss h => by cases h⟩
    | ok s =>
      cases hds : folds (lowerVisitor G σ) ds with
      | error e => exact ⟨rfl, fun ss h => by cases h⟩
      | ok ss =>
        refine ⟨rfl, ?_⟩
        intro ss' h'
        cases h'
        exact List.Forall₂.cons (h2 s hd).1 (h4 ss hds)

theorem agree {G : Lang O V (Attr Q V) E} {tupleOp : O} {tupleAttr : List (Attr Q V) → Attr Q V} (laws : Laws G tupleOp tupleAttr)
    {σ : List Nat → Option (Node O V Q)} {σA : List Nat → Option (Attr Q V)} (hσ : ∀ k, σA k = (σ k).map Expr.attr)
    (n : Node O V Q) (hwf : WF G n) :
    fold (inferVisitor G σA) n = (fold (lowerVisitor G σ) n).map Expr.attr ∧
      ∀ s, fold (lowerVisitor G σ) n = .ok s → Better n s := by
  induction n using Expr.ind with
  | h n ih =>
    have hds := agree_list (G := G) (σ := σ) (σA := σA) n.deps
      (fun d hd => ih d hd (wf_sub hwf (Sub.dep (Sub.refl d) hd)))
    rw [fold_eq, fold_eq, hds.1]
    cases hwf with
    | leaf k =>
      have e : (Expr.mk (.leaf k) G.noAttr [] : Node O V Q).deps = [] := rfl
      rw [e, folds]
      constructor
      · show inferVisitor G σA (.mk (.leaf k) G.noAttr []) [] = Except.ok G.noAttr
        simp [inferVisitor, placeholderKey, Expr.label, inferStep, Expr.attr, laws.noAttr]
      · intro s hs
        have : s = .mk (.leaf k) G.noAttr [] := by
          have hs : (Except.ok (Expr.mk (.leaf k) G.noAttr []) : Except (Err E) (Node O V Q)) = .ok s := hs
          cases hs; rfl
        subst this
        exact ⟨⟨fun _ h => h, fun _ h => h⟩, fun _ => rfl⟩
    | placeholder k =>
      have e : (Expr.mk (.placeholder k) G.noAttr [] : Node O V Q).deps = [] := rfl
      rw [e, folds]
      constructor
      · show (Except.ok ((σA k).getD G.noAttr) : Except (Err E) (Attr Q V)) =
          Except.ok (Expr.attr ((σ k).getD (.mk (.placeholder k) G.noAttr [])))
        rw [hσ]
        cases σ k <;> rfl
      · intro s _
        refine ⟨⟨?_, ?_⟩, ?_⟩
        · intro q h; simp [Expr.attr, laws.noAttr] at h
        · intro q h; simp [Expr.attr, laws.noAttr] at h
        · intro h; simp [Expr.attr, laws.noAttr] at h
    | literal w =>
      have e : (Expr.mk (.literal w) (G.litAttr w) [] : Node O V Q).deps = [] := rfl
      rw [e, folds]
      constructor
      · show inferVisitor G σA (.mk (.literal w) (G.litAttr w) []) [] = Except.ok (G.litAttr w)
        exact if_pos (laws.lit w)
      · intro s hs
        have : s = .mk (.literal w) (G.litAttr w) [] := by
          have hs : (Except.ok (Expr.mk (.literal w) (G.litAttr w) []) : Except (Err E) (Node O V Q)) = .ok s := hs
          cases hs; rfl
        subst this
        exact ⟨⟨fun _ h => h, fun _ h => h⟩, fun _ => rfl⟩
    | op o a ds h1 h2 =>
      have e : (Expr.mk (.op o) a ds : Node O V Q).deps = ds := rfl
      rw [e] at hds ⊢
      cases hss : folds (lowerVisitor G σ) ds with
      | error e' => exact ⟨rfl, fun s hs => by cases hs⟩
      | ok ss =>
        have hr := hds.2 ss hss
        have hv : lowerVisitor G σ (.mk (.op o) a ds) ss = liftErr (G.mkOp o ss) := rfl
        show inferVisitor G σA (.mk (.op o) a ds) (ss.map Expr.attr) =
            Except.map Expr.attr (lowerVisitor G σ (.mk (.op o) a ds) ss) ∧
          ∀ s, lowerVisitor G σ (.mk (.op o) a ds) ss = .ok s → Better (.mk (.op o) a ds) s
        rw [hv]
        have hi : inferVisitor G σA (.mk (.op o) a ds) (ss.map Expr.attr) =
            if a.qvalue.isSome then .ok a else liftErr (G.infer o (ss.map Expr.attr)) := rfl
        rw [hi]
        unfold Lang.mkOp
        by_cases hq : a.qvalue.isSome = true
        · rw [if_pos hq, laws.stable o _ _ a hr h2 hq]
          refine ⟨rfl, ?_⟩
          intro s hs
          cases hs
          exact ⟨⟨fun _ h => h, fun _ h => h⟩, fun _ => rfl⟩
        · rw [if_neg hq]
          cases hg : G.infer o (ss.map Expr.attr) with
          | error e' => exact ⟨rfl, fun s hs => by cases hs⟩
          | ok a' =>
            refine ⟨rfl, ?_⟩
            intro s hs
            cases hs
            exact ⟨laws.mono o _ _ a a' hr h2 hg, fun h => absurd h hq⟩

/-- The tuple of nodes. -/
def tupleNode (tupleOp : O) (tupleAttr : List (Attr Q V) → Attr Q V) (fields : List (Node O V Q)) : Node O V Q :=
  .mk (.op tupleOp) (tupleAttr (fields.map Expr.attr)) fields

theorem argOf_map {X Y : Type} (f : X → Y) (tx : List X → X) (ty : List Y → Y) (ht : ∀ xs, f (tx xs) = ty (xs.map f))
    (params : List (List Nat)) (variadic : Bool) (args : List X) (k : List Nat) :
    argOf params variadic ty (args.map f) k = (argOf params variadic tx args k).map f := by
  unfold argOf
  split
  · rfl
  split
  · simp [ht, List.map_drop]
  · simp

theorem inferAttributes_eq {G : Lang O V (Attr Q V) E} {tupleAttr : List (Attr Q V) → Attr Q V} {params : List (List Nat)}
    {variadic : Bool} {body : Node O V Q} {L : LambdaOp O V Q} (hL : make (E := E) params variadic body = some (.ok L))
    {as : List (Attr Q V)} (hf : Fits params variadic as.length) :
    inferAttributes G tupleAttr L as =
      some (fold (inferVisitor G (argOf params variadic tupleAttr as)) body) := by
  obtain ⟨hix, hpo, rfl, rfl, hleaf, hpd⟩ := make_ok hL
  unfold inferAttributes
  rw [if_pos ((fits_iff L hix.var _).2 hf)]
  obtain ⟨res, h1, h2, h3⟩ := preset_spec (E := E) hix id tupleAttr as
    (List.replicate L.body.nodes.length ⟨none, none⟩) hf (by simp)
  rw [h1]
  simp only
  refine bodyLoop_eq (v := inferVisitor G (argOf L.params L.variadic tupleAttr as)) (rd := some) (wr := id) (fun _ => rfl) hpo ?_ _ _ _ (by omega) ⟨by rw [h2]; simp, ?_⟩
  · intro i n args hi hp _
    unfold inferVisitor
    rw [hp]
    rfl
  · intro j n hj hc
    rcases hc with hc | hc
    · omega
    cases hk : placeholderKey n with
    | none => exact absurd hk hc
    | some k =>
      obtain ⟨x, g1, g2⟩ := h3 j n k hj hk
      refine ⟨x, x, ?_, g2, rfl⟩
      rw [fold_eq, hpd n (List.mem_of_getElem? hj) k hk, folds]
      show inferVisitor G _ n [] = _
      unfold inferVisitor
      rw [hk]
      simp only
      rw [g1]
      rfl

/-- `InferAttributes` of a lambda gives the attributes of the body with the arguments substituted for the parameters, and fails
with the error with which the substitution fails; it depends only on the attributes of the arguments. -/
theorem infer_subst {G : Lang O V (Attr Q V) E} {tupleOp : O} {tupleAttr : List (Attr Q V) → Attr Q V}
    (laws : Laws G tupleOp tupleAttr) {params : List (List Nat)} {variadic : Bool} {body : Node O V Q} (hwf : WF G body)
    {L : LambdaOp O V Q} (hL : make (E := E) params variadic body = some (.ok L)) (args : List (Node O V Q))
    (hf : Fits params variadic args.length) :
    inferAttributes G tupleAttr L (args.map Expr.attr) =
      some (liftErr ((subst G (argOf params variadic (tupleNode tupleOp tupleAttr) args) body).map Expr.attr)) := by
  rw [inferAttributes_eq hL (by simpa using hf)]
  rw [(agree laws (σ := argOf params variadic (tupleNode tupleOp tupleAttr) args)
    (argOf_map Expr.attr (tupleNode tupleOp tupleAttr) tupleAttr (fun _ => rfl) params variadic args) body hwf).1]
  have : fold (lowerVisitor G (argOf params variadic (tupleNode tupleOp tupleAttr) args)) body =
      liftErr (subst G (argOf params variadic (tupleNode tupleOp tupleAttr) args) body) := fold_lift _ _
  rw [this]
  cases subst G (argOf params variadic (tupleNode tupleOp tupleAttr) args) body <;> rfl

/-- With a number of arguments which does not fit, both operations return the error about the number of arguments. -/
theorem wrong_count {G : Lang O V (Attr Q V) E} {tupleOp : O} {tupleAttr : List (Attr Q V) → Attr Q V}
    {params : List (List Nat)} {variadic : Bool} {body : Node O V Q} {L : LambdaOp O V Q}
    (hL : make (E := E) params variadic body = some (.ok L)) (node : Node O V Q) (as : List (Attr Q V))
    (hn : ¬ Fits params variadic node.deps.length) (ha : ¬ Fits params variadic as.length) :
    inferAttributes G tupleAttr L as = some (.error .depsCount) ∧ toLowerLevel G tupleOp L node = some (.error .depsCount) := by
  obtain ⟨hix, -, rfl, rfl, -, -⟩ := make_ok hL
  unfold inferAttributes toLowerLevel
  rw [if_neg (fun h => ha ((fits_iff L hix.var _).1 h)), if_neg (fun h => hn ((fits_iff L hix.var _).1 h))]
  exact ⟨rfl, rfl⟩

/-! ## Lowering -/

theorem withNewDeps_op {G : Lang O V (Attr Q V) E} {o : O} {a : Attr Q V} {ds : List (Node O V Q)}
    (h : G.infer o (ds.map Expr.attr) = .ok a) (deps : List (Node O V Q)) :
    G.withNewDeps (.mk (.op o) a ds) deps = G.mkOp o deps := by
  unfold Lang.withNewDeps Lang.mkOp
  split
  · rename_i he
    have he : ds = deps := he
    subst he
    rw [h]
  · simp only [Expr.label]
    split
    · rename_i hs
      have : ds.map Expr.attr = deps.map Expr.attr := of_decide_eq_true hs
      rw [← this, h]
      rfl
    · rfl

/-- `ToLowerLevel` of a node with a lambda operator, whose attributes are empty or as inferred, is the simultaneous substitution
of the arguments for the parameters in the body. -/
theorem lower_subst {G : Lang O V (Attr Q V) E} {tupleOp : O} {tupleAttr : List (Attr Q V) → Attr Q V}
    (laws : Laws G tupleOp tupleAttr) {params : List (List Nat)} {variadic : Bool} {body : Node O V Q} (hwf : WF G body)
    {L : LambdaOp O V Q} (hL : make (E := E) params variadic body = some (.ok L)) (node : Node O V Q)
    (hf : Fits params variadic node.deps.length)
    (hattr : node.attr.qtype = none ∨ inferAttributes G tupleAttr L (node.deps.map Expr.attr) = some (.ok node.attr)) :
    toLowerLevel G tupleOp L node =
      some (liftErr (subst G (argOf params variadic (tupleNode tupleOp tupleAttr) node.deps) body)) := by
  have hinf := infer_subst laws hwf hL node.deps hf
  obtain ⟨hix, hpo, rfl, rfl, hleaf, hpd⟩ := make_ok hL
  have hlift : fold (lowerVisitor G (argOf L.params L.variadic (tupleNode tupleOp tupleAttr) node.deps)) body =
      liftErr (subst G (argOf L.params L.variadic (tupleNode tupleOp tupleAttr) node.deps) body) := fold_lift _ _
  unfold toLowerLevel
  rw [if_pos ((fits_iff L hix.var _).2 hf)]
  have ht : (fun fields => liftErr (G.mkOp tupleOp fields)) =
      fun fields => (.ok (tupleNode tupleOp tupleAttr fields) : Except (Err E) (Node O V Q)) := by
    funext fields
    unfold Lang.mkOp
    rw [laws.tuple]
    rfl
  rw [ht]
  obtain ⟨res, h1, h2, h3⟩ := preset_spec (E := E) hix some (tupleNode tupleOp tupleAttr) node.deps
    (List.replicate L.body.nodes.length none) hf (by simp)
  rw [h1]
  simp only
  rw [← hlift]
  obtain ⟨po', hpo', -, hsub, hlast, -, -⟩ := post_order body
  rw [hpo] at hpo'; cases hpo'
  refine bodyLoop_eq (v := lowerVisitor G (argOf L.params L.variadic (tupleNode tupleOp tupleAttr) node.deps)) (rd := id) (wr := some) (fun _ => rfl) hpo ?_ _ _ _ (by omega) ⟨by rw [h2]; simp, ?_⟩
  · intro i n args hi hp hargs
    have hwfn := wf_sub hwf ((hsub n).1 (List.mem_of_getElem? hi))
    cases hwfn with
    | leaf k => rfl
    | placeholder k => simp [placeholderKey, Expr.label] at hp
    | literal w => rfl
    | op o a ds g1 g2 =>
      show (if i + 1 < L.body.nodes.length ∨ node.attr.isEmpty = true then
          liftErr (G.withNewDeps (.mk (.op o) a ds) args) else .ok (.mk (.op o) node.attr args)) = liftErr (G.mkOp o args)
      by_cases hc : i + 1 < L.body.nodes.length ∨ node.attr.isEmpty = true
      · rw [if_pos hc, withNewDeps_op g2]
      · rw [if_neg hc]
        have hlt := (List.getElem?_eq_some_iff.1 hi).1
        have hi' : i = L.body.nodes.length - 1 := by
          have : ¬ i + 1 < L.body.nodes.length := fun h => hc (Or.inl h)
          omega
        rw [List.getLast?_eq_getElem?, ← hi', hi] at hlast
        have hroot := Option.some.inj hlast
        subst hroot
        rcases hattr with hattr | hattr
        · exact absurd (Or.inr (by unfold Attr.isEmpty; rw [hattr]; rfl)) hc
        rw [hattr] at hinf
        have hfold : fold (lowerVisitor G (argOf L.params L.variadic (tupleNode tupleOp tupleAttr) node.deps))
            (.mk (.op o) a ds) = liftErr (G.mkOp o args) := by
          rw [fold_eq, hargs]; rfl
        have hsub' : subst G (argOf L.params L.variadic (tupleNode tupleOp tupleAttr) node.deps) (.mk (.op o) a ds) = G.mkOp o args := by
          rw [hfold] at hlift
          generalize subst G _ _ = x at hlift
          cases x <;> cases hm : G.mkOp o args <;> rw [hm] at hlift <;> cases hlift <;> rfl
        rw [hsub'] at hinf
        unfold Lang.mkOp at hinf ⊢
        cases hg : G.infer o (args.map Expr.attr) with
        | error e => rw [hg] at hinf; cases hinf
        | ok a' =>
          rw [hg] at hinf
          have : node.attr = a' := by
            have := Option.some.inj hinf
            have this : (Except.ok node.attr : Except (Err E) (Attr Q V)) = .ok a' := this
            cases this; rfl
          rw [this]
          rfl
  · intro j n hj hc
    rcases hc with hc | hc
    · omega
    cases hk : placeholderKey n with
    | none => exact absurd hk hc
    | some k =>
      obtain ⟨x, g1, g2⟩ := h3 j n k hj hk
      refine ⟨x, some x, ?_, g2, rfl⟩
      rw [fold_eq, hpd n (List.mem_of_getElem? hj) k hk, folds]
      show lowerVisitor G _ n [] = _
      have hl : n.label = .placeholder k := by
        unfold placeholderKey at hk
        split at hk
        · rename_i h; cases hk; exact h
        · cases hk
      unfold lowerVisitor substVisitor
      rw [hl]
      simp only
      rw [g1]
      rfl

theorem isSubsetOf_refl (a : Attr Q V) : a.isSubsetOf a = true := by
  unfold Attr.isSubsetOf
  rw [if_neg (by simp)]
  cases h : a.qvalue <;> simp

/-- A node with a lambda operator made by `MakeOpNode` is always lowered, to the substituted body, which has the attributes of
the node. -/
theorem lower_node {G : Lang O V (Attr Q V) E} {tupleOp : O} {tupleAttr : List (Attr Q V) → Attr Q V}
    (laws : Laws G tupleOp tupleAttr) {params : List (List Nat)} {variadic : Bool} {body : Node O V Q} (hwf : WF G body)
    {L : LambdaOp O V Q} (hL : make (E := E) params variadic body = some (.ok L)) (lam : O) (a : Attr Q V)
    (args : List (Node O V Q)) (hmk : inferAttributes G tupleAttr L (args.map Expr.attr) = some (.ok a)) :
    ∃ r, toLowerNode G tupleOp L (.mk (.op lam) a args) = some (.ok r) ∧ r.attr = a ∧
      subst G (argOf params variadic (tupleNode tupleOp tupleAttr) args) body = .ok r := by
  have hf : Fits params variadic args.length := by
    obtain ⟨hix, -, rfl, rfl, -, -⟩ := make_ok hL
    unfold inferAttributes at hmk
    split at hmk
    · rename_i h
      have := (fits_iff L hix.var _).1 h
      simpa using this
    · cases hmk
  have hinf := infer_subst laws hwf hL args hf
  rw [hmk] at hinf
  have hlow := lower_subst laws hwf hL (.mk (.op lam) a args) hf (Or.inr hmk)
  have e : (Expr.mk (.op lam) a args : Node O V Q).deps = args := rfl
  rw [e] at hlow
  unfold toLowerNode
  rw [hlow]
  cases hs : subst G (argOf params variadic (tupleNode tupleOp tupleAttr) args) body with
  | error x => rw [hs] at hinf; cases hinf
  | ok r =>
    rw [hs] at hinf
    have ha : r.attr = a := by
      have := Option.some.inj hinf
      have this : (Except.ok a : Except (Err E) (Attr Q V)) = .ok r.attr := this
      cases this; rfl
    refine ⟨r, ?_, ha, rfl⟩
    show (if a.isSubsetOf r.attr = true then _ else _) = _
    rw [ha, isSubsetOf_refl, if_pos rfl]

/-! ## Values -/

theorem evals_eq (I : O → List T → T) (lit : V → T) (leaf ph : List Nat → T) (ds : List (Node O V Q)) :
    evals I lit leaf ph ds = ds.map (eval I lit leaf ph) := by
  induction ds with
  | nil => rw [evals]; rfl
  | cons d ds ih => rw [evals, ih]; rfl

theorem substs_eval {G : Lang O V (Attr Q V) E} {σ : List Nat → Option (Node O V Q)} {f g : Node O V Q → T} :
    ∀ (ds rs : List (Node O V Q)), (∀ d ∈ ds, ∀ r, fold (substVisitor G σ) d = .ok r → f r = g d) →
    folds (substVisitor G σ) ds = .ok rs → rs.map f = ds.map g := by
  intro ds
  induction ds with
  | nil => intro rs _ h; rw [folds] at h; cases h; rfl
  | cons d ds ih =>
    intro rs hd h
    rw [folds_cons] at h
    cases h1 : fold (substVisitor G σ) d with
    | error e => rw [h1] at h; cases h
    | ok r =>
      cases h2 : folds (substVisitor G σ) ds with
      | error e => rw [h1, h2] at h; cases h
      | ok rs' =>
        rw [h1, h2] at h
        cases h
        rw [List.map_cons, List.map_cons, hd d (by simp) r h1, ih rs' (fun d' hd' => hd d' (by simp [hd'])) h2]

/-- Substitution and evaluation commute: arguments are evaluated in the environment of the call, so that placeholders occurring
in them are not captured by the parameters. -/
theorem subst_eval {G : Lang O V (Attr Q V) E} (I : O → List T → T) (lit : V → T) (leaf ph : List Nat → T)
    (σ : List Nat → Option (Node O V Q)) (body : Node O V Q) (r : Node O V Q) (h : subst G σ body = .ok r) :
    eval I lit leaf ph r = eval I lit leaf (fun k => ((σ k).map (eval I lit leaf ph)).getD (ph k)) body := by
  unfold subst at h
  induction body using Expr.ind generalizing r with
  | h n ih =>
    rw [fold_eq] at h
    cases hds : folds (substVisitor G σ) n.deps with
    | error e => rw [hds] at h; cases h
    | ok rs =>
      rw [hds] at h
      have h : substVisitor G σ n rs = .ok r := h
      have hrs := substs_eval (f := eval I lit leaf ph)
        (g := eval I lit leaf (fun k => ((σ k).map (eval I lit leaf ph)).getD (ph k))) n.deps rs (fun d hd r hr => ih d hd r hr) hds
      obtain ⟨l, a, ds⟩ := n
      cases l with
      | leaf k => cases h; rw [eval, eval]
      | literal w => cases h; rw [eval, eval]
      | placeholder k =>
        cases h
        rw [eval]
        cases hk : σ k with
        | none => simp only [Option.getD_none, Option.map_none]; rw [eval]
        | some x => rfl
      | op o =>
        have h : G.mkOp o rs = .ok r := h
        unfold Lang.mkOp at h
        split at h
        · cases h
        · cases h
          rw [eval, eval, evals_eq, evals_eq, hrs]
          rfl

/-- The value of the lowered node is the value of the body for the values of the arguments. -/
theorem lower_value {G : Lang O V (Attr Q V) E} {tupleOp : O} {tupleAttr : List (Attr Q V) → Attr Q V}
    (laws : Laws G tupleOp tupleAttr) {params : List (List Nat)} {variadic : Bool} {body : Node O V Q} (hwf : WF G body)
    {L : LambdaOp O V Q} (hL : make (E := E) params variadic body = some (.ok L)) (lam : O) (a : Attr Q V)
    (args : List (Node O V Q)) (hmk : inferAttributes G tupleAttr L (args.map Expr.attr) = some (.ok a))
    (I : O → List T → T) (lit : V → T) (leaf ph : List Nat → T) :
    ∃ r, toLowerNode G tupleOp L (.mk (.op lam) a args) = some (.ok r) ∧
      eval I lit leaf ph r = eval I lit leaf
        (fun k => (argOf params variadic (I tupleOp) (args.map (eval I lit leaf ph)) k).getD (ph k)) body := by
  obtain ⟨r, h1, -, h3⟩ := lower_node laws hwf hL lam a args hmk
  refine ⟨r, h1, ?_⟩
  rw [subst_eval I lit leaf ph _ body r h3]
  congr 1
  funext k
  rw [argOf_map (eval I lit leaf ph) (tupleNode tupleOp tupleAttr) (I tupleOp)]
  intro xs
  unfold tupleNode
  rw [eval, evals_eq]

end

/-! ## A concrete language: `0` makes tuples, `1` adds two integers -/

/-- The values if all are known. -/
def exVals : List (Attr Nat Int) → Option (List Int)
  | [] => some []
  | a :: as =>
    match a.qvalue, exVals as with
    | some v, some vs => some (v :: vs)
    | _, _ => none

/-- The language of the examples. -/
def exLang : Lang Nat Int (Attr Nat Int) Nat where
  noAttr := ⟨none, none⟩
  litAttr v := ⟨some 1, some v⟩
  infer o as :=
    if o = 0 then .ok ⟨some 0, none⟩
    else if as.length = 2 then .ok ⟨some 1, (exVals as).map List.sum⟩
    else .error 7
  depsError := 8

theorem exVals_mono : ∀ {as as' : List (Attr Nat Int)} {vs : List Int}, List.Forall₂ Refines as as' → exVals as = some vs →
    exVals as' = some vs := by
  intro as
  induction as with
  | nil => intro as' vs h hv; cases h; exact hv
  | cons a as ih =>
    intro as' vs h hv
    cases h with
    | cons h1 h2 =>
      rw [exVals] at hv ⊢
      split at hv
      · rename_i v vs' g1 g2
        rw [h1.2 v g1, ih h2 g2]
        exact hv
      · cases hv

theorem exLaws : Laws exLang 0 (fun _ => ⟨some 0, none⟩) where
  noAttr := rfl
  lit _ := rfl
  tuple _ := rfl
  mono o as as' a a' hr h h' := by
    have hl := hr.length_eq
    unfold exLang at h h'
    dsimp only at h h'
    split at h
    · rw [if_pos (by assumption)] at h'
      cases h; cases h'
      exact ⟨fun _ h => h, fun _ h => h⟩
    · rw [if_neg (by assumption)] at h'
      split at h
      · rw [if_pos (by omega)] at h'
        cases h; cases h'
        refine ⟨fun _ h => h, ?_⟩
        intro w hw
        dsimp only at hw ⊢
        cases hv : exVals as with
        | none => rw [hv] at hw; cases hw
        | some vs => rw [exVals_mono hr hv, ← hv]; exact hw
      · cases h
  stable o as as' a hr h hq := by
    have hl := hr.length_eq
    unfold exLang at h ⊢
    dsimp only at h ⊢
    split at h
    · cases h; cases hq
    · rw [if_neg (by assumption)]
      split at h
      · rw [if_pos (by omega)]
        cases h
        dsimp only at hq
        cases hv : exVals as with
        | none => rw [hv] at hq; cases hq
        | some vs => rw [exVals_mono hr hv]
      · cases h

/-- `P.x + (2 + P.y)` with the parameters `y` (`[121]`) and `x` (`[120]`). -/
def exBody : Node Nat Int Nat :=
  .mk (.op 1) ⟨some 1, none⟩ [.mk (.placeholder [120]) ⟨none, none⟩ [],
    .mk (.op 1) ⟨some 1, none⟩ [.mk (.literal 2) ⟨some 1, some 2⟩ [], .mk (.placeholder [121]) ⟨none, none⟩ []]]

theorem exBody_wf : WF exLang exBody := by
  refine WF.op 1 _ _ ?_ rfl
  intro d hd
  simp only [List.mem_cons, List.not_mem_nil, or_false] at hd
  rcases hd with rfl | rfl
  · exact WF.placeholder _
  · refine WF.op 1 _ _ ?_ rfl
    intro d hd
    simp only [List.mem_cons, List.not_mem_nil, or_false] at hd
    rcases hd with rfl | rfl
    · exact WF.literal _
    · exact WF.placeholder _

/-- The operator made of it. -/
def exOp : LambdaOp Nat Int Nat :=
  match make (E := Nat) [[121], [120]] false exBody with
  | some (.ok L) => L
  | _ => ⟨[], false, ⟨[], [], []⟩, []⟩

theorem exOp_eq : make (E := Nat) [[121], [120]] false exBody = some (.ok exOp) := by
  have h : (match make (E := Nat) [[121], [120]] false exBody with
    | some (.ok _) => true
    | _ => false) = true := by decide +kernel
  unfold exOp
  split at h
  · rename_i L hL; rw [hL]
  · cases h

/-- The arguments: the leaf `x`, and a placeholder with the name of a parameter. -/
def exArgs : List (Node Nat Int Nat) := [.mk (.leaf [120]) ⟨none, none⟩ [], .mk (.placeholder [121]) ⟨none, none⟩ []]

example : exOp.paramIndices = [some 2, some 0] := by decide +kernel
/-- The placeholder in the argument is not captured. -/
example : toLowerNode exLang 0 exOp (.mk (.op 5) ⟨some 1, none⟩ exArgs) = some (.ok
    (.mk (.op 1) ⟨some 1, none⟩ [.mk (.placeholder [121]) ⟨none, none⟩ [],
      .mk (.op 1) ⟨some 1, none⟩ [.mk (.literal 2) ⟨some 1, some 2⟩ [], .mk (.leaf [120]) ⟨none, none⟩ []]])) := by
  decide +kernel
example : ∃ r, toLowerNode exLang 0 exOp (.mk (.op 5) ⟨some 1, none⟩ exArgs) = some (.ok r) ∧ r.attr = ⟨some 1, none⟩ ∧
    subst exLang (argOf [[121], [120]] false (tupleNode 0 (fun _ => ⟨some 0, none⟩)) exArgs) exBody = .ok r :=
  lower_node exLaws exBody_wf exOp_eq 5 ⟨some 1, none⟩ exArgs (by decide +kernel)
/-- The values of literals are propagated. -/
example : inferAttributes exLang (fun _ => ⟨some 0, none⟩) exOp [⟨some 1, some 3⟩, ⟨some 1, some 4⟩] =
    some (.ok ⟨some 1, some 9⟩) := by decide +kernel
example : inferAttributes exLang (fun _ => ⟨some 0, none⟩) exOp [⟨some 1, some 3⟩] = some (.error .depsCount) :=
  (wrong_count (tupleOp := 0) exOp_eq (.mk (.op 5) ⟨none, none⟩ []) [⟨some 1, some 3⟩] (by simp [Fits, Expr.deps])
    (by simp [Fits])).1
/-- A variadic parameter gets the tuple of the remaining arguments. -/
example : (match make (E := Nat) [[121], [120]] true exBody with
    | some (.ok L) => toLowerNode exLang 0 L (.mk (.op 5) ⟨some 1, none⟩ exArgs)
    | _ => none) = some (.ok
    (.mk (.op 1) ⟨some 1, none⟩ [.mk (.op 0) ⟨some 0, none⟩ [.mk (.placeholder [121]) ⟨none, none⟩ []],
      .mk (.op 1) ⟨some 1, none⟩ [.mk (.literal 2) ⟨some 1, some 2⟩ [], .mk (.leaf [120]) ⟨none, none⟩ []]])) := by
  decide +kernel
example : ∃ L, make (E := Nat) [[121], [122], [120]] true exBody = some (.ok L) :=
  (make_accepts exLang _ _ _ exBody_wf).2.2 ⟨by decide, by decide, by
    intro m hm
    cases hm with
    | refl => rfl
    | dep h1 h2 =>
      simp only [exBody, Expr.deps, List.mem_cons, List.not_mem_nil, or_false] at h2
      rcases h2 with rfl | rfl
      · cases h1 with
        | refl => rfl
        | dep h1 h2 => simp [Expr.deps] at h2
      · cases h1 with
        | refl => rfl
        | dep h1 h2 =>
          simp only [Expr.deps, List.mem_cons, List.not_mem_nil, or_false] at h2
          rcases h2 with rfl | rfl <;> cases h1 with
          | refl => rfl
          | dep h1 h2 => simp [Expr.deps] at h2, by
    intro m hm k hk
    cases hm with
    | refl => cases hk
    | dep h1 h2 =>
      simp only [exBody, Expr.deps, List.mem_cons, List.not_mem_nil, or_false] at h2
      rcases h2 with rfl | rfl
      · cases h1 with
        | refl => cases hk; decide
        | dep h1 h2 => simp [Expr.deps] at h2
      · cases h1 with
        | refl => cases hk
        | dep h1 h2 =>
          simp only [Expr.deps, List.mem_cons, List.not_mem_nil, or_false] at h2
          rcases h2 with rfl | rfl
          · cases h1 with
            | refl => cases hk
            | dep h1 h2 => simp [Expr.deps] at h2
          · cases h1 with
            | refl => cases hk; decide
            | dep h1 h2 => simp [Expr.deps] at h2⟩
example : ¬ ∃ L, make (E := Nat) [[121]] false exBody = some (.ok L) := by
  rw [(make_accepts exLang _ _ _ exBody_wf).2]
  rintro ⟨-, -, -, h⟩
  have := h (.mk (.placeholder [120]) ⟨none, none⟩ []) (Sub.dep (Sub.refl _) (by simp [exBody, Expr.deps])) [120] rfl
  revert this
  decide

end Verif.Lambda
