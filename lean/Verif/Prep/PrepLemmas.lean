import Verif.Prep.PrepSpec

/-!
# Lemmas on the node transformations
-/

namespace Verif.Prep
open Verif.Expr

variable {O V Q E D : Type} [DecidableEq O] [DecidableEq V] [DecidableEq Q]
variable {env : Env O V Q E} {S : Sem O V Q D}

theorem isSubsetOf_iff {a b : Attr Q V} : a.isSubsetOf b = true ↔ Attr.Le a b := by
  obtain ⟨aq, av⟩ := a
  obtain ⟨bq, bv⟩ := b
  unfold Attr.isSubsetOf Attr.Le
  cases aq <;> cases av <;> cases bv <;> simp <;> grind

theorem Attr.Le.refl (a : Attr Q V) : Attr.Le a a := ⟨fun _ h => h, fun _ h => h⟩
theorem Attr.Le.trans {a b c : Attr Q V} (h : Attr.Le a b) (h' : Attr.Le b c) : Attr.Le a c :=
  ⟨fun q hq => h'.1 q (h.1 q hq), fun v hv => h'.2 v (h.2 v hv)⟩

theorem val_op {n : Node O V Q} {o : O} (h : n.label = .op o) : S.val n = S.ops o (n.deps.map S.val) :=
  value_op _ _ _ _ h

theorem val_literal (v : V) : S.val (env.literal v) = S.lit v := by unfold Sem.val Env.literal; rw [value]

theorem Good.dep {n d : Node O V Q} (h : Good env S n) (hd : d ∈ n.deps) : Good env S d := by
  refine ⟨?_, fun s o hs => h.2 s o (.dep hs hd)⟩
  have := h.1
  cases this with
  | op o a ds h1 h2 => exact h1 d hd
  | _ => cases hd

theorem Good.sub {n s : Node O V Q} (h : Good env S n) (hs : Sub s n) : Good env S s := by
  induction hs with
  | refl => exact h
  | dep _ hd ih => exact ih (h.dep hd)

theorem good_literal (v : V) : Good env S (env.literal v) := by
  refine ⟨.literal v, ?_⟩
  intro s o hs hl
  rcases sub_cases hs with rfl | ⟨d, hd, _⟩
  · cases hl
  · cases hd

theorem wf_leaf {n : Node O V Q} (h : WF env.lang n) {k : List Nat} (hl : n.label = .leaf k) : n = .mk (.leaf k) noAttr [] := by
  cases h <;> cases hl
  rfl

theorem good_leaf {n : Node O V Q} {k : List Nat} (h : n = .mk (.leaf k) noAttr []) : Good env S n := by
  subst h
  refine ⟨.leaf k, ?_⟩
  intro s o hs hl
  rcases sub_cases hs with rfl | ⟨d, hd, _⟩
  · cases hl
  · cases hd

/-- An operator node over good dependencies. -/
theorem good_op {o : O} {a : Attr Q V} {ds : List (Node O V Q)} (hd : ∀ d ∈ ds, Good env S d)
    (hi : env.infer o (ds.map Expr.attr) = .ok a) (ht : IsQA env o → AnnoTrue env S (ds.map S.val)) :
    Good env S (.mk (.op o) a ds) := by
  refine ⟨.op o a ds (fun d h => (hd d h).1) hi, ?_⟩
  intro s o' hs hl hq
  rcases sub_cases hs with rfl | ⟨d, hdm, hs⟩
  · cases hl; exact ht hq
  · exact (hd d hdm).2 s o' hs hl hq

theorem good_mkOp {o : O} {ds : List (Node O V Q)} {m : Node O V Q} (hd : ∀ d ∈ ds, Good env S d)
    (hm : env.lang.mkOp o ds = .ok m) (ht : IsQA env o → AnnoTrue env S (ds.map S.val)) :
    Good env S m ∧ m.label = .op o ∧ m.deps = ds := by
  unfold Lang.mkOp at hm
  cases hi : env.lang.infer o (ds.map Expr.attr) with
  | error e => rw [hi] at hm; cases hm
  | ok a => rw [hi] at hm; cases hm; exact ⟨good_op hd hi ht, rfl, rfl⟩

/-- The attributes of a good expression are true. -/
theorem good_fits (hlit : ∀ v, S.ty (S.lit v) = env.typeOf v)
    (hinf : ∀ o as a ds, env.infer o as = .ok a → as.length = ds.length →
      (∀ (i : Nat) b d, as[i]? = some b → ds[i]? = some d → S.Fits b d) →
      (IsQA env o → AnnoTrue env S ds) → S.Fits a (S.ops o ds)) (n : Node O V Q) (h : Good env S n) : S.Fits n.attr (S.val n) := by
  induction n using Expr.ind with
  | h n ih =>
    have hwf := h.1
    cases hwf with
    | leaf k => exact ⟨(by intro q h; cases h), (by intro q h; cases h)⟩
    | placeholder k => exact ⟨(by intro q h; cases h), (by intro q h; cases h)⟩
    | literal v =>
      refine ⟨?_, ?_⟩
      · intro q hq
        cases hq
        unfold Sem.val
        rw [value]
        exact hlit v
      · intro w hw
        cases hw
        unfold Sem.val
        rw [value]
    | op o a ds h1 h2 =>
      rw [val_op rfl]
      refine hinf o _ a _ h2 (by simp [Expr.deps]) ?_ (fun hq => h.2 _ o (.refl _) rfl hq)
      intro i b d hb hd
      rw [List.getElem?_map] at hb hd
      cases hx : ds[i]? with
      | none => rw [hx] at hb; cases hb
      | some x =>
        have hx' : (Expr.mk (.op o) a ds).deps[i]? = some x := hx
        rw [hx] at hb
        rw [hx'] at hd
        cases hb; cases hd
        exact ih x (List.mem_of_getElem? hx) (h.dep (List.mem_of_getElem? hx))

/-- Pointwise equal values. -/
theorem vals_eq {as bs : List (Node O V Q)} (hl : bs.length = as.length)
    (hv : ∀ (i : Nat) d d', as[i]? = some d → bs[i]? = some d' → S.val d' = S.val d) : bs.map S.val = as.map S.val := by
  apply List.ext_getElem?
  intro i
  simp only [List.getElem?_map]
  by_cases hi : i < as.length
  · have e1 := List.getElem?_eq_getElem hi
    have e2 := List.getElem?_eq_getElem (l := bs) (i := i) (by omega)
    rw [e1, e2]
    exact congrArg some (hv i _ _ e1 e2)
  · rw [List.getElem?_eq_none (by omega), List.getElem?_eq_none (by omega)]

theorem good_rebuild {n m : Node O V Q} {ds : List (Node O V Q)} (h : Good env S n) (hv : ds.map S.val = n.deps.map S.val)
    (hd : ∀ d ∈ ds, Good env S d) (hw : env.lang.withNewDeps n ds = .ok m) : Good env S m ∧ S.val m = S.val n := by
  have hlen : ds.length = n.deps.length := by simpa using congrArg List.length hv
  cases hl : n.label with
  | op o =>
    obtain ⟨l, a, nd⟩ := n
    cases hl
    rw [with_new_deps env.lang o a nd ds h.1] at hw
    obtain ⟨h1, h2, h3⟩ := good_mkOp (S := S) hd hw (by rw [hv]; exact h.2 _ o (.refl _) rfl)
    refine ⟨h1, ?_⟩
    rw [val_op h2, h3, hv]
    exact (val_op rfl).symm
  | _ =>
    have hnd : n.deps = [] := by
      have := h.1
      cases this <;> first | rfl | (cases hl)
    have hds : ds = n.deps := by
      rw [hnd] at hlen ⊢
      exact List.eq_nil_of_length_eq_zero hlen
    rw [hds, withNewDeps_self] at hw
    cases hw
    exact ⟨h, rfl⟩

/-- The induction for `DeepTransform` on good expressions. -/
theorem deep_keeps {fn : Node O V Q → Except (Err E) (Node O V Q)}
    (hfn : ∀ n m, Good env S n → fn n = .ok m → Good env S m ∧ S.val m = S.val n) {n r : Node O V Q}
    (hd : Deep env.lang fn n r) (hg : Good env S n) : Good env S r ∧ S.val r = S.val n := by
  have step : ∀ (n m : Node O V Q) (ds : List (Node O V Q)), ds.length = n.deps.length →
      (∀ (i : Nat) d d', n.deps[i]? = some d → ds[i]? = some d' → Good env S d → Good env S d' ∧ S.val d' = S.val d) →
      env.lang.withNewDeps n ds = .ok m → Good env S n → Good env S m ∧ S.val m = S.val n := by
    intro n m ds hl ih hw hg
    refine good_rebuild hg (vals_eq hl fun i d d' h1 h2 => (ih i d d' h1 h2 (hg.dep (List.mem_of_getElem? h1))).2) ?_ hw
    intro d' hd'
    obtain ⟨i, hi⟩ := list_get_of_mem hd'
    have hlt : i < n.deps.length := by
      rw [← hl]
      by_contra hc
      rw [List.getElem?_eq_none (by omega)] at hi
      cases hi
    exact (ih i _ d' (List.getElem?_eq_getElem hlt) hi (hg.dep (List.getElem_mem hlt))).1
  induction hd with
  | done n m ds hl hd hw hf ih => exact step n m ds hl ih hw hg
  | more n m t r ds hl hd hw hf ht hr ih1 ih2 =>
    obtain ⟨h1, h2⟩ := step n m ds hl ih1 hw hg
    obtain ⟨h3, h4⟩ := hfn m t h1 hf
    obtain ⟨h5, h6⟩ := ih2 h3
    exact ⟨h5, by rw [h6, h4, h2]⟩

/-! ## Each transformation keeps values -/

theorem decayOf_some {n : Node O V Q} {o' : O} (h : env.decayOf n = .ok (some o')) :
    ∃ o, n.label = .op o ∧ env.decay o = .ok o' := by
  unfold Env.decayOf at h
  cases hl : n.label with
  | op o =>
    rw [hl] at h
    dsimp only at h
    cases hd : env.decay o with
    | error e => rw [hd] at h; cases h
    | ok x => rw [hd] at h; cases h; exact ⟨o, rfl, hd⟩
  | _ => rw [hl] at h; cases h

theorem decayOf_op {n : Node O V Q} {o o' : O} (hl : n.label = .op o) (hd : env.decay o = .ok o') :
    env.decayOf n = .ok (some o') := by
  unfold Env.decayOf
  rw [hl]
  dsimp only
  rw [hd]

theorem keeps_embed (hf : Faithful env S) : Keeps env S env.embedLiterals := by
  intro n o m hg _ h
  unfold Env.embedLiterals at h
  split at h
  · rename_i v _ hv
    cases h
    refine ⟨good_literal v, ?_⟩
    rw [val_literal]
    exact ((good_fits hf.litTy hf.inferOk n hg).2 v hv).symm
  · cases h; exact ⟨hg, rfl⟩

theorem keeps_anno (hf : Faithful env S) {n d : Node O V Q} {ds : List (Node O V Q)} {o : O} (hg : Good env S n)
    (hd : env.decayOf n = .ok (some o)) (ho : env.isAnno o = true) (hn : n.deps = d :: ds) :
    Good env S d ∧ S.val d = S.val n := by
  obtain ⟨o0, h1, h2⟩ := decayOf_some hd
  refine ⟨hg.dep (by rw [hn]; simp), ?_⟩
  rw [val_op h1, hn, hf.decayOps _ _ h2, List.map_cons, hf.annoOps _ _ _ ho]

theorem good_annotateLeaf (hf : Faithful env S) {inputTypes : List Nat → Option Q}
    (hin : ∀ k q, inputTypes k = some q → S.ty (S.leaf k) = q) {root leaf m : Node O V Q} (hg : Good env S leaf)
    (h : env.annotateLeaf leaf inputTypes root = .ok m) : Good env S m ∧ S.val m = S.val leaf := by
  unfold Env.annotateLeaf at h
  cases hl : leaf.label with
  | leaf k =>
    rw [hl] at h
    dsimp only at h
    cases hk : inputTypes k with
    | none => rw [hk] at h; cases h
    | some q =>
      rw [hk] at h
      cases h
      have hleaf := wf_leaf hg.1 hl
      subst hleaf
      have hvl : S.val (.mk (.leaf k) noAttr []) = S.leaf k := by unfold Sem.val; rw [value]
      refine ⟨good_op ?_ (hf.mkInfer q) ?_, ?_⟩
      · intro d hd
        simp only [List.mem_cons, List.not_mem_nil, or_false] at hd
        rcases hd with rfl | rfl
        · exact hg
        · exact good_literal _
      · intro _ d v q' he hv
        simp only [List.map_cons, List.map_nil, List.cons.injEq, and_true] at he
        obtain ⟨rfl, he⟩ := he
        rw [val_literal] at he
        rw [← hf.litInj _ _ he, hf.asQ] at hv
        cases hv
        rw [hvl]
        exact hin k q hk
      · rw [val_op rfl]
        exact hf.annoOps _ _ _ (hf.qAnno _ hf.mkQ)
  | _ => rw [hl] at h; cases h; exact ⟨hg, rfl⟩

theorem good_annotateDeps (hf : Faithful env S) {inputTypes : List Nat → Option Q}
    (hin : ∀ k q, inputTypes k = some q → S.ty (S.leaf k) = q) {root : Node O V Q} : ∀ {ds es : List (Node O V Q)},
    (∀ d ∈ ds, Good env S d) → env.annotateDeps inputTypes root ds = .ok es →
    (∀ e ∈ es, Good env S e) ∧ es.map S.val = ds.map S.val := by
  intro ds
  induction ds with
  | nil => intro es _ h; cases h; exact ⟨by simp, rfl⟩
  | cons d ds ih =>
    intro es hg h
    rw [Env.annotateDeps] at h
    by_cases hl : isLeaf d = true
    · rw [if_pos hl] at h
      cases ha : env.annotateLeaf d inputTypes root with
      | error e => rw [ha] at h; cases h
      | ok x =>
        rw [ha] at h
        dsimp only at h
        cases hb : env.annotateDeps inputTypes root ds with
        | error e => rw [hb] at h; cases h
        | ok ys =>
          rw [hb] at h
          cases h
          obtain ⟨h1, h2⟩ := ih (fun e he => hg e (by simp [he])) hb
          obtain ⟨h3, h4⟩ := good_annotateLeaf hf hin (hg d (by simp)) ha
          refine ⟨?_, by simp [h2, h4]⟩
          intro e he
          rcases List.mem_cons.1 he with rfl | he
          · exact h3
          · exact h1 e he
    · rw [if_neg hl] at h
      cases hb : env.annotateDeps inputTypes root ds with
      | error e => rw [hb] at h; cases h
      | ok ys =>
        rw [hb] at h
        cases h
        obtain ⟨h1, h2⟩ := ih (fun e he => hg e (by simp [he])) hb
        refine ⟨?_, by simp [h2]⟩
        intro e he
        rcases List.mem_cons.1 he with rfl | he
        · exact hg e (by simp)
        · exact h1 e he

theorem good_annotateNode (hf : Faithful env S) {inputTypes : List Nat → Option Q}
    (hin : ∀ k q, inputTypes k = some q → S.ty (S.leaf k) = q) {root n m : Node O V Q} (hg : Good env S n)
    (h : env.annotateNode inputTypes root n = .ok m) : Good env S m ∧ S.val m = S.val n := by
  unfold Env.annotateNode at h
  split at h
  · cases h; exact ⟨hg, rfl⟩
  · cases hb : env.annotateDeps inputTypes root n.deps with
    | error e => rw [hb] at h; cases h
    | ok ys =>
      rw [hb] at h
      dsimp only at h
      obtain ⟨h1, h2⟩ := good_annotateDeps hf hin (fun d hd => hg.dep hd) hb
      cases hl : n.label with
      | op o =>
        rw [hl] at h
        obtain ⟨h3, h4, h5⟩ := good_mkOp (S := S) h1 h (by rw [h2]; exact hg.2 n o (.refl n) hl)
        exact ⟨h3, by rw [val_op h4, val_op hl, h5, h2]⟩
      | _ => rw [hl] at h; cases h; exact ⟨hg, rfl⟩

theorem keeps_populate (hf : Faithful env S) {inputTypes : List Nat → Option Q}
    (hin : ∀ k q, inputTypes k = some q → S.ty (S.leaf k) = q) (root : Node O V Q) :
    Keeps env S (env.populateQTypes inputTypes root) := by
  intro n o m hg hd h
  unfold Env.populateQTypes at h
  cases o with
  | none => cases h; exact ⟨hg, rfl⟩
  | some o =>
    dsimp only at h
    split at h
    · rename_i hq
      split at h
      · cases h; exact ⟨hg, rfl⟩
      · split at h
        · cases h; exact ⟨hg, rfl⟩
        · rename_i q hr d ds hn
          split at h
          · split at h
            · split at h
              · cases h
              · cases h; exact ⟨hg, rfl⟩
            · cases h; exact ⟨hg, rfl⟩
          · split at h
            · cases h
              exact keeps_anno hf hg hd (hf.qAnno _ hq) hn
            · exact good_annotateNode hf hin hg h
    · exact good_annotateNode hf hin hg h

theorem allDeps_iff {n : Node O V Q} : allDepsAreLiterals n = true ↔ ∀ d ∈ n.deps, d.attr.qvalue ≠ none := by
  unfold allDepsAreLiterals
  rw [List.all_eq_true]
  constructor
  · intro h d hd he
    have := h d hd
    rw [he] at this
    cases this
  · intro h d hd
    rw [Option.isSome_iff_ne_none]
    exact h d hd

theorem keeps_fold (hf : Faithful env S) : Keeps env S env.literalFolding := by
  intro n o m hg hd h
  unfold Env.literalFolding at h
  cases o with
  | none => cases h; exact ⟨hg, rfl⟩
  | some o =>
    dsimp only at h
    split at h
    · cases h; exact ⟨hg, rfl⟩
    · split at h
      · cases h; exact ⟨hg, rfl⟩
      · rename_i ha
        cases hi : env.invoke n with
        | error e => rw [hi] at h; cases h
        | ok v =>
          rw [hi] at h
          cases h
          refine ⟨good_literal v, ?_⟩
          rw [val_literal]
          exact (hf.invokeOk n o v hg hd (allDeps_iff.1 (by simpa using ha)) hi).symm

theorem keeps_lower (hf : Faithful env S) : Keeps env S env.toLower := by
  intro n o m hg hd h
  unfold Env.toLower at h
  cases o with
  | none => cases h; exact ⟨hg, rfl⟩
  | some o =>
    dsimp only at h
    cases hl : env.lower o n with
    | error e => rw [hl] at h; cases h
    | ok r =>
      rw [hl] at h
      dsimp only at h
      split at h
      · cases h
      · cases h; exact hf.lowerOk n o _ hg hd hl

theorem keeps_strip (hf : Faithful env S) : Keeps env S env.stripAnnotations := by
  intro n o m hg hd h
  unfold Env.stripAnnotations at h
  cases o with
  | none => cases h; exact ⟨hg, rfl⟩
  | some o =>
    dsimp only at h
    split at h
    · cases h; exact ⟨hg, rfl⟩
    · rename_i ha
      split at h
      · cases h
      · rename_i d ds hn
        split at h
        · cases h; exact ⟨hg, rfl⟩
        · cases h
          exact keeps_anno hf hg hd (by simpa using ha) hn

theorem keeps_all (hf : Faithful env S) {inputTypes : List Nat → Option Q}
    (hin : ∀ k q, inputTypes k = some q → S.ty (S.leaf k) = q) (st : Stages) (root : Node O V Q) :
    ∀ t ∈ env.transformations st inputTypes root, Keeps env S t := by
  intro t ht
  unfold Env.transformations at ht
  simp only [List.mem_append] at ht
  rcases ht with ((((((ht | ht) | ht) | ht) | ht) | ht) | ht) | ht
  · split at ht <;> simp at ht
    subst ht; exact keeps_embed hf
  · split at ht <;> simp at ht
    subst ht; exact keeps_populate hf hin root
  · split at ht <;> simp at ht
    subst ht; exact keeps_fold hf
  · split at ht <;> simp at ht
    subst ht; exact keeps_lower hf
  · split at ht <;> simp at ht
    subst ht; exact keeps_strip hf
  · split at ht <;> simp at ht
    subst ht; exact hf.castingOk
  · split at ht
    · rename_i f hst hopt
      simp at ht
      subst ht; exact hf.optimizerOk f hopt
    · cases ht
  · split at ht <;> simp at ht
    subst ht; exact hf.extensionOk

/-! ## The loop over the transformations -/

theorem firstChange_cases {n m : Node O V Q} {o : Option O} : ∀ {ts : List (NodeFn O V Q E)}, firstChange n o ts = .ok m →
    (m = n ∧ ∀ t ∈ ts, t n o = .ok n) ∨ (m ≠ n ∧ Attr.Le n.attr m.attr ∧ ∃ t ∈ ts, t n o = .ok m) := by
  intro ts
  induction ts with
  | nil => intro h; cases h; exact Or.inl ⟨rfl, by simp⟩
  | cons t ts ih =>
    intro h
    rw [firstChange] at h
    cases ht : t n o with
    | error e => rw [ht] at h; cases h
    | ok r =>
      rw [ht] at h
      dsimp only at h
      split at h
      · rename_i hr
        rcases ih h with ⟨h1, h2⟩ | ⟨h1, h2, t', h3, h4⟩
        · left
          refine ⟨h1, ?_⟩
          intro t' ht'
          rcases List.mem_cons.1 ht' with rfl | ht'
          · rw [ht, hr]
          · exact h2 t' ht'
        · exact Or.inr ⟨h1, h2, t', by simp [h3], h4⟩
      · rename_i hr
        split at h
        · cases h
        · rename_i hs
          cases h
          exact Or.inr ⟨hr, isSubsetOf_iff.1 (by simpa using hs), t, by simp, ht⟩

theorem nodeFn_keeps {ts : List (NodeFn O V Q E)} (hts : ∀ t ∈ ts, Keeps env S t) (n m : Node O V Q) (hg : Good env S n)
    (h : env.nodeFn ts n = .ok m) : Good env S m ∧ S.val m = S.val n := by
  unfold Env.nodeFn at h
  cases hd : env.decayOf n with
  | error e => rw [hd] at h; cases h
  | ok o =>
    rw [hd] at h
    rcases firstChange_cases h with ⟨h1, _⟩ | ⟨_, _, t, h2, h3⟩
    · rw [h1]; exact ⟨hg, rfl⟩
    · exact hts t h2 n o m hg hd h3

theorem nodeFn_le {ts : List (NodeFn O V Q E)} {n m : Node O V Q} (h : env.nodeFn ts n = .ok m) : Attr.Le n.attr m.attr := by
  unfold Env.nodeFn at h
  cases hd : env.decayOf n with
  | error e => rw [hd] at h; cases h
  | ok o =>
    rw [hd] at h
    rcases firstChange_cases h with ⟨h1, _⟩ | ⟨_, h1, _⟩
    · rw [h1]; exact .refl _
    · exact h1

theorem nodeFn_fixed {ts : List (NodeFn O V Q E)} {n : Node O V Q} (h : env.nodeFn ts n = .ok n) :
    ∃ o, env.decayOf n = .ok o ∧ ∀ t ∈ ts, t n o = .ok n := by
  unfold Env.nodeFn at h
  cases hd : env.decayOf n with
  | error e => rw [hd] at h; cases h
  | ok o =>
    rw [hd] at h
    rcases firstChange_cases h with ⟨_, h1⟩ | ⟨h1, _⟩
    · exact ⟨o, rfl, h1⟩
    · exact absurd rfl h1

/-- Attributes only grow. -/
theorem deep_le (hm : Monotone env) {fn : Node O V Q → Except (Err E) (Node O V Q)}
    (hfn : ∀ n m, WF env.lang n → fn n = .ok m → WF env.lang m ∧ Attr.Le n.attr m.attr) {n r : Node O V Q}
    (hd : Deep env.lang fn n r) (hg : WF env.lang n) : WF env.lang r ∧ Attr.Le n.attr r.attr := by
  have step : ∀ (n m : Node O V Q) (ds : List (Node O V Q)), ds.length = n.deps.length →
      (∀ (i : Nat) d d', n.deps[i]? = some d → ds[i]? = some d' → WF env.lang d → WF env.lang d' ∧ Attr.Le d.attr d'.attr) →
      env.lang.withNewDeps n ds = .ok m → WF env.lang n → WF env.lang m ∧ Attr.Le n.attr m.attr := by
    intro n m ds hl ih hw hg
    have hgd : ∀ d ∈ n.deps, WF env.lang d := by
      intro d hd
      cases hg with
      | op o a es h1 h2 => exact h1 d hd
      | _ => cases hd
    have hds : ∀ d ∈ ds, WF env.lang d := by
      intro d' hd'
      obtain ⟨i, hi⟩ := list_get_of_mem hd'
      have hlt : i < n.deps.length := by
        rw [← hl]
        by_contra hc
        rw [List.getElem?_eq_none (by omega)] at hi
        cases hi
      exact (ih i _ d' (List.getElem?_eq_getElem hlt) hi (hgd _ (List.getElem_mem hlt))).1
    refine ⟨(with_new_deps_wf env.lang n m ds hg hds hw).1, ?_⟩
    cases hg with
    | op o a es h1 h2 =>
      rw [with_new_deps env.lang o a es ds (.op o a es h1 h2)] at hw
      unfold Lang.mkOp at hw
      cases hi : env.lang.infer o (ds.map Expr.attr) with
      | error e => rw [hi] at hw; cases hw
      | ok b =>
        rw [hi] at hw
        cases hw
        refine hm o _ _ a b h2 hi (by simp; exact hl.symm) ?_
        intro i x y hx hy
        rw [List.getElem?_map] at hx hy
        cases hx' : es[i]? with
        | none => rw [hx'] at hx; cases hx
        | some x' =>
          cases hy' : ds[i]? with
          | none => rw [hy'] at hy; cases hy
          | some y' =>
            rw [hx'] at hx
            rw [hy'] at hy
            cases hx; cases hy
            exact (ih i x' y' hx' hy' (h1 _ (List.mem_of_getElem? hx'))).2
    | _ =>
      have : ds = [] := List.eq_nil_of_length_eq_zero hl
      subst this
      simp only [Lang.withNewDeps, Expr.deps, if_true, Except.ok.injEq] at hw
      subst hw
      exact .refl _
  induction hd with
  | done n m ds hl hd hw hf ih => exact step n m ds hl ih hw hg
  | more n m t r ds hl hd hw hf ht hr ih1 ih2 =>
    obtain ⟨h1, h2⟩ := step n m ds hl ih1 hw hg
    obtain ⟨h3, h4⟩ := hfn m t h1 hf
    obtain ⟨h5, h6⟩ := ih2 h3
    exact ⟨h5, h2.trans (h4.trans h6)⟩

theorem wf_dep {n d : Node O V Q} (h : WF env.lang n) (hd : d ∈ n.deps) : WF env.lang d := by
  cases h with
  | op o a ds h1 h2 => exact h1 d hd
  | _ => cases hd

theorem wf_annotateLeaf (hb : Builds env) {inputTypes : List Nat → Option Q} {root leaf m : Node O V Q} (hg : WF env.lang leaf)
    (h : env.annotateLeaf leaf inputTypes root = .ok m) : WF env.lang m := by
  unfold Env.annotateLeaf at h
  cases hl : leaf.label with
  | leaf k =>
    rw [hl] at h
    dsimp only at h
    cases hk : inputTypes k with
    | none => rw [hk] at h; cases h
    | some q =>
      rw [hk] at h
      cases h
      have hleaf := wf_leaf hg hl
      subst hleaf
      refine .op _ _ _ ?_ (hb.mkInfer q)
      intro d hd
      simp only [List.mem_cons, List.not_mem_nil, or_false] at hd
      rcases hd with rfl | rfl
      · exact hg
      · exact .literal _
  | _ => rw [hl] at h; cases h; exact hg

theorem wf_annotateDeps (hb : Builds env) {inputTypes : List Nat → Option Q} {root : Node O V Q} :
    ∀ {ds es : List (Node O V Q)}, (∀ d ∈ ds, WF env.lang d) → env.annotateDeps inputTypes root ds = .ok es →
    ∀ e ∈ es, WF env.lang e := by
  intro ds
  induction ds with
  | nil => intro es _ h; cases h; simp
  | cons d ds ih =>
    intro es hg h
    rw [Env.annotateDeps] at h
    by_cases hl : isLeaf d = true
    · rw [if_pos hl] at h
      cases ha : env.annotateLeaf d inputTypes root with
      | error e => rw [ha] at h; cases h
      | ok x =>
        rw [ha] at h
        dsimp only at h
        cases hb' : env.annotateDeps inputTypes root ds with
        | error e => rw [hb'] at h; cases h
        | ok ys =>
          rw [hb'] at h
          cases h
          intro e he
          rcases List.mem_cons.1 he with rfl | he
          · exact wf_annotateLeaf hb (hg d (by simp)) ha
          · exact ih (fun e he => hg e (by simp [he])) hb' e he
    · rw [if_neg hl] at h
      cases hb' : env.annotateDeps inputTypes root ds with
      | error e => rw [hb'] at h; cases h
      | ok ys =>
        rw [hb'] at h
        cases h
        intro e he
        rcases List.mem_cons.1 he with rfl | he
        · exact hg e (by simp)
        · exact ih (fun e he => hg e (by simp [he])) hb' e he

theorem wf_annotateNode (hb : Builds env) {inputTypes : List Nat → Option Q} {root n m : Node O V Q} (hg : WF env.lang n)
    (h : env.annotateNode inputTypes root n = .ok m) : WF env.lang m := by
  unfold Env.annotateNode at h
  split at h
  · cases h; exact hg
  · cases hb' : env.annotateDeps inputTypes root n.deps with
    | error e => rw [hb'] at h; cases h
    | ok ys =>
      rw [hb'] at h
      dsimp only at h
      have h1 := wf_annotateDeps hb (fun d hd => wf_dep hg hd) hb'
      cases hl : n.label with
      | op o =>
        rw [hl] at h
        unfold Lang.mkOp at h
        dsimp only at h
        cases hi : env.lang.infer o (ys.map Expr.attr) with
        | error e => rw [hi] at h; cases h
        | ok a => rw [hi] at h; cases h; exact .op o a ys h1 hi
      | _ => rw [hl] at h; cases h; exact hg

theorem wf_all (hb : Builds env) {inputTypes : List Nat → Option Q} (st : Stages) (root : Node O V Q) :
    ∀ t ∈ env.transformations st inputTypes root, ∀ n o m, WF env.lang n → t n o = .ok m → WF env.lang m := by
  intro t ht n o m hg h
  unfold Env.transformations at ht
  simp only [List.mem_append] at ht
  rcases ht with ((((((ht | ht) | ht) | ht) | ht) | ht) | ht) | ht
  · split at ht <;> simp at ht
    subst ht
    unfold Env.embedLiterals at h
    split at h
    · cases h; exact .literal _
    · cases h; exact hg
  · split at ht <;> simp at ht
    subst ht
    unfold Env.populateQTypes at h
    cases o with
    | none => cases h; exact hg
    | some o =>
      dsimp only at h
      split at h
      · split at h
        · cases h; exact hg
        · split at h
          · cases h; exact hg
          · rename_i q hr d ds hn
            split at h
            · split at h
              · split at h
                · cases h
                · cases h; exact hg
              · cases h; exact hg
            · split at h
              · cases h
                exact wf_dep hg (by rw [hn]; simp)
              · exact wf_annotateNode hb hg h
      · exact wf_annotateNode hb hg h
  · split at ht <;> simp at ht
    subst ht
    unfold Env.literalFolding at h
    cases o with
    | none => cases h; exact hg
    | some o =>
      dsimp only at h
      split at h
      · cases h; exact hg
      · split at h
        · cases h; exact hg
        · cases hi : env.invoke n with
          | error e => rw [hi] at h; cases h
          | ok v => rw [hi] at h; cases h; exact .literal _
  · split at ht <;> simp at ht
    subst ht
    unfold Env.toLower at h
    cases o with
    | none => cases h; exact hg
    | some o =>
      dsimp only at h
      cases hl : env.lower o n with
      | error e => rw [hl] at h; cases h
      | ok r =>
        rw [hl] at h
        dsimp only at h
        split at h
        · cases h
        · cases h; exact hb.lower n o _ hg hl
  · split at ht <;> simp at ht
    subst ht
    unfold Env.stripAnnotations at h
    cases o with
    | none => cases h; exact hg
    | some o =>
      dsimp only at h
      split at h
      · cases h; exact hg
      · split at h
        · cases h
        · rename_i d ds hn
          split at h
          · cases h; exact hg
          · cases h; exact wf_dep hg (by rw [hn]; simp)
  · split at ht <;> simp at ht
    subst ht; exact hb.casting n o m hg h
  · split at ht
    · rename_i f hst hopt
      simp at ht
      subst ht; exact hb.optimizer f n m hopt hg h
    · cases ht
  · split at ht <;> simp at ht
    subst ht; exact hb.extension n o m hg h

theorem nodeFn_wf {ts : List (NodeFn O V Q E)} (hts : ∀ t ∈ ts, ∀ n o m, WF env.lang n → t n o = .ok m → WF env.lang m)
    (n m : Node O V Q) (hg : WF env.lang n) (h : env.nodeFn ts n = .ok m) : WF env.lang m ∧ Attr.Le n.attr m.attr := by
  refine ⟨?_, nodeFn_le h⟩
  unfold Env.nodeFn at h
  cases hd : env.decayOf n with
  | error e => rw [hd] at h; cases h
  | ok o =>
    rw [hd] at h
    rcases firstChange_cases h with ⟨h1, _⟩ | ⟨_, _, t, h2, h3⟩
    · rw [h1]; exact hg
    · exact hts t h2 n o m hg h3

end Verif.Prep
