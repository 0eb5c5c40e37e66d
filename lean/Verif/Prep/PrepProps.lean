import Verif.Prep.PrepLemmas

/-!
# `PrepareExpression` (C78)
-/

namespace Verif.Prep
open Verif.Expr

variable {O V Q E D : Type} [DecidableEq O] [DecidableEq V] [DecidableEq Q]
variable {env : Env O V Q E} {S : Sem O V Q D}

/-- Preparation ends for every expression and all functions from elsewhere. -/
theorem prepare_terminates (limit : Nat) (st : Stages) (inputTypes : List Nat → Option Q) (expr : Node O V Q) :
    (env.prepare limit st inputTypes expr).isSome := by
  unfold Env.prepare
  split
  · split
    · split <;> rfl
    · rfl
  · have := deep_terminates (G := env.lang) (fn := env.nodeFn (env.transformations st inputTypes expr)) limit expr
    unfold Env.applyNodeTransformations
    split
    · rename_i h; rw [h] at this; cases this
    · rfl
    · split
      · split <;> rfl
      · rfl

theorem prepare_cases {limit : Nat} {st : Stages} {inputTypes : List Nat → Option Q} {expr r : Node O V Q}
    (h : env.prepare limit st inputTypes expr = some (.ok r)) :
    (isLeaf expr = true ∧ ((st.populateQTypes = true ∧ env.annotateLeaf expr inputTypes expr = .ok r) ∨
      (st.populateQTypes = false ∧ r = expr))) ∨
    (isLeaf expr = false ∧ ∃ m, deepTransform env.lang (env.nodeFn (env.transformations st inputTypes expr)) limit expr = some (.ok m) ∧
      ((st.whereOps = true ∧ env.whereFn m = .ok r) ∨ (st.whereOps = false ∧ r = m))) := by
  unfold Env.prepare at h
  split at h
  · rename_i hl
    refine Or.inl ⟨hl, ?_⟩
    split at h
    · rename_i hp
      cases ha : env.annotateLeaf expr inputTypes expr with
      | error e => rw [ha] at h; cases h
      | ok x => rw [ha] at h; cases h; exact Or.inl ⟨hp, rfl⟩
    · rename_i hp
      cases h
      exact Or.inr ⟨by simpa using hp, rfl⟩
  · rename_i hl
    refine Or.inr ⟨by simpa using hl, ?_⟩
    unfold Env.applyNodeTransformations at h
    split at h
    · cases h
    · cases h
    · rename_i m hm
      refine ⟨m, hm, ?_⟩
      split at h
      · rename_i hw
        cases ha : env.whereFn m with
        | error e => rw [ha] at h; cases h
        | ok x => rw [ha] at h; cases h; exact Or.inl ⟨hw, rfl⟩
      · rename_i hw
        cases h
        exact Or.inr ⟨by simpa using hw, rfl⟩

/-- The prepared expression has the value of the original one, whatever the stages: provided the operators keep their promises,
the inputs have the declared types and the type annotations of the expression are true.  And these stay true. -/
theorem prepare_value (hf : Faithful env S) (limit : Nat) (st : Stages) (inputTypes : List Nat → Option Q)
    (hin : ∀ k q, inputTypes k = some q → S.ty (S.leaf k) = q) (expr r : Node O V Q) (hg : Good env S expr)
    (h : env.prepare limit st inputTypes expr = some (.ok r)) : Good env S r ∧ S.val r = S.val expr := by
  rcases prepare_cases h with ⟨_, ⟨_, h1⟩ | ⟨_, rfl⟩⟩ | ⟨_, m, hm, hr⟩
  · exact good_annotateLeaf hf hin hg h1
  · exact ⟨hg, rfl⟩
  · obtain ⟨h1, h2⟩ := deep_keeps (nodeFn_keeps (keeps_all hf hin st expr)) (deep_sound limit expr m hm).1 hg
    rcases hr with ⟨_, hw⟩ | ⟨_, rfl⟩
    · obtain ⟨h3, h4⟩ := hf.whereOk m r h1 hw
      exact ⟨h3, by rw [h4, h2]⟩
    · exact ⟨h1, h2⟩

/-- Preparation loses no knowledge: the type and the value known for the original expression are known for the prepared one. -/
theorem prepare_attr (hm : Monotone env) (hb : Builds env) (limit : Nat) (st : Stages) (inputTypes : List Nat → Option Q)
    (hst : st.whereOps = false) (expr r : Node O V Q) (hg : WF env.lang expr)
    (h : env.prepare limit st inputTypes expr = some (.ok r)) : WF env.lang r ∧ Attr.Le expr.attr r.attr := by
  rcases prepare_cases h with ⟨hl, ⟨_, h1⟩ | ⟨_, rfl⟩⟩ | ⟨_, m, hm', ⟨hw, _⟩ | ⟨_, rfl⟩⟩
  · refine ⟨wf_annotateLeaf hb hg h1, ?_⟩
    unfold isLeaf at hl
    cases hx : expr.label with
    | leaf k =>
      rw [wf_leaf hg hx]
      exact ⟨(by intro q hq; cases hq), (by intro q hq; cases hq)⟩
    | _ => rw [hx] at hl; cases hl
  · exact ⟨hg, .refl _⟩
  · rw [hst] at hw; cases hw
  · exact deep_le hm (nodeFn_wf (wf_all hb st expr)) (deep_sound limit expr _ hm').1 hg

theorem mem_transformations {st : Stages} {inputTypes : List Nat → Option Q} {expr : Node O V Q} {t : NodeFn O V Q E} :
    t ∈ env.transformations st inputTypes expr ↔
      (st.embedLiterals = true ∧ t = env.embedLiterals) ∨ (st.populateQTypes = true ∧ t = env.populateQTypes inputTypes expr) ∨
      (st.literalFolding = true ∧ t = env.literalFolding) ∨ (st.toLower = true ∧ t = env.toLower) ∨
      (st.stripAnnotations = true ∧ t = env.stripAnnotations) ∨ (st.casting = true ∧ t = env.casting) ∨
      (st.optimization = true ∧ ∃ f, env.optimizer = some f ∧ t = fun n _ => f n) ∨ (st.extensions = true ∧ t = env.extension) := by
  unfold Env.transformations
  simp only [List.mem_append, or_assoc]
  have hif : ∀ (b : Bool) (x : NodeFn O V Q E), t ∈ (if b = true then [x] else []) ↔ b = true ∧ t = x := by
    intro b x; cases b <;> simp
  simp only [hif]
  generalize st.optimization = b
  generalize env.optimizer = x
  cases b <;> cases x <;> simp

theorem annotateDeps_noLeaf {inputTypes : List Nat → Option Q} {root : Node O V Q} : ∀ {ds : List (Node O V Q)},
    env.annotateDeps inputTypes root ds = .ok ds → ds.any isLeaf = false := by
  intro ds
  induction ds with
  | nil => intro _; rfl
  | cons d ds ih =>
    intro h
    rw [Env.annotateDeps] at h
    by_cases hl : isLeaf d = true
    · rw [if_pos hl] at h
      exfalso
      unfold Env.annotateLeaf at h
      unfold isLeaf at hl
      cases hx : d.label with
      | leaf k =>
        rw [hx] at h
        dsimp only at h
        cases hk : inputTypes k with
        | none => rw [hk] at h; cases h
        | some q =>
          rw [hk] at h
          dsimp only at h
          split at h
          · cases h
          · simp only [Except.ok.injEq, List.cons.injEq] at h
            rw [← h.1] at hx
            cases hx
      | _ => rw [hx] at hl; cases hl
    · rw [if_neg hl] at h
      cases hb : env.annotateDeps inputTypes root ds with
      | error e => rw [hb] at h; cases h
      | ok ys =>
        rw [hb] at h
        simp only [Except.ok.injEq, List.cons.injEq, true_and] at h
        rw [h] at hb
        rw [List.any_cons, ih hb]
        simpa using hl

theorem annotateNode_fixed {inputTypes : List Nat → Option Q} {root n : Node O V Q} {o : O} (hn : n.label = .op o)
    (h : env.annotateNode inputTypes root n = .ok n) : n.deps.any isLeaf = false := by
  unfold Env.annotateNode at h
  split at h
  · rename_i hh; simpa using hh
  · cases hb : env.annotateDeps inputTypes root n.deps with
    | error e => rw [hb] at h; cases h
    | ok ys =>
      rw [hb, hn] at h
      dsimp only at h
      unfold Lang.mkOp at h
      cases hi : env.lang.infer o (ys.map Expr.attr) with
      | error e => rw [hi] at h; cases h
      | ok a =>
        rw [hi] at h
        simp only [Except.ok.injEq] at h
        rw [← h] at hb
        rw [← h]
        exact annotateDeps_noLeaf hb

theorem self_dep {n : Node O V Q} {ds : List (Node O V Q)} : n.deps ≠ n :: ds := by
  intro h
  have h1 : n.size = 1 + Expr.sizes n.deps := by cases n; rw [Expr.size]; rfl
  rw [h, Expr.sizes] at h1
  omega

/-- In the prepared expression no transformation has anything left to do, with the consequences the compiler relies on. -/
theorem prepare_normal (limit : Nat) (st : Stages) (inputTypes : List Nat → Option Q) (hst : st.whereOps = false) (expr r : Node O V Q)
    (hnl : isLeaf expr = false) (h : env.prepare limit st inputTypes expr = some (.ok r)) :
    Prepared env st inputTypes r := by
  rcases prepare_cases h with ⟨hl, _⟩ | ⟨_, m, hm, ⟨hw, _⟩ | ⟨_, rfl⟩⟩
  · rw [hnl] at hl; cases hl
  · rw [hst] at hw; cases hw
  · have hfix := (deep_sound limit expr _ hm).2
    have key : ∀ s, Sub s r → ∃ o, env.decayOf s = .ok o ∧ ∀ t ∈ env.transformations st inputTypes expr, t s o = .ok s :=
      fun s hs => nodeFn_fixed (hfix s hs)
    have keyOp : ∀ s o o', Sub s r → s.label = .op o → env.decay o = .ok o' →
        ∀ t ∈ env.transformations st inputTypes expr, t s (some o') = .ok s := by
      intro s o o' hs hl hd t ht
      obtain ⟨x, hx, h⟩ := key s hs
      rw [decayOf_op hl hd] at hx
      cases hx
      exact h t ht
    have decayed : ∀ s o, Sub s r → s.label = .op o → ∃ o', env.decay o = .ok o' := by
      intro s o hs hl
      obtain ⟨x, hx, _⟩ := key s hs
      unfold Env.decayOf at hx
      rw [hl] at hx
      dsimp only at hx
      cases hd : env.decay o with
      | error e => rw [hd] at hx; cases hx
      | ok o' => exact ⟨o', rfl⟩
    refine ⟨?_, ?_, ?_, ?_, ?_, ?_, ?_, ?_, ?_, ?_⟩
    · intro he s hs hv
      obtain ⟨o, ho, ht⟩ := key s hs
      have := ht _ (mem_transformations.2 (Or.inl ⟨he, rfl⟩))
      unfold Env.embedLiterals at this
      cases hq : s.attr.qvalue with
      | none => exact absurd hq hv
      | some v =>
        rw [hq] at this
        cases hil : isLiteral s with
        | true =>
          unfold isLiteral at hil
          cases hl : s.label with
          | literal w => exact ⟨w, rfl⟩
          | _ => rw [hl] at hil; cases hil
        | false =>
          rw [hil] at this
          simp only [Except.ok.injEq] at this
          exact ⟨v, by rw [← this]; rfl⟩
    · intro hp s o d k hs hl hd hdl
      obtain ⟨o', ho'⟩ := decayed s o hs hl
      refine ⟨o', ho', ?_⟩
      by_contra hc
      have := keyOp s o o' hs hl ho' _ (mem_transformations.2 (Or.inr (Or.inl ⟨hp, rfl⟩)))
      unfold Env.populateQTypes at this
      dsimp only at this
      rw [if_neg hc] at this
      have hany := annotateNode_fixed hl this
      rw [List.any_eq_false] at hany
      exact hany d hd (by unfold isLeaf; rw [hdl])
    · intro hp s o d t k v q q' hs hl hq hds hdl htv hv hk
      obtain ⟨o', ho', hqa⟩ := hq
      have := keyOp s o o' hs hl ho' _ (mem_transformations.2 (Or.inr (Or.inl ⟨hp, rfl⟩)))
      unfold Env.populateQTypes at this
      dsimp only at this
      have hread : env.readQTypeAnnotation s = some q := by
        have hisq : env.isQTypeAnnotation s = true := by
          unfold Env.isQTypeAnnotation
          rw [hds, decayOf_op hl ho']
          simpa using hqa
        unfold Env.readQTypeAnnotation
        rw [if_pos hisq, hds]
        dsimp only
        rw [htv]
        exact hv
      rw [if_pos hqa, hread, hds] at this
      dsimp only at this
      rw [hdl] at this
      dsimp only at this
      rw [hk] at this
      dsimp only at this
      by_contra hne
      rw [if_pos (fun h => hne h.symm)] at this
      cases this
    · intro hp s o o' hs hl ho' hne
      have := keyOp s o o' hs hl ho' _ (mem_transformations.2 (Or.inr (Or.inr (Or.inl ⟨hp, rfl⟩))))
      unfold Env.literalFolding at this
      dsimp only at this
      rw [if_neg hne] at this
      by_contra hc
      have hall : allDepsAreLiterals s = true := by
        rw [allDeps_iff]
        intro d hd hn
        exact hc ⟨d, hd, hn⟩
      rw [hall] at this
      simp only [Bool.not_true, Bool.false_eq_true, if_false] at this
      cases hi : env.invoke s with
      | error e => rw [hi] at this; cases this
      | ok v =>
        rw [hi] at this
        simp only [Except.ok.injEq] at this
        rw [← this] at hl
        cases hl
    · intro hp s o o' hs hl ho'
      have := keyOp s o o' hs hl ho' _ (mem_transformations.2 (Or.inr (Or.inr (Or.inr (Or.inl ⟨hp, rfl⟩)))))
      unfold Env.toLower at this
      dsimp only at this
      cases hi : env.lower o' s with
      | error e => rw [hi] at this; cases this
      | ok v =>
        rw [hi] at this
        dsimp only at this
        split at this
        · cases this
        · cases this; rfl
    · intro hp s o o' hs hl ho' ha
      have := keyOp s o o' hs hl ho' _ (mem_transformations.2 (Or.inr (Or.inr (Or.inr (Or.inr (Or.inl ⟨hp, rfl⟩))))))
      unfold Env.stripAnnotations at this
      dsimp only at this
      rw [ha] at this
      simp only [Bool.not_true, Bool.false_eq_true, if_false] at this
      cases hds : s.deps with
      | nil => rw [hds] at this; cases this
      | cons d ds =>
        rw [hds] at this
        dsimp only at this
        split at this
        · rename_i hh
          exact ⟨hh.2, d, ds, rfl, hh.1⟩
        · simp only [Except.ok.injEq] at this
          rw [this] at hds
          exact absurd hds self_dep
    · intro hp s o hs ho
      obtain ⟨x, hx, ht⟩ := key s hs
      rw [ho] at hx
      cases hx
      exact ht _ (mem_transformations.2 (Or.inr (Or.inr (Or.inr (Or.inr (Or.inr (Or.inl ⟨hp, rfl⟩)))))))
    · intro hp f s hf hs
      obtain ⟨x, hx, ht⟩ := key s hs
      exact ht (fun n _ => f n) (mem_transformations.2 (Or.inr (Or.inr (Or.inr (Or.inr (Or.inr (Or.inr (Or.inl ⟨hp, f, hf, rfl⟩))))))))
    · intro hp s o hs ho
      obtain ⟨x, hx, ht⟩ := key s hs
      rw [ho] at hx
      cases hx
      exact ht _ (mem_transformations.2 (Or.inr (Or.inr (Or.inr (Or.inr (Or.inr (Or.inr (Or.inr ⟨hp, rfl⟩))))))))
    · intro s hs
      obtain ⟨x, hx, _⟩ := key s hs
      exact ⟨x, hx⟩

end Verif.Prep
