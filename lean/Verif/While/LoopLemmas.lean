import Verif.While.WhileLemmas

/-!
# Lemmas about the parts of while loops
-/

namespace Verif.While
open Verif.Expr Verif.Lambda
variable {O V Q E D T : Type} [DecidableEq O] [DecidableEq V] [DecidableEq Q]

/-! ## Substitution -/

/-- What holds for the result `r` of a substitution in `e`. -/
structure SOk (G : Lang O V (Attr Q V) E) (σ : Key → Option (Node O V Q)) (e r : Node O V Q) : Prop where
  wf : (∀ k s, σ k = some s → WF G s) → WF G r
  leaf : LeafIn r → LeafIn e ∨ ∃ k s, PhIn e k ∧ σ k = some s ∧ LeafIn s
  ph : ∀ k, PhIn r k → (PhIn e k ∧ σ k = none) ∨ ∃ k' s, PhIn e k' ∧ σ k' = some s ∧ PhIn s k
  val : ∀ (D : Type) (I : O → List D → D) (lit : V → D) (leaf ρ : Key → D),
    value I lit leaf ρ r = value I lit leaf (fun k => ((σ k).map (value I lit leaf ρ)).getD (ρ k)) e

theorem folds_forall₂ {v : Node O V Q → List T → Except E T} {R : Node O V Q → T → Prop} : ∀ (ds : List (Node O V Q)) (rs : List T),
    (∀ d ∈ ds, ∀ r, fold v d = .ok r → R d r) → folds v ds = .ok rs → List.Forall₂ R ds rs := by
  intro ds
  induction ds with
  | nil => intro rs _ h; rw [folds] at h; cases h; exact List.Forall₂.nil
  | cons d ds ih =>
    intro rs hd h
    rw [folds_cons] at h
    cases h1 : fold v d with
    | error e => rw [h1] at h; cases h
    | ok r =>
      cases h2 : folds v ds with
      | error e => rw [h1, h2] at h; cases h
      | ok rs' =>
        rw [h1, h2] at h
        cases h
        exact List.Forall₂.cons (hd d (by simp) r h1) (ih rs' (fun d' hd' => hd d' (by simp [hd'])) h2)

theorem substitute_spec (G : Lang O V (Attr Q V) E) (noValue : Key → E) (σ : Key → Option (Node O V Q)) (all : Bool)
    (e : Node O V Q) (hwf : WF G e) :
    substitutePlaceholders G noValue e σ all ≠ none ∧
    ∀ r, substitutePlaceholders G noValue e σ all = some (.ok r) → SOk G σ e r := by
  unfold substitutePlaceholders
  rw [traverse_eq]
  refine ⟨by simp, ?_⟩
  intro r h
  replace h := Option.some.inj h
  generalize hv : (fun (n : Expr O V (Attr Q V)) (args : List (Expr O V (Attr Q V))) => _) = v at h
  have hvp : ∀ (k : Key) (a : Attr Q V) (ds args : List (Node O V Q)), v (.mk (.placeholder k) a ds) args =
      match σ k with
      | some r => .ok r
      | none => if all then .error (noValue k) else G.withNewDeps (.mk (.placeholder k) a ds) args := by
    intro k a ds args
    rw [← hv]
    cases hσ : σ k <;> simp [Expr.label, hσ]
  have hvl : ∀ (k : Key) (a : Attr Q V) (ds args : List (Node O V Q)), v (.mk (.leaf k) a ds) args =
      G.withNewDeps (.mk (.leaf k) a ds) args := by
    intro k a ds args; rw [← hv]; rfl
  have hvt : ∀ (w : V) (a : Attr Q V) (ds args : List (Node O V Q)), v (.mk (.literal w) a ds) args =
      G.withNewDeps (.mk (.literal w) a ds) args := by
    intro k a ds args; rw [← hv]; rfl
  have hvo : ∀ (o : O) (a : Attr Q V) (ds args : List (Node O V Q)), v (.mk (.op o) a ds) args =
      G.withNewDeps (.mk (.op o) a ds) args := by
    intro k a ds args; rw [← hv]; rfl
  clear hv
  have h0 : ∀ (l : Label O V) (a : Attr Q V), G.withNewDeps (.mk l a [] : Node O V Q) [] = .ok (.mk l a []) := by
    intro l a
    unfold Lang.withNewDeps
    exact if_pos (by rfl)
  induction e using Expr.ind generalizing r with
  | h n ih =>
    rw [fold_eq] at h
    cases hwf with
    | leaf k =>
      rw [show (Expr.mk (.leaf k) G.noAttr [] : Node O V Q).deps = [] from rfl, folds] at h
      have h : v (.mk (.leaf k) G.noAttr []) [] = .ok r := h
      rw [hvl, h0] at h
      cases h
      refine ⟨fun _ => WF.leaf k, fun h => Or.inl h, ?_, ?_⟩
      · intro k' hk
        rcases phIn_iff.1 hk with h' | ⟨d, hd, -⟩
        · cases h'
        · simp [Expr.deps] at hd
      · intro D I lit leaf ρ; rw [value, value]
    | literal w =>
      rw [show (Expr.mk (.literal w) (G.litAttr w) [] : Node O V Q).deps = [] from rfl, folds] at h
      have h : v (.mk (.literal w) (G.litAttr w) []) [] = .ok r := h
      rw [hvt, h0] at h
      cases h
      refine ⟨fun _ => WF.literal w, fun h => Or.inl h, ?_, ?_⟩
      · intro k' hk
        rcases phIn_iff.1 hk with h' | ⟨d, hd, -⟩
        · cases h'
        · simp [Expr.deps] at hd
      · intro D I lit leaf ρ; rw [value, value]
    | placeholder k =>
      rw [show (Expr.mk (.placeholder k) G.noAttr [] : Node O V Q).deps = [] from rfl, folds] at h
      have h : v (.mk (.placeholder k) G.noAttr []) [] = .ok r := h
      rw [hvp] at h
      have hin : PhIn (Expr.mk (.placeholder k) G.noAttr [] : Node O V Q) k := phIn_iff.2 (Or.inl rfl)
      cases hk : σ k with
      | some s =>
        rw [hk] at h
        obtain rfl := Except.ok.inj h
        refine ⟨fun hs => hs k s hk, fun hl => Or.inr ⟨k, s, hin, hk, hl⟩, fun k' hk' => Or.inr ⟨k, s, hin, hk, hk'⟩, ?_⟩
        intro D I lit leaf ρ
        rw [value, hk]
        rfl
      | none =>
        rw [hk] at h
        simp only at h
        split at h
        · cases h
        rw [h0] at h
        cases h
        refine ⟨fun _ => WF.placeholder k, fun hl => Or.inl hl, ?_, ?_⟩
        · intro k' hk'
          rcases phIn_iff.1 hk' with h' | ⟨d, hd, -⟩
          · cases h'
            exact Or.inl ⟨hin, hk⟩
          · simp [Expr.deps] at hd
        · intro D I lit leaf ρ
          rw [value, value, hk]
          rfl
    | op o a ds h1 h2 =>
      rw [show (Expr.mk (.op o) a ds : Node O V Q).deps = ds from rfl] at h ih
      cases hds : folds v ds with
      | error x => rw [hds] at h; cases h
      | ok rs =>
        rw [hds] at h
        have h : v (.mk (.op o) a ds) rs = .ok r := h
        rw [hvo, withNewDeps_op h2] at h
        have hf := folds_forall₂ (R := fun d r => SOk G σ d r) ds rs (fun d hd r hr => ih d hd (h1 d hd) r hr) hds
        unfold Lang.mkOp at h
        cases hi : G.infer o (rs.map Expr.attr) with
        | error x => rw [hi] at h; cases h
        | ok a' =>
          rw [hi] at h
          cases h
          refine ⟨?_, ?_, ?_, ?_⟩
          · intro hs
            refine WF.op o a' rs ?_ hi
            intro d hd
            obtain ⟨n', -, hn⟩ := forall₂_dep hf d hd
            exact hn.wf hs
          · intro hl
            rcases leafIn_iff.1 hl with h' | ⟨d, hd, h'⟩
            · exact absurd rfl h'
            · obtain ⟨n', hn', hn⟩ := forall₂_dep hf d hd
              rcases hn.leaf h' with h'' | ⟨k, s, g1, g2, g3⟩
              · exact Or.inl (leafIn_iff.2 (Or.inr ⟨n', hn', h''⟩))
              · exact Or.inr ⟨k, s, phIn_iff.2 (Or.inr ⟨n', hn', g1⟩), g2, g3⟩
          · intro k hk
            rcases phIn_iff.1 hk with h' | ⟨d, hd, h'⟩
            · cases h'
            · obtain ⟨n', hn', hn⟩ := forall₂_dep hf d hd
              rcases hn.ph k h' with ⟨g1, g2⟩ | ⟨k', s, g1, g2, g3⟩
              · exact Or.inl ⟨phIn_iff.2 (Or.inr ⟨n', hn', g1⟩), g2⟩
              · exact Or.inr ⟨k', s, phIn_iff.2 (Or.inr ⟨n', hn', g1⟩), g2, g3⟩
          · intro D I lit leaf ρ
            rw [value, value, values_map, values_map]
            congr 1
            clear * - hf
            induction hf with
            | nil => rfl
            | cons h1 _ ih => rw [List.map_cons, List.map_cons, ih, h1.val D I lit leaf ρ]

/-! ## Moving the immutable parts -/

/-- The initial state has the named nodes under their names. -/
structure InitOk (G : Lang O V (Attr Q V) E) (init0 : Named O V Q) (names : List (Node O V Q)) (init : Named O V Q) : Prop where
  named : ∀ (i : Nat) (e : Node O V Q), names[i]? = some e → find init (immName i) = some e
  reserved : ∀ k e, Reserved k → find init k = some e → ∃ i, k = immName i ∧ names[i]? = some e
  other : ∀ k, ¬ Reserved k → find init k = find init0 k
  imm : ∀ e ∈ names, WF G e ∧ ∀ k, ¬ PhIn e k

theorem initOk_merge {G : Lang O V (Attr Q V) E} {init0 init : Named O V Q} {names : List (Node O V Q)} {st : St O V Q}
    (h : InitOk G init0 names init) (hp : names <+: st.names) (hst : StOk G names.length st) :
    InitOk G init0 st.names (merge init st.imms) := by
  have hold : ∀ (j : Nat) (e : Node O V Q), names[j]? = some e → st.names[j]? = some e := by
    intro j e he
    obtain ⟨t, ht⟩ := hp
    rw [← ht, List.getElem?_append_left (List.getElem?_eq_some_iff.1 he).1]
    exact he
  refine ⟨?_, ?_, ?_, hst.imm⟩
  · intro i e he
    rw [find_merge]
    cases hf : find init (immName i) with
    | some e' =>
      obtain ⟨j, hj1, hj2⟩ := h.reserved _ _ (reserved_immName i) hf
      have := immName_inj hj1
      subst this
      have := hold i e' hj2
      rw [he] at this
      rw [this]; rfl
    | none =>
      rcases Nat.lt_or_ge i names.length with hlt | hge
      · have := h.named i _ (List.getElem?_eq_getElem hlt)
        rw [hf] at this; cases this
      · rw [hst.complete i e hge he]; rfl
  · intro k e hk hf
    rw [find_merge] at hf
    cases hf' : find init k with
    | some e' =>
      rw [hf'] at hf
      cases hf
      obtain ⟨j, hj1, hj2⟩ := h.reserved _ _ hk hf'
      exact ⟨j, hj1, hold j e hj2⟩
    | none =>
      rw [hf'] at hf
      exact hst.sound k e hf
  · intro k hk
    rw [find_merge, h.other k hk]
    cases hf : find init0 k with
    | some e => rfl
    | none =>
      cases hf' : find st.imms k with
      | none => rfl
      | some e =>
        obtain ⟨i, hi, -⟩ := hst.sound k e hf'
        exact absurd (hi ▸ reserved_immName i) hk

theorem moveLoop_spec {G : Lang O V (Attr Q V) E} {init0 : Named O V Q} : ∀ (body : Named O V Q) (names : List (Node O V Q))
    (init : Named O V Q), InitOk G init0 names init → (∀ e ∈ body, WF G e.2 ∧ ∀ k, PhIn e.2 k → ¬ Reserved k) →
    moveLoop G body names init ≠ none ∧
    ∀ names' init' body', moveLoop G body names init = some (.ok (names', init', body')) →
      names <+: names' ∧ InitOk G init0 names' init' ∧
      List.Forall₂ (fun e e' => e'.1 = e.1 ∧ DOk G names' e.2 e'.2) body body' := by
  intro body
  induction body with
  | nil =>
    intro names init h _
    rw [moveLoop]
    refine ⟨by simp, ?_⟩
    intro names' init' body' he
    simp only [Option.some.injEq, Except.ok.injEq, Prod.mk.injEq] at he
    obtain ⟨rfl, rfl, rfl⟩ := he
    exact ⟨List.prefix_rfl, h, List.Forall₂.nil⟩
  | cons e rest ih =>
    intro names init h hb
    obtain ⟨k, e⟩ := e
    obtain ⟨hw, hr⟩ := hb (k, e) (by simp)
    obtain ⟨h1, h2⟩ := extractImmutables_spec hw hr names h.imm
    rw [moveLoop]
    cases hx : extractImmutables G e names with
    | none => exact absurd hx h1
    | some x =>
      cases x with
      | error x => exact ⟨by simp, fun _ _ _ he => by cases he⟩
      | ok x =>
        obtain ⟨new, st⟩ := x
        obtain ⟨g1, g2, g3⟩ := h2 new st hx
        simp only
        obtain ⟨q1, q2⟩ := ih st.names (merge init st.imms) (initOk_merge h g1 g2) (fun e he => hb e (by simp [he]))
        cases hm : moveLoop G rest st.names (merge init st.imms) with
        | none => exact absurd hm q1
        | some y =>
          cases y with
          | error y => exact ⟨by simp, fun _ _ _ he => by cases he⟩
          | ok y =>
            obtain ⟨names1, init1, body1⟩ := y
            obtain ⟨r1, r2, r3⟩ := q2 names1 init1 body1 hm
            refine ⟨by simp, ?_⟩
            intro names' init' body' he
            simp only [Option.some.injEq, Except.ok.injEq, Prod.mk.injEq] at he
            obtain ⟨rfl, rfl, rfl⟩ := he
            exact ⟨g1.trans r1, r2, List.Forall₂.cons ⟨rfl, g3.mono r1⟩ r3⟩

/-- The result of moving the immutable parts. -/
structure Moved (G : Lang O V (Attr Q V) E) (init0 : Named O V Q) (cond0 : Node O V Q) (body0 : Named O V Q)
    (names : List (Node O V Q)) (init : Named O V Q) (cond : Node O V Q) (body : Named O V Q) : Prop where
  init : InitOk G init0 names init
  cond : DOk G names cond0 cond
  body : List.Forall₂ (fun e e' => e'.1 = e.1 ∧ DOk G names e.2 e'.2) body0 body

theorem move_spec {G : Lang O V (Attr Q V) E} {init : Named O V Q} {cond : Node O V Q} {body : Named O V Q}
    (h : Args G init cond body) :
    moveImmutables G init cond body ≠ none ∧
    ∀ init' cond' body', moveImmutables G init cond body = some (.ok (init', cond', body')) →
      (∀ k, (find body k).isSome = true → ¬ Reserved k) ∧ ∃ names, Moved G init cond body names init' cond' body' := by
  unfold moveImmutables
  split
  · exact ⟨by simp, fun _ _ _ he => by cases he⟩
  rename_i hres
  have hk : ∀ k, (find body k).isSome = true → ¬ Reserved k := by
    intro k hk hr
    apply hres
    rw [List.any_eq_true]
    obtain ⟨e, he⟩ := Option.isSome_iff_exists.1 hk
    exact ⟨(k, e), find_mem he, hr⟩
  have h0 : InitOk G init [] init := by
    refine ⟨fun i e he => by simp at he, ?_, fun k _ => rfl, fun e he => by cases he⟩
    intro k e hr he
    rw [h.initFree k hr] at he; cases he
  obtain ⟨q1, q2⟩ := moveLoop_spec body [] init h0 h.bodyWF
  cases hm : moveLoop G body [] init with
  | none => exact absurd hm q1
  | some y =>
    cases y with
    | error y => exact ⟨by simp, fun _ _ _ he => by cases he⟩
    | ok y =>
      obtain ⟨names1, init1, body1⟩ := y
      obtain ⟨-, r2, r3⟩ := q2 names1 init1 body1 hm
      simp only
      obtain ⟨h1, h2⟩ := extractImmutables_spec h.condWF h.condFree names1 r2.imm
      cases hx : extractImmutables G cond names1 with
      | none => exact absurd hx h1
      | some x =>
        cases x with
        | error x => exact ⟨by simp, fun _ _ _ he => by cases he⟩
        | ok x =>
          obtain ⟨new, st⟩ := x
          obtain ⟨g1, g2, g3⟩ := h2 new st hx
          refine ⟨by simp, ?_⟩
          intro init' cond' body' he
          simp only [Option.some.injEq, Except.ok.injEq, Prod.mk.injEq] at he
          obtain ⟨rfl, rfl, rfl⟩ := he
          refine ⟨hk, st.names, initOk_merge r2 g1 g2, g3, ?_⟩
          exact List.Forall₂.imp (fun _ _ hd => ⟨hd.1, hd.2.mono g1⟩) r3

theorem moved_find {G : Lang O V (Attr Q V) E} {names : List (Node O V Q)} {body body' : Named O V Q}
    (h : List.Forall₂ (fun e e' => e'.1 = e.1 ∧ DOk G names e.2 e'.2) body body') :
    body'.map (·.1) = body.map (·.1) ∧ (∀ k, (find body k).isSome = (find body' k).isSome) ∧
    ∀ k e e', find body k = some e → find body' k = some e' → DOk G names e e' := by
  induction h with
  | nil => refine ⟨rfl, fun _ => rfl, fun k e e' h => by simp [find] at h⟩
  | cons h1 _ ih =>
    obtain ⟨i1, i2, i3⟩ := ih
    refine ⟨by rw [List.map_cons, List.map_cons, i1, h1.1], ?_, ?_⟩
    · intro k
      rw [find_cons, find_cons, h1.1]
      split
      · rfl
      · exact i2 k
    · intro k e e' he he'
      rw [find_cons] at he he'
      rw [h1.1] at he'
      split at he
      · rename_i hk
        rw [if_pos hk] at he'
        cases he; cases he'
        exact h1.2
      · rename_i hk
        rw [if_neg hk] at he'
        exact i3 k e e' he he'

/-! ## The parts of the loop -/

theorem mkOp_ok {G : Lang O V (Attr Q V) E} {o : O} {ds : List (Node O V Q)} {r : Node O V Q} (h : G.mkOp o ds = .ok r)
    (hds : ∀ d ∈ ds, WF G d) : WF G r ∧ (LeafIn r → ∃ d ∈ ds, LeafIn d) ∧ (∀ k, PhIn r k → ∃ d ∈ ds, PhIn d k) := by
  unfold Lang.mkOp at h
  cases hi : G.infer o (ds.map Expr.attr) with
  | error x => rw [hi] at h; cases h
  | ok a =>
    rw [hi] at h
    cases h
    refine ⟨WF.op o a ds hds hi, ?_, ?_⟩
    · intro hl
      rcases leafIn_iff.1 hl with h' | h'
      · exact absurd rfl h'
      · exact h'
    · intro k hk
      rcases phIn_iff.1 hk with h' | h'
      · cases h'
      · exact h'

theorem mkOp_value {G : Lang O V (Attr Q V) E} {o : O} {ds : List (Node O V Q)} {r : Node O V Q} (h : G.mkOp o ds = .ok r)
    (I : O → List D → D) (lit : V → D) (leaf ρ : Key → D) :
    value I lit leaf ρ r = I o (ds.map (value I lit leaf ρ)) := by
  unfold Lang.mkOp at h
  cases hi : G.infer o (ds.map Expr.attr) with
  | error x => rw [hi] at h; cases h
  | ok a =>
    rw [hi] at h
    cases h
    rw [value, values_map]

theorem mkOp_accepting {G : Lang O V (Attr Q V) E} (hG : Accepting G) (o : O) (ds : List (Node O V Q)) : ∃ r, G.mkOp o ds = .ok r := by
  obtain ⟨a, ha⟩ := hG o (ds.map Expr.attr)
  exact ⟨.mk (.op o) a ds, by unfold Lang.mkOp; rw [ha]⟩

theorem literal_facts (G : Lang O V (Attr Q V) E) (v : V) : WF G (literal (E := E) G v : Node O V Q) ∧
    ¬ LeafIn (literal (E := E) G v : Node O V Q) ∧ ∀ k, ¬ PhIn (literal (E := E) G v : Node O V Q) k := by
  unfold literal
  refine ⟨WF.literal v, ?_, ?_⟩
  · rw [leafIn_iff]
    rintro (h | ⟨d, hd, -⟩)
    · exact h rfl
    · simp [Expr.deps] at hd
  · intro k hk
    rcases phIn_iff.1 hk with h | ⟨d, hd, -⟩
    · cases h
    · simp [Expr.deps] at hd

theorem placeholder_facts (G : Lang O V (Attr Q V) E) (x : Key) : WF G (placeholder (E := E) G x : Node O V Q) ∧
    ¬ LeafIn (placeholder (E := E) G x : Node O V Q) ∧ ∀ k, PhIn (placeholder (E := E) G x : Node O V Q) k → k = x := by
  unfold placeholder
  refine ⟨WF.placeholder x, ?_, ?_⟩
  · rw [leafIn_iff]
    rintro (h | ⟨d, hd, -⟩)
    · exact h rfl
    · simp [Expr.deps] at hd
  · intro k hk
    rcases phIn_iff.1 hk with h | ⟨d, hd, -⟩
    · cases h; rfl
    · simp [Expr.deps] at hd

theorem value_literal (G : Lang O V (Attr Q V) E) (I : O → List D → D) (lit : V → D) (leaf ρ : Key → D) (v : V) :
    value I lit leaf ρ (literal (E := E) G v : Node O V Q) = lit v := by
  unfold literal
  rw [value]

theorem value_placeholder (G : Lang O V (Attr Q V) E) (I : O → List D → D) (lit : V → D) (leaf ρ : Key → D) (x : Key) :
    value I lit leaf ρ (placeholder (E := E) G x : Node O V Q) = ρ x := by
  unfold placeholder
  rw [value]

/-- The value of the entry of a map, or of the placeholder. -/
def look (I : O → List D → D) (lit : V → D) (leaf ρ : Key → D) (m : Named O V Q) (x : Key) : D :=
  ((find m x).map (value I lit leaf ρ)).getD (ρ x)

theorem wrapLoop_spec {m : Named O V Q} : ∀ (ks : List Key) (es : List (Node O V Q)), wrapLoop (E := E) m ks = .ok es →
    (∀ e ∈ es, ∃ k ∈ ks, find m k = some e) ∧
    ∀ (D : Type) (I : O → List D → D) (lit : V → D) (leaf ρ : Key → D),
      es.map (value I lit leaf ρ) = ks.map (look I lit leaf ρ m) := by
  intro ks
  induction ks with
  | nil => intro es h; rw [wrapLoop] at h; cases h; exact ⟨fun e he => absurd he List.not_mem_nil, fun _ _ _ _ _ => rfl⟩
  | cons k ks ih =>
    intro es h
    rw [wrapLoop] at h
    cases hk : find m k with
    | none => rw [hk] at h; cases h
    | some e =>
      rw [hk] at h
      simp only at h
      cases hw : wrapLoop (E := E) m ks with
      | error x => rw [hw] at h; cases h
      | ok es' =>
        rw [hw] at h
        cases h
        obtain ⟨h1, h2⟩ := ih es' hw
        refine ⟨?_, ?_⟩
        · intro e' he'
          rcases List.mem_cons.1 he' with rfl | he'
          · exact ⟨k, by simp, hk⟩
          · obtain ⟨k', hk', hf⟩ := h1 e' he'
            exact ⟨k', by simp [hk'], hf⟩
        · intro D I lit leaf ρ
          rw [List.map_cons, List.map_cons, h2, look, hk]
          rfl

theorem wrap_spec {G : Lang O V (Attr Q V) E} {P : Ops O V} {m : Named O V Q} {ks : List Key} {t : Node O V Q}
    (h : wrapAsTuple G P m ks = .ok t) :
    (∀ (D : Type) (I : O → List D → D) (lit : V → D) (leaf ρ : Key → D),
      value I lit leaf ρ t = I P.namedtupleMake (lit (P.fieldNames ks) :: ks.map (look I lit leaf ρ m))) ∧
    ((∀ k e, find m k = some e → WF G e) →
      WF G t ∧ (LeafIn t → ∃ k e, find m k = some e ∧ LeafIn e) ∧ ∀ x, PhIn t x → ∃ k e, find m k = some e ∧ PhIn e x) := by
  unfold wrapAsTuple at h
  cases hw : wrapLoop (E := E) m ks with
  | error x => rw [hw] at h; cases h
  | ok es =>
    rw [hw] at h
    obtain ⟨h1, h2⟩ := wrapLoop_spec ks es hw
    simp only at h
    cases hm : G.mkOp P.namedtupleMake (literal G (P.fieldNames ks) :: es) with
    | error x => rw [hm] at h; cases h
    | ok r =>
      rw [hm] at h
      obtain rfl := Except.ok.inj h
      refine ⟨?_, ?_⟩
      · intro D I lit leaf ρ
        rw [mkOp_value hm, List.map_cons, value_literal, h2]
      · intro hwf
        obtain ⟨l1, l2, l3⟩ := literal_facts G (P.fieldNames ks) (Q := Q)
        obtain ⟨g1, g2, g3⟩ := mkOp_ok hm (by
          intro d hd
          rcases List.mem_cons.1 hd with rfl | hd
          · exact l1
          · obtain ⟨k, -, hk⟩ := h1 d hd
            exact hwf k d hk)
        refine ⟨g1, ?_, ?_⟩
        · intro hl
          obtain ⟨d, hd, hl⟩ := g2 hl
          rcases List.mem_cons.1 hd with rfl | hd
          · exact absurd hl l2
          · obtain ⟨k, -, hk⟩ := h1 d hd
            exact ⟨k, d, hk, hl⟩
        · intro x hx
          obtain ⟨d, hd, hl⟩ := g3 x hx
          rcases List.mem_cons.1 hd with rfl | hd
          · exact absurd hl (l3 x)
          · obtain ⟨k, -, hk⟩ := h1 d hd
            exact ⟨k, d, hk, hl⟩

theorem wrap_accepting {G : Lang O V (Attr Q V) E} (hG : Accepting G) (P : Ops O V) {m : Named O V Q} {ks : List Key}
    (h : ∀ k ∈ ks, (find m k).isSome = true) : ∃ t, wrapAsTuple G P m ks = .ok t := by
  have : ∃ es, wrapLoop (E := E) m ks = .ok es := by
    induction ks with
    | nil => exact ⟨[], rfl⟩
    | cons k ks ih =>
      obtain ⟨es, hes⟩ := ih (fun k' hk' => h k' (by simp [hk']))
      obtain ⟨e, he⟩ := Option.isSome_iff_exists.1 (h k (by simp))
      exact ⟨e :: es, by rw [wrapLoop, he, hes]⟩
  obtain ⟨es, hes⟩ := this
  obtain ⟨r, hr⟩ := mkOp_accepting hG P.namedtupleMake (literal G (P.fieldNames ks) :: es)
  exact ⟨r, by unfold wrapAsTuple; rw [hes]; simp only; rw [hr]; rfl⟩

theorem accessors_spec {G : Lang O V (Attr Q V) E} {P : Ops O V} {tuple : Node O V Q} (hwf : WF G tuple) : ∀ (ks : List Key) (i : Nat)
    (fields : Named O V Q), accessors G P tuple ks i = .ok fields →
    (∀ k, (find fields k).isSome = true ↔ k ∈ ks) ∧
    ∀ k f, find fields k = some f → WF G f ∧ (LeafIn f → LeafIn tuple) ∧ (∀ x, PhIn f x → PhIn tuple x) ∧
      ∀ (D : Type) (I : O → List D → D) (lit : V → D) (leaf ρ : Key → D),
        value I lit leaf ρ f = I P.getNth [value I lit leaf ρ tuple, lit (P.int (i + ks.idxOf k))] := by
  intro ks
  induction ks with
  | nil =>
    intro i fields h
    rw [accessors] at h
    cases h
    exact ⟨fun k => by simp [find], fun k f h => by simp [find] at h⟩
  | cons k ks ih =>
    intro i fields h
    rw [accessors] at h
    cases hm : G.mkOp P.getNth [tuple, literal G (P.int i)] with
    | error x => rw [hm] at h; cases h
    | ok f =>
      rw [hm] at h
      simp only at h
      cases ha : accessors G P tuple ks (i + 1) with
      | error x => rw [ha] at h; cases h
      | ok rest =>
        rw [ha] at h
        cases h
        obtain ⟨h1, h2⟩ := ih (i + 1) rest ha
        refine ⟨?_, ?_⟩
        · intro k'
          rw [find_cons]
          by_cases hk : k = k'
          · simp [hk]
          · rw [if_neg hk, h1 k', List.mem_cons]
            constructor
            · exact Or.inr
            · rintro (h' | h')
              · exact absurd h'.symm hk
              · exact h'
        · intro k' f' hf
          rw [find_cons] at hf
          by_cases hk : k = k'
          · rw [if_pos hk] at hf
            obtain rfl := Option.some.inj hf
            subst hk
            obtain ⟨l1, l2, l3⟩ := literal_facts G (P.int i) (Q := Q)
            obtain ⟨g1, g2, g3⟩ := mkOp_ok hm (by
              intro d hd
              simp only [List.mem_cons, List.not_mem_nil, or_false] at hd
              rcases hd with rfl | rfl
              · exact hwf
              · exact l1)
            refine ⟨g1, ?_, ?_, ?_⟩
            · intro hl
              obtain ⟨d, hd, hl⟩ := g2 hl
              simp only [List.mem_cons, List.not_mem_nil, or_false] at hd
              rcases hd with rfl | rfl
              · exact hl
              · exact absurd hl l2
            · intro x hx
              obtain ⟨d, hd, hl⟩ := g3 x hx
              simp only [List.mem_cons, List.not_mem_nil, or_false] at hd
              rcases hd with rfl | rfl
              · exact hl
              · exact absurd hl (l3 x)
            · intro D I lit leaf ρ
              rw [mkOp_value hm, List.map_cons, List.map_cons, value_literal, List.idxOf_cons_self]
              rfl
          · rw [if_neg hk] at hf
            obtain ⟨g1, g2, g3, g4⟩ := h2 k' f' hf
            refine ⟨g1, g2, g3, ?_⟩
            intro D I lit leaf ρ
            rw [g4, List.idxOf_cons_ne _ hk, show i + 1 + ks.idxOf k' = i + (ks.idxOf k').succ by omega]

theorem accessors_accepting {G : Lang O V (Attr Q V) E} (hG : Accepting G) (P : Ops O V) (tuple : Node O V Q) :
    ∀ (ks : List Key) (i : Nat), ∃ fields, accessors G P tuple ks i = .ok fields := by
  intro ks
  induction ks with
  | nil => intro i; exact ⟨[], rfl⟩
  | cons k ks ih =>
    intro i
    obtain ⟨r, hr⟩ := mkOp_accepting hG P.getNth [tuple, literal G (P.int i)]
    obtain ⟨fs, hfs⟩ := ih (i + 1)
    exact ⟨(k, r) :: fs, by rw [accessors, hr]; simp only; rw [hfs]⟩

theorem pick_spec {m : Named O V Q} : ∀ (ks : List Key),
    ((∀ k ∈ ks, (find m k).isSome = true) → pick m ks ≠ none) ∧
    ∀ es, pick m ks = some es → ∀ (D : Type) (I : O → List D → D) (lit : V → D) (leaf ρ : Key → D),
      es.map (value I lit leaf ρ) = ks.map (look I lit leaf ρ m) := by
  intro ks
  induction ks with
  | nil =>
    refine ⟨fun _ => by simp [pick], ?_⟩
    intro es h
    rw [pick] at h; cases h
    intros; rfl
  | cons k ks ih =>
    rw [pick]
    refine ⟨?_, ?_⟩
    · intro h
      obtain ⟨e, he⟩ := Option.isSome_iff_exists.1 (h k (by simp))
      have := ih.1 (fun k' hk' => h k' (by simp [hk']))
      cases hp : pick m ks with
      | none => exact absurd hp this
      | some es => rw [he]; simp
    · intro es h
      cases he : find m k with
      | none => rw [he] at h; cases h
      | some e =>
        cases hp : pick m ks with
        | none => rw [he, hp] at h; cases h
        | some es' =>
          rw [he, hp] at h
          cases h
          intro D I lit leaf ρ
          rw [List.map_cons, List.map_cons, ih.2 es' hp, look, he]
          rfl

theorem castLoop_spec {G : Lang O V (Attr Q V) E} {P : Ops O V} {noValue : Key → E} {init : Named O V Q} : ∀ (body new : Named O V Q),
    (body.map (·.1)).Nodup → (∀ e ∈ body, WF G e.2) →
    ((∀ e ∈ body, (find init e.1).isSome = true) → castLoop G P noValue init body new ≠ none) ∧
    ∀ new', castLoop G P noValue init body new = some (.ok new') →
      (∀ k, find body k = none → find new' k = find new k) ∧
      ∀ k e, find body k = some e → ∃ c first, find new' k = some c ∧ find init k = some first ∧
        ∀ (D : Type) (I : O → List D → D) (lit : V → D) (leaf ρ : Key → D), value I lit leaf ρ c =
          I P.cast [value I lit leaf ρ first, I P.qtypeOf [value I lit leaf (look I lit leaf ρ init) e], lit P.true_] := by
  intro body
  induction body with
  | nil =>
    intro new _ _
    rw [castLoop]
    refine ⟨fun _ => by simp, ?_⟩
    intro new' h
    obtain rfl := Except.ok.inj (Option.some.inj h)
    exact ⟨fun _ _ => rfl, fun k e h => by simp [find] at h⟩
  | cons ke rest ih =>
    intro new hnd hwf
    obtain ⟨k, e⟩ := ke
    rw [List.map_cons, List.nodup_cons] at hnd
    obtain ⟨s1, s2⟩ := substitute_spec G noValue (find init) true e (hwf (k, e) (by simp))
    rw [castLoop]
    cases hs : substitutePlaceholders G noValue e (find init) true with
    | none => exact absurd hs s1
    | some x =>
      cases x with
      | error x => exact ⟨fun _ => by simp, fun _ h => by cases h⟩
      | ok after =>
        have hS := s2 after hs
        simp only
        cases hf : find init k with
        | none =>
          refine ⟨fun h => ?_, fun _ h => by cases h⟩
          have := h (k, e) (by simp)
          rw [hf] at this; cases this
        | some first =>
          simp only
          cases hq : G.mkOp P.qtypeOf [after] with
          | error x => exact ⟨fun _ => by simp, fun _ h => by cases h⟩
          | ok q =>
            simp only
            cases hc : G.mkOp P.cast [first, q, literal G P.true_] with
            | error x => exact ⟨fun _ => by simp, fun _ h => by cases h⟩
            | ok c =>
              simp only
              obtain ⟨i1, i2⟩ := ih (assign new k c) hnd.2 (fun e he => hwf e (by simp [he]))
              refine ⟨fun h => i1 (fun e he => h e (by simp [he])), ?_⟩
              intro new' h
              obtain ⟨j1, j2⟩ := i2 new' h
              have hkn : find rest k = none := by
                have := mt (mem_keys_iff rest k).2 hnd.1
                simpa using this
              refine ⟨?_, ?_⟩
              · intro k' hk'
                rw [find_cons] at hk'
                by_cases hkk : k = k'
                · rw [if_pos hkk] at hk'; cases hk'
                · rw [if_neg hkk] at hk'
                  rw [j1 k' hk', find_assign, if_neg (Ne.symm hkk)]
              · intro k' e' hk'
                rw [find_cons] at hk'
                by_cases hkk : k = k'
                · rw [if_pos hkk] at hk'
                  obtain rfl := Option.some.inj hk'
                  subst hkk
                  refine ⟨c, first, ?_, hf, ?_⟩
                  · rw [j1 k hkn, find_assign, if_pos rfl]
                  · intro D I lit leaf ρ
                    rw [mkOp_value hc, List.map_cons, List.map_cons, List.map_cons, List.map_nil, mkOp_value hq, List.map_cons,
                      List.map_nil, value_literal, hS.val]
                    rfl
                · rw [if_neg hkk] at hk'
                  exact j2 k' e' hk'

/-! ## The loop -/

theorem mem_names {T : Type} (m : List (Key × T)) (k : Key) : k ∈ expressionNames m ↔ (find m k).isSome = true := by
  unfold expressionNames
  rw [(sortKeys_spec _).1.mem_iff, mem_keys_iff]

theorem varAt_none (I : O → List D → D) (lit : V → D) (leaf ph : Key → D) (P : Ops O V) (init body : Named O V Q) {x : Key}
    (h : find body x = none) : ∀ k, varAt I lit leaf ph P init body k x = initVal I lit leaf ph init x := by
  intro k
  induction k with
  | zero => rw [varAt, h]
  | succ k ih => rw [varAt, h]; exact ih

/-- The environment built from the moved initial state agrees with the original. -/
theorem agree_of {G : Lang O V (Attr Q V) E} {init0 init : Named O V Q} {names : List (Node O V Q)} (h : InitOk G init0 names init)
    (I : O → List D → D) (lit : V → D) (leaf ph ρ ρ' : Key → D)
    (h1 : ∀ k, Reserved k → ρ' k = look I lit leaf ph init k) (h2 : ∀ k, ¬ Reserved k → ρ' k = ρ k) :
    Agree I lit leaf names ρ ρ' := by
  refine ⟨?_, h2⟩
  intro i e he
  rw [h1 _ (reserved_immName i), look, h.named i e he]
  exact value_congr I lit leaf ph ρ e (fun k hk => absurd hk ((h.imm e (List.mem_of_getElem? he)).2 k))

theorem makeLambda_ok {G : Lang O V (Attr Q V) E} {noValue : Key → E} {params : List Key} {e : Node O V Q} {fields : Named O V Q}
    {r : Node O V Q} (hwf : WF G e) (h : makeLambda G noValue params e fields = some (.ok r)) :
    SOk G (find fields) e r ∧ params.Nodup := by
  unfold makeLambda at h
  cases hs : substitutePlaceholders G noValue e (find fields) false with
  | none => rw [hs] at h; cases h
  | some x =>
    cases x with
    | error x => rw [hs] at h; cases h
    | ok r' =>
      rw [hs] at h
      simp only at h
      cases hm : Lambda.make (E := E) params false r' with
      | none => rw [hm] at h; cases h
      | some y =>
        cases y with
        | error y => rw [hm] at h; cases h
        | ok L =>
          rw [hm] at h
          obtain rfl := Except.ok.inj (Option.some.inj h)
          refine ⟨(substitute_spec G noValue (find fields) false e hwf).2 r' hs, ?_⟩
          unfold Lambda.make at hm
          by_cases hn : params.Nodup
          · exact hn
          · rw [if_pos (Or.inl hn)] at hm; cases hm

/-- What a successful `finish` gives. -/
theorem finish_value {G : Lang O V (Attr Q V) E} {P : Ops O V} {noValue : Key → E} {init0 : Named O V Q} {cond0 : Node O V Q}
    {body0 : Named O V Q} {names : List (Node O V Q)} {init : Named O V Q} {cond : Node O V Q} {body : Named O V Q} {W : Loop O V Q}
    (hM : Moved G init0 cond0 body0 names init cond body) (hnd : (body0.map (·.1)).Nodup)
    (hres : ∀ k, (find body0 k).isSome = true → ¬ Reserved k) (hfree : ∀ k, Reserved k → find init0 k = none)
    (hb : ∀ k, (find body k).isSome = true → (find init k).isSome = true)
    (hc : ∀ k, PhIn cond k → (find init k).isSome = true)
    (hbe : ∀ x e, find body x = some e → ∀ k, PhIn e k → (find init k).isSome = true)
    (h : finish G P noValue init cond body = some (.ok W))
    (I : O → List D → D) (lit : V → D) (leaf ph : Key → D) (hT : TupleLaw P I lit) (k : Nat) :
    (∃ rest, argsAt I lit leaf ph W k = I P.namedtupleMake (lit (P.fieldNames (expressionNames body0)) ::
      (expressionNames body0).map (varAt I lit leaf ph P init0 body0 k)) :: rest) ∧
    condAt I lit leaf ph W k = value I lit leaf (varAt I lit leaf ph P init0 body0 k) cond0 := by
  obtain ⟨m1, m2, m3⟩ := moved_find hM.body
  have hnames : expressionNames body = expressionNames body0 := by unfold expressionNames; rw [m1]
  have hbwf : ∀ e ∈ body, WF G e.2 := by
    intro e he
    have h1 := find_of_mem (by rw [m1]; exact hnd) he
    have h2 := m2 e.1
    rw [h1] at h2
    obtain ⟨e0, he0⟩ := Option.isSome_iff_exists.1 h2
    exact (m3 e.1 e0 e.2 he0 h1).wf
  have hbnd : (body.map (·.1)).Nodup := by rw [m1]; exact hnd
  unfold finish at h
  obtain ⟨-, c2⟩ := castLoop_spec (P := P) (noValue := noValue) (init := init) body init hbnd hbwf
  cases hcl : castLoop G P noValue init body init with
  | none => rw [hcl] at h; cases h
  | some x =>
    cases x with
    | error x => rw [hcl] at h; cases h
    | ok init' =>
      obtain ⟨k1, k2⟩ := c2 init' hcl
      rw [hcl] at h
      simp only [hnames] at h
      generalize him : (expressionNames init).filter (fun k => !(expressionNames body0).contains k) = imm at h
      have himm : ∀ x, x ∈ imm ↔ (find init x).isSome = true ∧ find body x = none := by
        intro x
        rw [← him, List.mem_filter, mem_names]
        simp only [Bool.not_eq_true', List.contains_eq_mem, decide_eq_false_iff_not, mem_names, m2 x]
        simp
      cases hw1 : wrapAsTuple G P init' (expressionNames body0) with
      | error x => rw [hw1] at h; cases h
      | ok initTuple =>
        rw [hw1] at h
        simp only at h
        cases hw2 : wrapAsTuple G P body (expressionNames body0) with
        | error x => rw [hw2] at h; cases h
        | ok bodyTuple =>
          rw [hw2] at h
          simp only at h
          cases hp : pick init' imm with
          | none => rw [hp] at h; cases h
          | some deps =>
            rw [hp] at h
            simp only at h
            cases ha : accessors G P (placeholder G kLoopState) (expressionNames body0) 0 with
            | error x => rw [ha] at h; cases h
            | ok fields =>
              rw [ha] at h
              simp only at h
              cases hl1 : makeLambda G noValue (kLoopState :: imm) cond fields with
              | none => rw [hl1] at h; cases h
              | some y =>
                cases y with
                | error y => rw [hl1] at h; cases h
                | ok c =>
                  rw [hl1] at h
                  simp only at h
                  cases hl2 : makeLambda G noValue (kLoopState :: imm) bodyTuple fields with
                  | none => rw [hl2] at h; cases h
                  | some z =>
                    cases z with
                    | error z => rw [hl2] at h; cases h
                    | ok b =>
                      rw [hl2] at h
                      obtain rfl := Except.ok.inj (Option.some.inj h)
                      obtain ⟨w1, -⟩ := wrap_spec hw1
                      obtain ⟨w2, w3⟩ := wrap_spec hw2
                      have hbf : ∀ x e, find body x = some e → WF G e := fun x e he => hbwf (x, e) (find_mem he)
                      obtain ⟨w3, -, w5⟩ := w3 hbf
                      obtain ⟨S1, S2⟩ := makeLambda_ok hM.cond.wf hl1
                      obtain ⟨S3, -⟩ := makeLambda_ok w3 hl2
                      obtain ⟨a1, a2⟩ := accessors_spec (placeholder_facts G kLoopState).1 _ 0 fields ha
                      have hpv := (pick_spec imm).2 deps hp D I lit leaf ph
                      rw [List.nodup_cons] at S2
                      -- the initial values of the moved state
                      have hlook : ∀ x, ¬ Reserved x → look I lit leaf ph init x = initVal I lit leaf ph init0 x := by
                        intro x hx
                        rw [look, initVal, hM.init.other x hx]
                      -- the state from the values
                      have key : ∀ (k : Nat) (args : List D),
                          args = I P.namedtupleMake (lit (P.fieldNames (expressionNames body0)) ::
                            (expressionNames body0).map (varAt I lit leaf ph P init0 body0 k)) :: deps.map (value I lit leaf ph) →
                          ∀ (n r : Node O V Q) (d : D), SOk G (find fields) n r → (∀ x, PhIn n x → (find init x).isSome = true) →
                            (∀ (ρ' : Key → D), Agree I lit leaf names (varAt I lit leaf ph P init0 body0 k) ρ' →
                              value I lit leaf ρ' n = d) →
                            value I lit leaf (env ph (kLoopState :: imm) args) r = d := by
                        intro k args hargs n r d hS hin hval
                        rw [hS.val, ← hval (fun x => if (find init x).isSome = true then
                          look I lit leaf (env ph (kLoopState :: imm) args) fields x
                          else varAt I lit leaf ph P init0 body0 k x) ?_]
                        · apply value_congr
                          intro x hx
                          rw [if_pos (hin x hx)]
                          rfl
                        · have hmut : ∀ x, (find body x).isSome = true →
                              look I lit leaf (env ph (kLoopState :: imm) args) fields x = varAt I lit leaf ph P init0 body0 k x := by
                            intro x hx
                            have hx' : x ∈ expressionNames body0 := by rw [← hnames, mem_names]; exact hx
                            obtain ⟨f, hf⟩ := Option.isSome_iff_exists.1 ((a1 x).2 hx')
                            rw [look, hf]
                            show value I lit leaf (env ph (kLoopState :: imm) args) f = _
                            rw [(a2 x f hf).2.2.2, value_placeholder, env, if_pos (by simp), List.idxOf_cons_self, hargs]
                            show I P.getNth [I P.namedtupleMake _, _] = _
                            apply hT
                            rw [Nat.zero_add, List.getElem?_map, List.getElem?_idxOf hx']
                            rfl
                          have himmv : ∀ x, (find init x).isSome = true → find body x = none →
                              look I lit leaf (env ph (kLoopState :: imm) args) fields x = look I lit leaf ph init x := by
                            intro x hx hbx
                            have hxm : x ∈ imm := (himm x).2 ⟨hx, hbx⟩
                            have hne : kLoopState ≠ x := fun he => S2.1 (he ▸ hxm)
                            have hfx : find fields x = none := by
                              have : ¬ (find fields x).isSome = true := by
                                rw [a1, ← hnames, mem_names, hbx]; simp
                              simpa using this
                            rw [look, hfx]
                            show env ph (kLoopState :: imm) args x = _
                            rw [env, if_pos (by simp [hxm]), List.idxOf_cons_ne _ hne, hargs]
                            show ((List.map (value I lit leaf ph) deps)[imm.idxOf x]?).getD (ph x) = _
                            rw [hpv, List.getElem?_map, List.getElem?_idxOf hxm]
                            show look I lit leaf ph init' x = look I lit leaf ph init x
                            rw [look, look, k1 x hbx]
                          apply agree_of hM.init
                          · intro x hx
                            have hbx : find body x = none := by
                              cases hh : find body x with
                              | none => rfl
                              | some e =>
                                refine absurd hx (hres x ?_)
                                rw [m2 x, hh]; rfl
                            have hbx0 : find body0 x = none := by
                              have := m2 x
                              rw [hbx] at this
                              simpa using this
                            by_cases hi : (find init x).isSome = true
                            · rw [if_pos hi]; exact himmv x hi hbx
                            · rw [if_neg hi, varAt_none _ _ _ _ _ _ _ hbx0, look, initVal]
                              have hn : find init x = none := by simpa using hi
                              rw [hn, hfree x hx]
                          · intro x hx
                            by_cases hi : (find init x).isSome = true
                            · rw [if_pos hi]
                              cases hbx : find body x with
                              | some e => exact hmut x (by rw [hbx]; rfl)
                              | none =>
                                have hbx0 : find body0 x = none := by
                                  have := m2 x
                                  rw [hbx] at this
                                  simpa using this
                                rw [himmv x hi hbx, varAt_none _ _ _ _ _ _ _ hbx0, hlook x hx]
                            · rw [if_neg hi]
                      -- the invariant
                      have inv : ∀ k, argsAt I lit leaf ph ⟨kLoopState :: imm, c, b, initTuple :: deps⟩ k =
                          I P.namedtupleMake (lit (P.fieldNames (expressionNames body0)) ::
                            (expressionNames body0).map (varAt I lit leaf ph P init0 body0 k)) :: deps.map (value I lit leaf ph) := by
                        intro k
                        induction k with
                        | zero =>
                          rw [argsAt, List.map_cons, w1]
                          congr 3
                          apply List.map_congr_left
                          intro x hx
                          rw [mem_names] at hx
                          obtain ⟨e0, he0⟩ := Option.isSome_iff_exists.1 hx
                          obtain ⟨e, he⟩ := Option.isSome_iff_exists.1 (m2 x ▸ hx)
                          obtain ⟨cc, first, q1, q2, q3⟩ := k2 x e he
                          rw [look, q1, varAt, he0]
                          show value I lit leaf ph cc = _
                          rw [q3]
                          have hxr := hres x hx
                          have e1 : value I lit leaf ph first = initVal I lit leaf ph init0 x := by
                            rw [← hlook x hxr, look, q2]; rfl
                          have e2 : value I lit leaf (look I lit leaf ph init) e = value I lit leaf (initVal I lit leaf ph init0) e0 :=
                            (m3 x e0 e he0 he).val D I lit leaf _ _ (agree_of hM.init I lit leaf ph _ _ (fun _ _ => rfl) hlook)
                          rw [e1, e2]
                        | succ k ih =>
                          rw [argsAt, ih]
                          refine congrArg (· :: _) (key k _ rfl bodyTuple b _ S3 ?_ ?_)
                          · intro x hx
                            obtain ⟨x', e, he, hx⟩ := w5 x hx
                            exact hbe x' e he x hx
                          · intro ρ' hag
                            rw [w2]
                            congr 2
                            apply List.map_congr_left
                            intro x hx
                            rw [mem_names] at hx
                            obtain ⟨e0, he0⟩ := Option.isSome_iff_exists.1 hx
                            obtain ⟨e, he⟩ := Option.isSome_iff_exists.1 (m2 x ▸ hx)
                            rw [look, he, varAt, he0]
                            exact (m3 x e0 e he0 he).val D I lit leaf _ _ hag
                      refine ⟨⟨_, inv k⟩, ?_⟩
                      rw [condAt]
                      exact key k _ (inv k) cond c _ S1 hc (fun ρ' hag => hM.cond.val D I lit leaf _ _ hag)

/-! ## When loops are made -/

theorem substitute_accepting {G : Lang O V (Attr Q V) E} (hG : Accepting G) (noValue : Key → E) (σ : Key → Option (Node O V Q))
    (all : Bool) (e : Node O V Q) (hwf : WF G e) (h : all = true → ∀ k, PhIn e k → (σ k).isSome = true) :
    ∃ r, substitutePlaceholders G noValue e σ all = some (.ok r) := by
  have hws : ∀ n, Sub n e → WF G n := fun n hn => wf_sub hwf hn
  obtain ⟨h1, h2, -⟩ := substitute_placeholders G noValue e σ hws
  have h3 : substitutePlaceholders G noValue e σ all = substitutePlaceholders G noValue e σ false := by
    cases all with
    | false => rfl
    | true =>
      refine h2 ?_
      intro n k hn hk
      refine h rfl k ⟨n, hn, ?_⟩
      unfold placeholderKey
      rw [hk]
  rw [h3]
  unfold substitutePlaceholders
  rw [traverse_eq]
  have : ∀ (v : Node O V Q → List (Node O V Q) → Except E (Node O V Q)),
      (∀ n args, WF G n → (n.deps = [] → args = []) → ∃ r, v n args = .ok r) → ∀ n, WF G n → ∃ r, fold v n = .ok r := by
    intro v hv n
    induction n using Expr.ind with
    | h n ih =>
      intro hn
      rw [fold_eq]
      have hd : ∀ ds : List (Node O V Q), (∀ d ∈ ds, ∃ r, fold v d = .ok r) → ∃ rs, folds v ds = .ok rs ∧ (ds = [] → rs = []) := by
        intro ds
        induction ds with
        | nil => intro _; exact ⟨[], by rw [folds], fun _ => rfl⟩
        | cons d ds ihd =>
          intro hds
          obtain ⟨r, hr⟩ := hds d (by simp)
          obtain ⟨rs, hrs, -⟩ := ihd (fun d hd => hds d (by simp [hd]))
          exact ⟨r :: rs, by rw [folds_cons, hr, hrs]; rfl, fun h => by cases h⟩
      obtain ⟨rs, hrs, hnil⟩ := hd n.deps (fun d hd => ih d hd (wf_sub hn (sub_iff.2 (Or.inr ⟨d, hd, sub_iff.2 (Or.inl rfl)⟩))))
      rw [hrs]
      exact hv n rs hn hnil
  refine Exists.imp (fun r h => congrArg some h) (this _ ?_ e hwf)
  intro n args hn hnil
  have hnew : ∃ r, G.withNewDeps n args = .ok r := by
    cases hn with
    | op o a ds hd hi => rw [withNewDeps_op hi]; exact mkOp_accepting hG o args
    | leaf k => rw [hnil rfl]; exact ⟨_, if_pos (by rfl)⟩
    | literal k => rw [hnil rfl]; exact ⟨_, if_pos (by rfl)⟩
    | placeholder k => rw [hnil rfl]; exact ⟨_, if_pos (by rfl)⟩
  beta_reduce
  split
  · split
    · exact ⟨_, rfl⟩
    · rw [if_neg (by simp)]
      exact hnew
  · exact hnew

theorem extract_accepting {G : Lang O V (Attr Q V) E} (hG : Accepting G) (root : Node O V Q) (hwf : WF G root)
    (names : List (Node O V Q)) (x : E) : extractImmutables G root names ≠ some (.error x) := by
  obtain ⟨po, hpo, -, hsub, -, hdep, -⟩ := post_order root
  have hv : ∀ n visits st, WF G n → (n.deps = [] → visits = []) → ∀ x : E, extractVisit G n visits st ≠ .error x := by
    intro n visits st hn hnil x h
    unfold extractVisit at h
    cases hn with
    | leaf k => exact absurd (show (Except.ok _ : Except E (Visit O V Q × St O V Q)) = _ from h) (by simp)
    | placeholder k => exact absurd (show (Except.ok _ : Except E (Visit O V Q × St O V Q)) = _ from h) (by simp)
    | literal k =>
      rw [hnil rfl] at h
      exact absurd (show (Except.ok _ : Except E (Visit O V Q × St O V Q)) = _ from h) (by simp)
    | op o a ds hd hi =>
      rw [if_neg (by simp [isPlaceholder, placeholderKey, Expr.label]), if_neg (by simp [isLeaf, leafKey, Expr.label])] at h
      simp only at h
      split at h
      · cases h
      · rw [withNewDeps_op hi] at h
        obtain ⟨r, hr⟩ := mkOp_accepting hG o (depLoop G visits st).1
        rw [hr] at h
        cases h
  have hl : ∀ (m i : Nat) (results : List (Visit O V Q)) (st : St O V Q) (x : E),
      extractLoop G po m i results st ≠ some (.error x) := by
    intro m
    induction m with
    | zero =>
      intro i results st x h
      rw [extractLoop] at h
      cases hg : results.getLast? <;> rw [hg] at h <;> cases h
    | succ m ih =>
      intro i results st x h
      rw [extractLoop] at h
      cases hi : po.nodes[i]? with
      | none => rw [hi] at h; cases h
      | some n =>
        obtain ⟨ix, d1, d2, d3⟩ := hdep i n hi
        rw [hi, d1] at h
        simp only at h
        cases hg : gather results ix with
        | none => rw [hg] at h; cases h
        | some args =>
          rw [hg] at h
          simp only at h
          have hnil : n.deps = [] → args = [] := by
            intro hn
            rw [hn] at d2
            cases ix with
            | nil => rw [gather] at hg; cases hg; rfl
            | cons a b => simp at d2
          cases hx : extractVisit G n args st with
          | error y => exact hv n args st (wf_sub hwf ((hsub n).1 (List.mem_of_getElem? hi))) hnil y hx
          | ok r =>
            rw [hx] at h
            exact ih _ _ _ _ h
  intro h
  unfold extractImmutables at h
  rw [hpo] at h
  simp only at h
  cases hx : extractLoop G po po.nodes.length 0 [] ⟨names, []⟩ with
  | none => rw [hx] at h; cases h
  | some r =>
    cases r with
    | error y => exact hl _ _ _ _ _ hx
    | ok r =>
      rw [hx] at h
      simp only at h
      split at h <;> cases h

theorem moveLoop_accepting {G : Lang O V (Attr Q V) E} (hG : Accepting G) : ∀ (body : Named O V Q) (names : List (Node O V Q))
    (init : Named O V Q) (x : Err E), (∀ e ∈ body, WF G e.2) → moveLoop G body names init ≠ some (.error x) := by
  intro body
  induction body with
  | nil => intro names init x _ h; rw [moveLoop] at h; cases h
  | cons e rest ih =>
    intro names init x hwf h
    obtain ⟨k, e⟩ := e
    rw [moveLoop] at h
    cases hx : extractImmutables G e names with
    | none => rw [hx] at h; cases h
    | some r =>
      cases r with
      | error y => exact extract_accepting hG e (hwf (k, e) (by simp)) names y hx
      | ok r =>
        rw [hx] at h
        simp only at h
        cases hm : moveLoop G rest r.2.names (merge init r.2.imms) with
        | none => rw [hm] at h; cases h
        | some y =>
          cases y with
          | error y => exact ih _ _ y (fun e he => hwf e (by simp [he])) hm
          | ok y => rw [hm] at h; cases h

theorem castLoop_accepting {G : Lang O V (Attr Q V) E} (hG : Accepting G) (P : Ops O V) (noValue : Key → E) (init : Named O V Q) :
    ∀ (body new : Named O V Q) (x : Err E), (∀ e ∈ body, WF G e.2 ∧ ∀ k, PhIn e.2 k → (find init k).isSome = true) →
    castLoop G P noValue init body new ≠ some (.error x) := by
  intro body
  induction body with
  | nil => intro new x _ h; rw [castLoop] at h; cases h
  | cons e rest ih =>
    intro new x hb h
    obtain ⟨k, e⟩ := e
    obtain ⟨h1, h2⟩ := hb (k, e) (by simp)
    obtain ⟨r, hr⟩ := substitute_accepting hG noValue (find init) true e h1 (fun _ => h2)
    rw [castLoop, hr] at h
    simp only at h
    cases hf : find init k with
    | none => rw [hf] at h; cases h
    | some first =>
      rw [hf] at h
      simp only at h
      obtain ⟨q, hq⟩ := mkOp_accepting hG P.qtypeOf [r]
      rw [hq] at h
      simp only at h
      obtain ⟨c, hc⟩ := mkOp_accepting hG P.cast [first, q, literal G P.true_]
      rw [hc] at h
      exact ih _ x (fun e he => hb e (by simp [he])) h

/-- `makeLambda` of an expression without leaves whose placeholders are parameters or fields. -/
theorem makeLambda_total {G : Lang O V (Attr Q V) E} {noValue : Key → E} {params : List Key} {e : Node O V Q} {fields : Named O V Q}
    (hwf : WF G e) (hf : ∀ k f, find fields k = some f → WF G f) :
    makeLambda G noValue params e fields ≠ none ∧
    (Accepting G → ¬ LeafIn e → (∀ k f, find fields k = some f → ¬ LeafIn f ∧ ∀ x, PhIn f x → x ∈ params) →
      (∀ k, PhIn e k → find fields k = none → k ∈ params) → params.Nodup →
      ∃ r, makeLambda G noValue params e fields = some (.ok r)) := by
  obtain ⟨s1, s2⟩ := substitute_spec G noValue (find fields) false e hwf
  unfold makeLambda
  cases hs : substitutePlaceholders G noValue e (find fields) false with
  | none => exact absurd hs s1
  | some x =>
    cases x with
    | error x =>
      refine ⟨by simp, fun hG => ?_⟩
      obtain ⟨r, hr⟩ := substitute_accepting hG noValue (find fields) false e hwf (fun h => by cases h)
      rw [hs] at hr; cases hr
    | ok r =>
      have hS := s2 r hs
      obtain ⟨m1, m2⟩ := Lambda.make_accepts G params false r (hS.wf hf)
      simp only
      refine ⟨?_, ?_⟩
      · cases hm : Lambda.make (E := E) params false r with
        | none => exact absurd hm m1
        | some y => cases y <;> simp
      · intro _ hle hff hph hnd
        have h1 : ∀ m, Sub m r → leafKey m = none := by
          intro m hm
          cases hk : leafKey m with
          | none => rfl
          | some k =>
            rcases hS.leaf ⟨m, hm, by rw [hk]; simp⟩ with h' | ⟨k', f, -, h', h''⟩
            · exact absurd h' hle
            · exact absurd h'' (hff k' f h').1
        have h2 : ∀ m, Sub m r → ∀ k, placeholderKey m = some k → k ∈ params := by
          intro m hm k hk
          rcases hS.ph k ⟨m, hm, hk⟩ with ⟨h', h''⟩ | ⟨k', f, -, h', h''⟩
          · exact hph k h' h''
          · exact (hff k' f h').2 k h''
        obtain ⟨L, hL⟩ := m2.2 ⟨hnd, (fun h => nomatch h), h1, h2⟩
        rw [hL]
        exact ⟨r, rfl⟩

theorem nodup_emplace {m : List (Key × T)} (h : (m.map (·.1)).Nodup) (k : Key) (t : T) : ((emplace m k t).map (·.1)).Nodup := by
  unfold emplace
  split
  · exact h
  · rename_i hk
    rw [List.map_append, List.nodup_append]
    refine ⟨h, by simp, ?_⟩
    intro a ha b hb he
    simp only [List.map_cons, List.map_nil, List.mem_singleton] at hb
    rw [mem_keys_iff] at ha
    exact hk (hb ▸ he ▸ ha)

theorem nodup_merge : ∀ (other m : List (Key × T)), (m.map (·.1)).Nodup → ((merge m other).map (·.1)).Nodup := by
  intro other
  induction other with
  | nil => intro m h; exact h
  | cons e rest ih => intro m h; rw [merge]; exact ih _ (nodup_emplace h e.1 e.2)

theorem nodup_moveLoop {G : Lang O V (Attr Q V) E} : ∀ (body : Named O V Q) (names : List (Node O V Q)) (init : Named O V Q)
    (names' : List (Node O V Q)) (init' body' : Named O V Q), (init.map (·.1)).Nodup →
    moveLoop G body names init = some (.ok (names', init', body')) → (init'.map (·.1)).Nodup := by
  intro body
  induction body with
  | nil =>
    intro names init names' init' body' hn h
    rw [moveLoop] at h
    cases h
    exact hn
  | cons e rest ih =>
    intro names init names' init' body' hn h
    obtain ⟨k, e⟩ := e
    rw [moveLoop] at h
    cases hx : extractImmutables G e names with
    | none => rw [hx] at h; cases h
    | some r =>
      cases r with
      | error y => rw [hx] at h; cases h
      | ok r =>
        rw [hx] at h
        simp only at h
        cases hm : moveLoop G rest r.2.names (merge init r.2.imms) with
        | none => rw [hm] at h; cases h
        | some y =>
          cases y with
          | error y => rw [hm] at h; cases h
          | ok y =>
            rw [hm] at h
            cases h
            exact ih _ _ _ _ _ (nodup_merge _ _ hn) hm

theorem nodup_move {G : Lang O V (Attr Q V) E} {init : Named O V Q} {cond : Node O V Q} {body : Named O V Q} {init' : Named O V Q}
    {cond' : Node O V Q} {body' : Named O V Q} (hn : (init.map (·.1)).Nodup)
    (h : moveImmutables G init cond body = some (.ok (init', cond', body'))) : (init'.map (·.1)).Nodup := by
  unfold moveImmutables at h
  split at h
  · cases h
  cases hm : moveLoop G body [] init with
  | none => rw [hm] at h; cases h
  | some y =>
    cases y with
    | error y => rw [hm] at h; cases h
    | ok y =>
      obtain ⟨names1, init1, body1⟩ := y
      rw [hm] at h
      simp only at h
      cases hx : extractImmutables G cond names1 with
      | none => rw [hx] at h; cases h
      | some r =>
        cases r with
        | error y => rw [hx] at h; cases h
        | ok r =>
          rw [hx] at h
          cases h
          exact nodup_merge _ _ (nodup_moveLoop _ _ _ _ _ _ hn hm)

/-- `finish` when everything has an initial value. -/
theorem finish_total {G : Lang O V (Attr Q V) E} {P : Ops O V} {noValue : Key → E} {init0 : Named O V Q} {cond0 : Node O V Q}
    {body0 : Named O V Q} {names : List (Node O V Q)} {init : Named O V Q} {cond : Node O V Q} {body : Named O V Q}
    (hM : Moved G init0 cond0 body0 names init cond body) (hnd : (body0.map (·.1)).Nodup) (hni : (init.map (·.1)).Nodup)
    (hb : ∀ k, (find body k).isSome = true → (find init k).isSome = true)
    (hc : ∀ k, PhIn cond k → (find init k).isSome = true)
    (hbe : ∀ x e, find body x = some e → ∀ k, PhIn e k → (find init k).isSome = true) :
    finish G P noValue init cond body ≠ none ∧
    (Accepting G → ((∃ W, finish G P noValue init cond body = some (.ok W)) ↔
      ¬ ((find init kLoopState).isSome = true ∧ find body kLoopState = none))) := by
  obtain ⟨m1, m2, m3⟩ := moved_find hM.body
  have hbnd : (body.map (·.1)).Nodup := by rw [m1]; exact hnd
  have hbd : ∀ x e, find body x = some e → ∃ e0, DOk G names e0 e := by
    intro x e he
    have h2 := m2 x
    rw [he] at h2
    obtain ⟨e0, he0⟩ := Option.isSome_iff_exists.1 h2
    exact ⟨e0, m3 x e0 e he0 he⟩
  have hbwf : ∀ x e, find body x = some e → WF G e := fun x e he => (hbd x e he).elim (fun _ h => h.wf)
  have hbm : ∀ e ∈ body, find body e.1 = some e.2 := fun e he => find_of_mem hbnd he
  unfold finish
  obtain ⟨c1, c2⟩ := castLoop_spec (P := P) (noValue := noValue) (init := init) body init hbnd (fun e he => hbwf e.1 e.2 (hbm e he))
  have c1 := c1 (fun e he => hb e.1 (by rw [hbm e he]; rfl))
  have c3 := fun hG x => castLoop_accepting (G := G) hG P noValue init body init x (fun e he => ⟨hbwf e.1 e.2 (hbm e he), hbe e.1 e.2 (hbm e he)⟩)
  cases hcl : castLoop G P noValue init body init with
  | none => exact absurd hcl c1
  | some x =>
    cases x with
    | error x => exact ⟨by simp, fun hG => absurd hcl (c3 hG x)⟩
    | ok init' =>
      obtain ⟨k1, k2⟩ := c2 init' hcl
      simp only
      generalize him : (expressionNames init).filter (fun k => !(expressionNames body).contains k) = imm
      have himm : ∀ x, x ∈ imm ↔ (find init x).isSome = true ∧ find body x = none := by
        intro x
        rw [← him, List.mem_filter, mem_names]
        simp only [Bool.not_eq_true', List.contains_eq_mem, decide_eq_false_iff_not, mem_names]
        simp
      have hin : ∀ k, (find body k).isSome = true → (find init' k).isSome = true := by
        intro k hk
        obtain ⟨e, he⟩ := Option.isSome_iff_exists.1 hk
        obtain ⟨c, first, q, -⟩ := k2 k e he
        rw [q]; rfl
      have himn : imm.Nodup := by
        rw [← him]
        exact ((sortKeys_spec _).1.nodup_iff.2 hni).filter _
      cases hw1 : wrapAsTuple G P init' (expressionNames body) with
      | error x =>
        refine ⟨by simp, fun hG => ?_⟩
        obtain ⟨t, ht⟩ := wrap_accepting hG P (m := init') (ks := expressionNames body) (fun k hk => hin k ((mem_names _ _).1 hk))
        rw [hw1] at ht; cases ht
      | ok initTuple =>
        simp only
        cases hw2 : wrapAsTuple G P body (expressionNames body) with
        | error x =>
          refine ⟨by simp, fun hG => ?_⟩
          obtain ⟨t, ht⟩ := wrap_accepting hG P (m := body) (ks := expressionNames body) (fun k hk => (mem_names _ _).1 hk)
          rw [hw2] at ht; cases ht
        | ok bodyTuple =>
          simp only
          obtain ⟨-, w3⟩ := wrap_spec hw2
          obtain ⟨w3, w4, w5⟩ := w3 hbwf
          cases hp : pick init' imm with
          | none =>
            refine absurd hp ((pick_spec imm).1 ?_)
            intro k hk
            obtain ⟨g1, g2⟩ := (himm k).1 hk
            rw [k1 k g2]; exact g1
          | some deps =>
            simp only
            cases ha : accessors G P (placeholder G kLoopState) (expressionNames body) 0 with
            | error x =>
              refine ⟨by simp, fun hG => ?_⟩
              obtain ⟨t, ht⟩ := accessors_accepting hG P (placeholder G kLoopState) (expressionNames body) 0
              rw [ha] at ht; cases ht
            | ok fields =>
              simp only
              obtain ⟨p1, p2, p3⟩ := placeholder_facts G kLoopState (Q := Q)
              obtain ⟨a1, a2⟩ := accessors_spec p1 _ 0 fields ha
              have hfw : ∀ k f, find fields k = some f → WF G f := fun k f hf => (a2 k f hf).1
              have hff : ∀ k f, find fields k = some f → ¬ LeafIn f ∧ ∀ x, PhIn f x → x ∈ kLoopState :: imm := by
                intro k f hf
                obtain ⟨-, g2, g3, -⟩ := a2 k f hf
                refine ⟨fun h => p2 (g2 h), ?_⟩
                intro x hx
                rw [p3 x (g3 x hx)]
                simp
              have hph : ∀ e : Node O V Q, (∀ k, PhIn e k → (find init k).isSome = true) → ∀ k, PhIn e k → find fields k = none →
                  k ∈ kLoopState :: imm := by
                intro e he k hk hf
                refine List.mem_cons.2 (Or.inr ((himm k).2 ⟨he k hk, ?_⟩))
                have : ¬ (find fields k).isSome = true := by rw [hf]; simp
                rw [a1, mem_names] at this
                simpa using this
              obtain ⟨l1, l2⟩ := makeLambda_total (noValue := noValue) (params := kLoopState :: imm) hM.cond.wf hfw
              obtain ⟨l3, l4⟩ := makeLambda_total (noValue := noValue) (params := kLoopState :: imm) w3 hfw
              have hnd' : (kLoopState :: imm).Nodup ↔ ¬ ((find init kLoopState).isSome = true ∧ find body kLoopState = none) := by
                rw [List.nodup_cons, himm]
                exact ⟨fun h => h.1, fun h => ⟨h, himn⟩⟩
              have l5 : Accepting G → ¬ ((find init kLoopState).isSome = true ∧ find body kLoopState = none) →
                  (∃ r, makeLambda G noValue (kLoopState :: imm) cond fields = some (.ok r)) ∧
                  ∃ r, makeLambda G noValue (kLoopState :: imm) bodyTuple fields = some (.ok r) := by
                intro hG hn
                refine ⟨l2 hG hM.cond.noLeaf hff (hph cond hc) (hnd'.2 hn), l4 hG ?_ hff (hph bodyTuple ?_) (hnd'.2 hn)⟩
                · intro hl
                  obtain ⟨k, e, he, hl⟩ := w4 hl
                  obtain ⟨e0, hd⟩ := hbd k e he
                  exact hd.noLeaf hl
                · intro x hx
                  obtain ⟨k, e, he, hx⟩ := w5 x hx
                  exact hbe k e he x hx
              cases hl1 : makeLambda G noValue (kLoopState :: imm) cond fields with
              | none => exact absurd hl1 l1
              | some y =>
                cases y with
                | error y =>
                  refine ⟨by simp, fun hG => ⟨fun h => ?_, fun h => ?_⟩⟩
                  · obtain ⟨W, hW⟩ := h; cases hW
                  · obtain ⟨⟨r, hr⟩, -⟩ := l5 hG h
                    rw [hl1] at hr; cases hr
                | ok c =>
                  simp only
                  cases hl2 : makeLambda G noValue (kLoopState :: imm) bodyTuple fields with
                  | none => exact absurd hl2 l3
                  | some z =>
                    cases z with
                    | error z =>
                      refine ⟨by simp, fun hG => ⟨fun h => ?_, fun h => ?_⟩⟩
                      · obtain ⟨W, hW⟩ := h; cases hW
                      · obtain ⟨-, r, hr⟩ := l5 hG h
                        rw [hl2] at hr; cases hr
                    | ok b =>
                      refine ⟨by simp, fun hG => ⟨fun _ => ?_, fun _ => ⟨_, rfl⟩⟩⟩
                      exact hnd'.1 (makeLambda_ok hM.cond.wf hl1).2

end Verif.While
