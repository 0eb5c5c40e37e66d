import Verif.Opt.SubstLemmas
import Verif.Expr.VisitorProps

/-!
# C76: pattern based optimizations
-/

namespace Verif.Opt
open Verif.Expr
variable {O V A E N : Type} [DecidableEq O] [DecidableEq V] [DecidableEq A] [DecidableEq N]

/-- `k` is the key of a placeholder of `t`. -/
def HasKey (t : Expr O V A) (k : List Nat) : Prop := ∃ n, Sub n t ∧ n.label = .placeholder k

/-- A leaf occurs in `t`. -/
def HasLeaf (t : Expr O V A) : Prop := ∃ n k, Sub n t ∧ n.label = .leaf k

theorem leafKey_some {n : Expr O V A} {k : List Nat} : leafKey n = some k ↔ n.label = .leaf k := by
  unfold leafKey; cases n.label <;> simp

theorem placeholderKey_some {n : Expr O V A} {k : List Nat} : placeholderKey n = some k ↔ n.label = .placeholder k := by
  unfold placeholderKey; cases n.label <;> simp

/-- When the pattern is verified. -/
theorem verify_eq {G : Lang O V A E} {src dst : Expr O V A} {ms : Matchers O V A} (hs : ∀ n, Sub n src → WF G n)
    (hd : ∀ n, Sub n dst → WF G n) : ∃ res, verifyPattern (E := E) src dst ms = some res ∧
      (res = .ok () ↔ (∀ k, src.label ≠ .placeholder k) ∧ ¬ HasLeaf src ∧ ¬ HasLeaf dst ∧
        (∀ k, HasKey dst k → HasKey src k) ∧ ∀ m ∈ ms, HasKey src m.1) := by
  unfold verifyPattern
  cases hp : placeholderKey src with
  | some k =>
    refine ⟨_, rfl, ?_⟩
    constructor
    · intro h; cases h
    · intro h; exact absurd (placeholderKey_some.1 hp) (h.1 k)
  | none =>
    obtain ⟨lf, _, e1, _, _, _, m1⟩ := leaf_keys G src hs leafKey (Or.inl rfl)
    obtain ⟨lt, _, e2, _, _, _, m2⟩ := leaf_keys G dst hd leafKey (Or.inl rfl)
    obtain ⟨pf, _, e3, _, _, _, m3⟩ := leaf_keys G src hs placeholderKey (Or.inr rfl)
    obtain ⟨pt, _, e4, _, _, _, m4⟩ := leaf_keys G dst hd placeholderKey (Or.inr rfl)
    rw [e1, e2, e3, e4]
    dsimp only
    have nopl : ∀ k, src.label ≠ .placeholder k := by
      intro k hk
      rw [placeholderKey_some.2 hk] at hp; cases hp
    have hlf : lf = [] ↔ ¬ HasLeaf src := by
      rw [List.eq_nil_iff_forall_not_mem]
      constructor
      · rintro h ⟨n, k, h1, h2⟩; exact h k ((m1 k).2 ⟨n, h1, leafKey_some.2 h2⟩)
      · intro h k hk
        obtain ⟨n, h1, h2⟩ := (m1 k).1 hk
        exact h ⟨n, k, h1, leafKey_some.1 h2⟩
    have hlt : lt = [] ↔ ¬ HasLeaf dst := by
      rw [List.eq_nil_iff_forall_not_mem]
      constructor
      · rintro h ⟨n, k, h1, h2⟩; exact h k ((m2 k).2 ⟨n, h1, leafKey_some.2 h2⟩)
      · intro h k hk
        obtain ⟨n, h1, h2⟩ := (m2 k).1 hk
        exact h ⟨n, k, h1, leafKey_some.1 h2⟩
    have hpf : ∀ k, k ∈ pf ↔ HasKey src k := by
      intro k; rw [m3]
      simp only [placeholderKey_some]; rfl
    have hpt : ∀ k, k ∈ pt ↔ HasKey dst k := by
      intro k; rw [m4]
      simp only [placeholderKey_some]; rfl
    have hto : pt.filter (fun k => k ∉ pf) = [] ↔ ∀ k, HasKey dst k → HasKey src k := by
      rw [List.filter_eq_nil_iff]
      simp only [hpt, hpf, decide_eq_true_eq, Classical.not_not]
    have hms : (ms.map (·.1)).filter (fun k => k ∉ pf) = [] ↔ ∀ m ∈ ms, HasKey src m.1 := by
      rw [List.filter_eq_nil_iff]
      simp only [hpf, decide_eq_true_eq, Classical.not_not, List.mem_map, forall_exists_index, and_imp, forall_apply_eq_imp_iff₂]
    rw [← hlf, ← hlt, ← hto, ← hms]
    by_cases c1 : lf ≠ [] ∨ lt ≠ []
    · rw [if_pos c1]
      refine ⟨_, rfl, ?_⟩
      constructor
      · intro h; cases h
      · intro h; rcases c1 with c | c
        · exact absurd h.2.1 c
        · exact absurd h.2.2.1 c
    · rw [if_neg c1]
      push Not at c1
      by_cases c2 : pt.filter (fun k => k ∉ pf) = []
      · rw [if_neg (by simpa using c2)]
        by_cases c3 : (ms.map (·.1)).filter (fun k => k ∉ pf) = []
        · rw [if_neg (by simpa using c3)]
          exact ⟨_, rfl, fun _ => ⟨nopl, c1.1, c1.2, c2, c3⟩, fun _ => rfl⟩
        · rw [if_pos c3]
          refine ⟨_, rfl, ?_⟩
          constructor
          · intro h; cases h
          · intro h; exact absurd h.2.2.2.2 c3
      · rw [if_pos c2]
        refine ⟨_, rfl, ?_⟩
        constructor
        · intro h; cases h
        · intro h; exact absurd h.2.2.2.1 c2

theorem cinv_init (name : O → N) (ms : Matchers O V A) (src : Expr O V A) :
    CInv name ms src 0 ⟨[src], [], ⟨0, [], [], [], []⟩⟩ := by
  refine ⟨by simp, rfl, rfl, ?_, ?_, ?_, ?_, ?_, ?_⟩
  · intro j n hj; omega
  · intro n s h; cases h
  · intro a h; cases h
  · intro a h; cases h
  · intro a h; cases h
  · intro n hn
    have : n = src := by simpa using hn
    subst this
    exact .refl _

theorem memMapping_ok {seen : List (Expr O V A × Nat)} : ∀ {ns : List (Expr O V A)} {i : Nat},
    (∀ n k, n ∈ ns → n.label = .placeholder k → ∃ s, lookup seen n = some s) → ∃ m, memMapping (E := E) seen i ns = .ok m := by
  intro ns
  induction ns with
  | nil => intro i _; exact ⟨[], rfl⟩
  | cons n ns ih =>
    intro i h
    obtain ⟨m, hm⟩ := ih (i := i + 1) (fun n k hn => h n k (List.mem_cons_of_mem _ hn))
    rw [memMapping]
    cases hl : n.label with
    | placeholder k =>
      obtain ⟨s, hs⟩ := h n k (by simp) hl
      dsimp only
      rw [hs, hm]
      exact ⟨_, rfl⟩
    | leaf k => exact ⟨m, hm⟩
    | literal v => exact ⟨m, hm⟩
    | op o => exact ⟨m, hm⟩

/-- The placeholders of the resolved right-hand side are those of the right-hand side. -/
theorem resolve_keys {G : Lang O V A E} {resolve : O → Option O} {t r : Expr O V A} (h : Plain G t)
    (hr : resolveRefs G resolve t = .ok r) (k : List Nat) : HasKey r k → HasKey t k := by
  rw [resolveRefs_eq] at hr
  induction t using Expr.ind generalizing r with
  | h n ih =>
    rw [fold_eq] at hr
    cases hds : folds (transformNode G (resolveNode G resolve)) n.deps with
    | error e => rw [hds] at hr; cases hr
    | ok xs =>
      rw [hds] at hr
      simp only [Except.bind] at hr
      have hxs : ∀ x ∈ xs, HasKey x k → HasKey n k := by
        rintro x hx hk
        obtain ⟨d, hd, he⟩ := folds_mem hds hx
        obtain ⟨m, h1, h2⟩ := ih d hd (plain_dep h hd) he hk
        exact ⟨m, .dep h1 hd, h2⟩
      unfold transformNode at hr
      have same : resolveNode G resolve n = .ok r → (∀ o, n.label ≠ .op o) → HasKey r k → HasKey n k := by
        intro he hno
        unfold resolveNode at he
        cases hl : n.label with
        | op o => exact absurd hl (hno o)
        | _ => rw [hl] at he; cases he; exact id
      cases hl : n.label with
      | op o =>
        rw [hl] at hr
        dsimp only at hr
        have fin : ∀ m : Expr O V A, m.label = .op o → (∀ d ∈ m.deps, HasKey d k → HasKey n k) → resolveNode G resolve m = .ok r →
            HasKey r k → HasKey n k := by
          intro m hm hd he
          have hrr : (∃ o', r.label = .op o') ∧ r.deps = m.deps := by
            unfold resolveNode at he
            rw [hm] at he
            dsimp only at he
            cases hres : resolve o with
            | none => rw [hres] at he; cases he; exact ⟨⟨o, hm⟩, rfl⟩
            | some o' => rw [hres] at he; dsimp only at he; cases he; exact ⟨⟨o', rfl⟩, rfl⟩
          rintro ⟨x, hx1, hx2⟩
          rcases sub_cases hx1 with rfl | ⟨d, hd', hx⟩
          · obtain ⟨⟨o', ho'⟩, _⟩ := hrr
            rw [ho'] at hx2; cases hx2
          · exact hd d (hrr.2 ▸ hd') ⟨x, hx, hx2⟩
        by_cases hx : xs = n.deps
        · rw [if_pos hx] at hr
          exact fin n hl (fun d hd => hxs d (hx ▸ hd)) hr
        · rw [if_neg hx] at hr
          unfold Lang.mkOp at hr
          split at hr
          · cases hr
          · exact fin (.mk (.op o) _ xs) rfl hxs hr
      | leaf k => rw [hl] at hr; exact same hr (by simp [hl])
      | placeholder k => rw [hl] at hr; exact same hr (by simp [hl])
      | literal v => rw [hl] at hr; exact same hr (by simp [hl])

/-- What a successful compilation has computed. -/
structure Good (G : Lang O V A E) (name : O → N) (resolve : O → Option O) (src dst : Expr O V A) (ms : Matchers O V A)
    (c : Compiled O V A N) : Prop where
  ex : ∃ (cc : Comp O V A N) (dst' : Expr O V A), CInv name ms src cc.memory.length cc ∧ resolveRefs G resolve dst = .ok dst' ∧
    postOrder dst' = some c.po ∧ memMapping (E := E) cc.seen 0 c.po.nodes = .ok c.mapping ∧
    c.plan = { cc.plan with capacity := cc.memory.length }

theorem compile_cases {G : Lang O V A E} (name : O → N) (resolve : O → Option O) {src dst : Expr O V A} {ms : Matchers O V A}
    (hs : ∀ n, Sub n src → WF G n) (hd : ∀ n, Sub n dst → WF G n) :
    ∃ res, compilePattern G name resolve src dst ms = some res ∧
      ((∃ c, res = .ok c) ↔ ((∀ k, src.label ≠ .placeholder k) ∧ ¬ HasLeaf src ∧ ¬ HasLeaf dst ∧
        (∀ k, HasKey dst k → HasKey src k) ∧ ∀ m ∈ ms, HasKey src m.1) ∧ ∃ dst', resolveRefs G resolve dst = .ok dst') ∧
      (∀ c, res = .ok c → Good G name resolve src dst ms c) := by
  obtain ⟨vres, hv1, hv2⟩ := verify_eq (ms := ms) hs hd
  unfold compilePattern
  rw [hv1]
  cases vres with
  | error e =>
    refine ⟨_, rfl, ⟨?_, ?_⟩, ?_⟩
    · rintro ⟨c, h⟩; cases h
    · rintro ⟨h, _⟩; have := hv2.2 h; cases this
    · intro c h; cases h
  | ok u =>
    have hok := hv2.1 rfl
    dsimp only
    rcases compileLoop_inv (E := E) (src.size + 1) 0 _ (cinv_init name ms src)
      (by show Expr.sizes [src] < src.size + 1; simp [Expr.sizes]) with ⟨cc, e1, e2⟩ | ⟨_, n, k, h1, h2⟩
    swap
    · exact absurd ⟨n, k, h1, h2⟩ hok.2.1
    rw [e1]
    dsimp only
    rcases transform_eq G (resolveNode G resolve) dst with ⟨e, t1, t2⟩ | ⟨r, calls, nodes, t1, t2, _⟩
    · rw [t2]
      refine ⟨_, rfl, ⟨?_, ?_⟩, ?_⟩
      · rintro ⟨c, h⟩; cases h
      · rintro ⟨_, r, h⟩
        rw [resolveRefs_eq] at h
        rw [t1] at h; cases h
      · intro c h; cases h
    · have t1' := t1
      rw [← resolveRefs_eq] at t1'
      rw [t2]
      dsimp only
      obtain ⟨po, hpo, _, hsub, _⟩ := post_order r
      rw [hpo]
      dsimp only
      have hpl := resolve_plain (plain_of_wf hd) t1'
      have hpls := plain_of_wf hs
      obtain ⟨m, hm⟩ := memMapping_ok (E := E) (seen := cc.seen) (ns := po.nodes) (i := 0) (by
        intro n k hn hl
        have hn' := (hsub n).1 hn
        obtain ⟨n2, h1, h2⟩ := hok.2.2.2.1 k (resolve_keys (plain_of_wf hd) t1' k ⟨n, hn', hl⟩)
        have e : n2 = n := by rw [(hpl n hn').2 k hl, (hpls n2 h1).2 k h2]
        subst e
        obtain ⟨j, hj⟩ := List.mem_iff_getElem?.1 (sub_mem e2 (fun n hn hd => wf_deps (hs n (e2.sub n hn)) hd) h1)
        obtain ⟨s, q, _⟩ := e2.seen j n2 (List.getElem?_eq_some_iff.1 hj).1 hj
        exact ⟨s, q⟩)
      rw [hm]
      refine ⟨_, rfl, ⟨fun _ => ⟨hok, r, t1'⟩, fun _ => ⟨_, rfl⟩⟩, ?_⟩
      intro c hc
      cases hc
      exact ⟨cc, r, e2, t1', hpo, hm, rfl⟩

/-- **Creation.**  `CreatePatternBasedOptimization(from, to, matchers)` ends, and succeeds exactly if `from` is not a
placeholder, `from` and `to` have no leaves, the placeholders of `to` and the keys of the matchers are placeholders of `from`,
and references to registered operators in `to` can be resolved. -/
theorem create_rule (G : Lang O V A E) (name : O → N) (resolve : O → Option O) (src dst : Expr O V A) (ms : Matchers O V A)
    (hs : ∀ n, Sub n src → WF G n) (hd : ∀ n, Sub n dst → WF G n) :
    ∃ res, compilePattern G name resolve src dst ms = some res ∧
      ((∃ c, res = .ok c) ↔ (∀ k, src.label ≠ .placeholder k) ∧ ¬ HasLeaf src ∧ ¬ HasLeaf dst ∧
        (∀ k, HasKey dst k → HasKey src k) ∧ (∀ m ∈ ms, HasKey src m.1) ∧ ∃ dst', resolveRefs G resolve dst = .ok dst') := by
  obtain ⟨res, h1, h2, _⟩ := compile_cases (ms := ms) name resolve hs hd
  refine ⟨res, h1, h2.trans ?_⟩
  constructor
  · rintro ⟨⟨a, b, c, d, e⟩, f⟩; exact ⟨a, b, c, d, e, f⟩
  · rintro ⟨a, b, c, d, e, f⟩; exact ⟨⟨a, b, c, d, e⟩, f⟩

/-- The placeholder node of a key. -/
def ph (G : Lang O V A E) (k : List Nat) : Expr O V A := .mk (.placeholder k) G.noAttr []

/-- **Application.**  For every expression, a pattern optimization never reads memory that is not set; it rewrites the expression
exactly if it is an instance of `from` whose placeholders satisfy their matchers, equal subexpressions of `from` standing for
equal subexpressions; the result then is `to` with the same subexpressions for the placeholders, and the expression itself
otherwise. -/
theorem apply_rule (G : Lang O V A E) (name : O → N) (resolve : O → Option O) (src dst : Expr O V A) (ms : Matchers O V A)
    (hs : ∀ n, Sub n src → WF G n) (hd : ∀ n, Sub n dst → WF G n) (c : Compiled O V A N)
    (hc : compilePattern G name resolve src dst ms = some (.ok c)) (root : Expr O V A) :
    ∃ dst', resolveRefs G resolve dst = .ok dst' ∧
      (∀ φ, Matches name (findMatcher ms) src root φ → applyToRoot G name c root = some (instTo G (fun k => φ (ph G k)) dst')) ∧
      ((¬ ∃ φ, Matches name (findMatcher ms) src root φ) → applyToRoot G name c root = some (.ok root)) := by
  obtain ⟨res, h1, _, h2⟩ := compile_cases (ms := ms) name resolve hs hd
  rw [hc] at h1; cases h1
  obtain ⟨cc, dst', i1, i2, i3, i4, i5⟩ := (h2 c rfl).ex
  refine ⟨dst', i2, ?_, ?_⟩
  · intro φ hφ
    unfold applyToRoot
    rw [i5, match_complete (G := G) i1 hφ]
    dsimp only
    have hpl := resolve_plain (plain_of_wf hd) i2
    refine substitute_eq i3 hpl i4 ?_
    intro n k s hl hs' hn
    rw [readMem_map (i1.first n s hs').1, (hpl n hn).2 k hl]
    rfl
  · intro hno
    unfold applyToRoot
    rw [i5]
    rcases match_sound (root := root) i1 hs with h | h
    · rw [h]
    · exact absurd h hno

/-! ## Values -/

section Values
variable {D : Type} (sem : N → List D → D) (lit : V → D) (leaf pl : List Nat → D) (name : O → N)

/-- The value of an instance is the value of the pattern. -/
theorem value_instance {G : Lang O V A E} {src : Expr O V A} {φ : Expr O V A → Expr O V A} (h : Instance name src φ)
    (hs : ∀ n, Sub n src → WF G n) (hleaf : ¬ HasLeaf src) :
    ∀ s, Sub s src → value (fun o => sem (name o)) lit leaf pl (φ s) =
      value (fun o => sem (name o)) lit leaf (fun k => value (fun o => sem (name o)) lit leaf pl (φ (ph G k))) s := by
  intro s
  induction s using Expr.ind with
  | h s ih =>
    intro hsub
    have hi := h s hsub
    have hw := hs s hsub
    cases hl : s.label with
    | leaf k => exact absurd ⟨s, k, hsub, hl⟩ hleaf
    | placeholder k =>
      have := (plain_of_wf hs s hsub).2 k hl
      rw [this, value]; rfl
    | literal v =>
      rw [hl] at hi
      dsimp only at hi
      rw [hi]
      obtain ⟨l, a, ds⟩ := s
      simp only [Expr.label] at hl
      subst hl
      rw [value, value]
    | op o =>
      rw [hl] at hi
      obtain ⟨o', q1, q2, q3⟩ := hi
      rw [value_op _ _ _ _ q1, value_op _ _ _ _ hl, q2, q3, List.map_map]
      congr 1
      exact List.map_congr_left (fun d hd => ih d hd (sub_of_dep hsub hd))

theorem mkOp_ok {G : Lang O V A E} {o : O} {ds : List (Expr O V A)} {r : Expr O V A} (h : G.mkOp o ds = .ok r) :
    r.label = .op o ∧ r.deps = ds := by
  unfold Lang.mkOp at h
  split at h
  · cases h
  · cases h; exact ⟨rfl, rfl⟩

/-- The value of the instantiated right-hand side. -/
theorem value_instTo {G : Lang O V A E} {σ : List Nat → Expr O V A} (ops : O → List D → D) {t r : Expr O V A}
    (hr : instTo G σ t = .ok r) :
    value ops lit leaf pl r = value ops lit leaf (fun k => value ops lit leaf pl (σ k)) t := by
  unfold instTo at hr
  induction t using Expr.ind generalizing r with
  | h n ih =>
    rw [fold_eq] at hr
    cases hds : folds (instNode G σ) n.deps with
    | error e => rw [hds] at hr; cases hr
    | ok xs =>
      rw [hds] at hr
      simp only [Except.bind] at hr
      have hmap : xs.map (value ops lit leaf pl) = n.deps.map (value ops lit leaf (fun k => value ops lit leaf pl (σ k))) := by
        have := folds_ok.1 hds
        apply List.ext_getElem?
        intro j
        have hj := congrArg (fun l => l[j]?) this
        simp only [List.getElem?_map] at hj ⊢
        cases hd : n.deps[j]? with
        | none => rw [hd] at hj; cases hx : xs[j]? with
          | none => rfl
          | some x => rw [hx] at hj; simp at hj
        | some d =>
          rw [hd] at hj
          cases hx : xs[j]? with
          | none => rw [hx] at hj; simp at hj
          | some x =>
            rw [hx] at hj
            simp only [Option.map_some, Option.some.injEq] at hj ⊢
            exact ih d (List.mem_of_getElem? hd) hj
      unfold instNode at hr
      cases hl : n.label with
      | placeholder k =>
        rw [hl] at hr
        cases hr
        obtain ⟨l, a, ds⟩ := n
        simp only [Expr.label] at hl
        subst hl
        rw [value]
      | op o =>
        rw [hl] at hr
        dsimp only at hr
        rw [value_op _ _ _ _ hl, ← hmap]
        split at hr
        · obtain ⟨q1, q2⟩ := mkOp_ok hr
          rw [value_op _ _ _ _ q1, q2]
        · rename_i hp
          have e : folds (instNode G σ) n.deps = .ok n.deps := by
            rw [folds_ok]
            refine List.map_congr_left (fun d hd => instTo_none ?_)
            cases hh : hasPlaceholder d with
            | false => rfl
            | true =>
              obtain ⟨m, k, h1, h2⟩ := (hasPlaceholder_iff d).1 hh
              exact absurd ((hasPlaceholder_iff n).2 ⟨m, k, .dep h1 hd, h2⟩) hp
          rw [hds] at e
          cases e
          cases hr
          exact value_op _ _ _ _ hl
      | leaf k =>
        rw [hl] at hr; cases hr
        obtain ⟨l, a, ds⟩ := n
        simp only [Expr.label] at hl
        subst hl; rw [value, value]
      | literal v =>
        rw [hl] at hr; cases hr
        obtain ⟨l, a, ds⟩ := n
        simp only [Expr.label] at hl
        subst hl; rw [value, value]

/-- Resolving references keeps the value. -/
theorem value_resolve {G : Lang O V A E} {resolve : O → Option O} (hres : ∀ o o', resolve o = some o' → name o' = name o)
    {t r : Expr O V A} (hr : resolveRefs G resolve t = .ok r) :
    value (fun o => sem (name o)) lit leaf pl r = value (fun o => sem (name o)) lit leaf pl t := by
  rw [resolveRefs_eq] at hr
  induction t using Expr.ind generalizing r with
  | h n ih =>
    rw [fold_eq] at hr
    cases hds : folds (transformNode G (resolveNode G resolve)) n.deps with
    | error e => rw [hds] at hr; cases hr
    | ok xs =>
      rw [hds] at hr
      simp only [Except.bind] at hr
      have hmap : xs.map (value (fun o => sem (name o)) lit leaf pl) = n.deps.map (value (fun o => sem (name o)) lit leaf pl) := by
        have := folds_ok.1 hds
        apply List.ext_getElem?
        intro j
        have hj := congrArg (fun l => l[j]?) this
        simp only [List.getElem?_map] at hj ⊢
        cases hd : n.deps[j]? with
        | none => rw [hd] at hj; cases hx : xs[j]? with
          | none => rfl
          | some x => rw [hx] at hj; simp at hj
        | some d =>
          rw [hd] at hj
          cases hx : xs[j]? with
          | none => rw [hx] at hj; simp at hj
          | some x =>
            rw [hx] at hj
            simp only [Option.map_some, Option.some.injEq] at hj ⊢
            exact ih d (List.mem_of_getElem? hd) hj
      unfold transformNode at hr
      have same : resolveNode G resolve n = .ok r → (∀ o, n.label ≠ .op o) → r = n := by
        intro he hno
        unfold resolveNode at he
        cases hl : n.label with
        | op o => exact absurd hl (hno o)
        | _ => rw [hl] at he; cases he; rfl
      cases hl : n.label with
      | op o =>
        rw [hl] at hr
        dsimp only at hr
        have fin : ∀ m : Expr O V A, m.label = .op o → resolveNode G resolve m = .ok r →
            (∃ o', r.label = .op o' ∧ name o' = name o) ∧ r.deps = m.deps := by
          intro m hm he
          unfold resolveNode at he
          rw [hm] at he
          dsimp only at he
          cases hro : resolve o with
          | none => rw [hro] at he; cases he; exact ⟨⟨o, hm, rfl⟩, rfl⟩
          | some o' => rw [hro] at he; dsimp only at he; cases he; exact ⟨⟨o', rfl, hres o o' hro⟩, rfl⟩
        have done : ∀ ds : List (Expr O V A), (∃ o', r.label = .op o' ∧ name o' = name o) ∧ r.deps = ds →
            ds.map (value (fun o => sem (name o)) lit leaf pl) = n.deps.map (value (fun o => sem (name o)) lit leaf pl) →
            value (fun o => sem (name o)) lit leaf pl r = value (fun o => sem (name o)) lit leaf pl n := by
          rintro ds ⟨⟨o', q1, q2⟩, q3⟩ hm
          rw [value_op _ _ _ _ q1, value_op _ _ _ _ hl, q2, q3, hm]
        by_cases hx : xs = n.deps
        · rw [if_pos hx] at hr
          exact done n.deps (fin n hl hr) rfl
        · rw [if_neg hx] at hr
          cases hmk : G.mkOp o xs with
          | error e => rw [hmk] at hr; cases hr
          | ok m =>
            rw [hmk] at hr
            obtain ⟨q1, q2⟩ := mkOp_ok hmk
            have := fin m q1 hr
            exact done xs (by rw [← q2]; exact this) hmap
      | leaf k => rw [hl] at hr; rw [same hr (by simp [hl])]
      | placeholder k => rw [hl] at hr; rw [same hr (by simp [hl])]
      | literal v => rw [hl] at hr; rw [same hr (by simp [hl])]

/-- A valid rule: with any subexpressions satisfying the matchers for the placeholders, both sides have the same value. -/
def ValidRule (name : O → N) (src dst : Expr O V A) (ms : Matchers O V A) : Prop :=
  ∀ σ : List Nat → Expr O V A, (∀ k p, findMatcher ms k = some p → p (σ k) = true) →
    value (fun o => sem (name o)) lit leaf (fun k => value (fun o => sem (name o)) lit leaf pl (σ k)) src =
    value (fun o => sem (name o)) lit leaf (fun k => value (fun o => sem (name o)) lit leaf pl (σ k)) dst

/-- **Soundness.**  If the values of operators depend on their display names, the registered operator of a reference has the
same name, and the rule is valid, then applying the optimization keeps the value of every expression. -/
theorem rule_sound (G : Lang O V A E) (resolve : O → Option O) (hres : ∀ o o', resolve o = some o' → name o' = name o)
    (src dst : Expr O V A) (ms : Matchers O V A)
    (hs : ∀ n, Sub n src → WF G n) (hd : ∀ n, Sub n dst → WF G n) (c : Compiled O V A N)
    (hc : compilePattern G name resolve src dst ms = some (.ok c))
    (hv : ValidRule sem lit leaf pl name src dst ms) (root r : Expr O V A)
    (hr : applyToRoot G name c root = some (.ok r)) :
    value (fun o => sem (name o)) lit leaf pl r = value (fun o => sem (name o)) lit leaf pl root := by
  obtain ⟨dst', h1, h2, h3⟩ := apply_rule G name resolve src dst ms hs hd c hc root
  obtain ⟨res, g1, g2⟩ := create_rule G name resolve src dst ms hs hd
  rw [hc] at g1
  cases g1
  obtain ⟨_, hleaf, _, _, hms, _⟩ := g2.1 ⟨c, rfl⟩
  by_cases hm : ∃ φ, Matches name (findMatcher ms) src root φ
  · obtain ⟨φ, hφ⟩ := hm
    have := h2 φ hφ
    rw [hr] at this
    simp only [Option.some.injEq] at this
    rw [value_instTo lit leaf pl _ this.symm, value_resolve sem lit leaf _ name hres h1]
    have hinst := value_instance sem lit leaf pl name (G := G) hφ.1 hs hleaf src (.refl _)
    rw [hφ.2.2] at hinst
    rw [hinst]
    refine (hv (fun k => φ (ph G k)) ?_).symm
    intro k p hp
    obtain ⟨m, hm1, hm2⟩ : ∃ m ∈ ms, m.1 = k := by
      unfold findMatcher at hp
      cases hf : ms.find? (fun m => m.1 = k) with
      | none => rw [hf] at hp; cases hp
      | some m => exact ⟨m, List.mem_of_find?_eq_some hf, by simpa using List.find?_some hf⟩
    obtain ⟨n, hn1, hn2⟩ := hms m hm1
    rw [hm2] at hn2
    have e := (plain_of_wf hs n hn1).2 k hn2
    have := hφ.2.1 n k p hn1 hn2 hp
    rw [e] at this
    exact this
  · have := h3 hm
    rw [hr] at this
    simp only [Option.some.injEq, Except.ok.injEq] at this
    rw [this]

end Values

/-! ## Examples -/

/-- Operators `0` (add), `1` (multiply), `2` (a reference to multiply); the display name of a reference is that of the operator. -/
def exL : Lang Nat Nat Nat Nat := ⟨0, id, fun _ as => .ok (as.foldl max 0), 7⟩
/-- Display names. -/
def exName (o : Nat) : Nat := if o = 2 then 1 else o
/-- The resolution of references. -/
def exResolve (o : Nat) : Option Nat := if o = 2 then some 1 else none
/-- Placeholders `a`, `b`; leaves `x`, `y`. -/
def pa : Expr Nat Nat Nat := .mk (.placeholder [97]) 0 []
def pb : Expr Nat Nat Nat := .mk (.placeholder [98]) 0 []
def lx : Expr Nat Nat Nat := .mk (.leaf [120]) 0 []
def ly : Expr Nat Nat Nat := .mk (.leaf [121]) 0 []
/-- `a * b + a * a`. -/
def exFrom : Expr Nat Nat Nat := .mk (.op 0) 0 [.mk (.op 1) 0 [pa, pb], .mk (.op 1) 0 [pa, pa]]
/-- `ref(a, b + a)`. -/
def exTo : Expr Nat Nat Nat := .mk (.op 2) 0 [pa, .mk (.op 0) 0 [pb, pa]]
/-- `b` must not be a literal. -/
def exMs : Matchers Nat Nat Nat := [([98], fun n => match n.label with | .literal _ => false | _ => true)]

/-- `CreatePatternBasedOptimization` followed by `ApplyToRoot`. -/
def runRule (src dst root : Expr Nat Nat Nat) (ms : Matchers Nat Nat Nat) : Option (Option (Expr Nat Nat Nat)) :=
  match compilePattern exL exName exResolve src dst ms with
  | some (.ok c) =>
    match applyToRoot exL exName c root with
    | some (.ok r) => some (some r)
    | _ => none
  | some (.error _) => some none
  | none => none

example : runRule exFrom exTo (.mk (.op 0) 0 [.mk (.op 1) 0 [lx, ly], .mk (.op 2) 0 [lx, lx]]) exMs =
    some (some (.mk (.op 1) 0 [lx, .mk (.op 0) 0 [ly, lx]])) := by decide +kernel
example : runRule exFrom exTo (.mk (.op 0) 0 [.mk (.op 1) 0 [lx, ly], .mk (.op 1) 0 [lx, ly]]) exMs =
    some (some (.mk (.op 0) 0 [.mk (.op 1) 0 [lx, ly], .mk (.op 1) 0 [lx, ly]])) := by decide +kernel
example : runRule exFrom exTo (.mk (.op 0) 5 [.mk (.op 1) 5 [lx, .mk (.literal 5) 5 []], .mk (.op 1) 0 [lx, lx]]) exMs =
    some (some (.mk (.op 0) 5 [.mk (.op 1) 5 [lx, .mk (.literal 5) 5 []], .mk (.op 1) 0 [lx, lx]])) := by decide +kernel
example : runRule pa exTo lx [] = some none := by decide +kernel
example : runRule (.mk (.op 1) 0 [pa, pa]) exTo lx [] = some none := by decide +kernel

theorem wf_op {G : Lang O V A E} {o : O} {a : A} {ds : List (Expr O V A)} (h : ∀ d ∈ ds, ∀ n, Sub n d → WF G n)
    (hi : G.infer o (ds.map Expr.attr) = .ok a) : ∀ n, Sub n (.mk (.op o) a ds) → WF G n := by
  intro n hn
  rcases sub_cases hn with rfl | ⟨d, hd, hn⟩
  · exact .op o a ds (fun d hd => h d hd d (.refl _)) hi
  · exact h d hd n hn

theorem wf_ph {G : Lang O V A E} (k : List Nat) : ∀ n, Sub n (ph G k) → WF G n := by
  intro n hn
  rcases sub_cases hn with rfl | ⟨d, hd, _⟩
  · exact .placeholder k
  · cases hd

theorem exFrom_wf : ∀ n, Sub n exFrom → WF exL n := by
  have ha : ∀ n, Sub n pa → WF exL n := wf_ph (G := exL) [97]
  have hb : ∀ n, Sub n pb → WF exL n := wf_ph (G := exL) [98]
  refine wf_op ?_ rfl
  intro d hd
  rcases List.mem_cons.1 hd with rfl | hd
  · refine wf_op ?_ rfl
    intro d hd
    rcases List.mem_cons.1 hd with rfl | hd
    · exact ha
    · rw [List.mem_singleton.1 hd]; exact hb
  · rw [List.mem_singleton.1 hd]
    refine wf_op ?_ rfl
    intro d hd
    have : d = pa := by simpa using hd
    rw [this]; exact ha

theorem exTo_wf : ∀ n, Sub n exTo → WF exL n := by
  have ha : ∀ n, Sub n pa → WF exL n := wf_ph (G := exL) [97]
  have hb : ∀ n, Sub n pb → WF exL n := wf_ph (G := exL) [98]
  refine wf_op ?_ rfl
  intro d hd
  rcases List.mem_cons.1 hd with rfl | hd
  · exact ha
  · rw [List.mem_singleton.1 hd]
    refine wf_op ?_ rfl
    intro d hd
    rcases List.mem_cons.1 hd with rfl | hd
    · exact hb
    · rw [List.mem_singleton.1 hd]; exact ha

/-- The rule is valid for numbers, so all hypotheses of `rule_sound` hold for it. -/
example (leaf pl : List Nat → Int) : ValidRule (fun nm xs => if nm = 0 then xs.sum else xs.foldl (· * ·) 1) (fun v : Nat => (v : Int))
    leaf pl exName exFrom exTo exMs := by
  intro σ _
  simp [exFrom, exTo, pa, pb, value, values, exName, Int.mul_add]

end Verif.Opt
