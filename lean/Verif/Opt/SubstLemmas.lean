import Verif.Opt.MatchLemmas

/-!
# `SubstituteNodes` instantiates the right-hand side
-/

namespace Verif.Opt
open Verif.Expr
variable {O V A E N : Type} [DecidableEq O] [DecidableEq V] [DecidableEq A] [DecidableEq N]

/-- Only operator nodes have dependencies, and a placeholder is determined by its key. -/
def Plain (G : Lang O V A E) (t : Expr O V A) : Prop :=
  ∀ n, Sub n t → (n.deps ≠ [] → ∃ o, n.label = .op o) ∧ ∀ k, n.label = .placeholder k → n = .mk (.placeholder k) G.noAttr []

theorem plain_of_wf {G : Lang O V A E} {t : Expr O V A} (h : ∀ n, Sub n t → WF G n) : Plain G t := by
  intro n hn
  have hw := h n hn
  refine ⟨fun hd => wf_deps hw hd, ?_⟩
  intro k hk
  cases hw with
  | placeholder k' => simp only [Expr.label] at hk; cases hk; rfl
  | _ => simp [Expr.label] at hk

theorem sub_cases {m n : Expr O V A} (h : Sub m n) : m = n ∨ ∃ d ∈ n.deps, Sub m d := by
  cases h with
  | refl => exact Or.inl rfl
  | dep h1 h2 => exact Or.inr ⟨_, h2, h1⟩

theorem plain_dep {G : Lang O V A E} {t d : Expr O V A} (h : Plain G t) (hd : d ∈ t.deps) : Plain G d :=
  fun n hn => h n (.dep hn hd)

theorem folds_mem {T : Type} {v : Expr O V A → List T → Except E T} {ds : List (Expr O V A)} {xs : List T}
    (h : folds v ds = .ok xs) {x : T} (hx : x ∈ xs) : ∃ d ∈ ds, fold v d = .ok x := by
  have h' := folds_ok.1 h
  have : Except.ok x ∈ xs.map (Except.ok (ε := E)) := List.mem_map_of_mem hx
  rw [← h'] at this
  obtain ⟨d, hd, he⟩ := List.mem_map.1 this
  exact ⟨d, hd, he⟩

theorem folds_get {T : Type} {v : Expr O V A → List T → Except E T} {ds : List (Expr O V A)} {xs : List T}
    (h : folds v ds = .ok xs) {d : Expr O V A} (hd : d ∈ ds) : ∃ x ∈ xs, fold v d = .ok x := by
  have h' := folds_ok.1 h
  have : fold v d ∈ ds.map (fold v) := List.mem_map_of_mem hd
  rw [h'] at this
  obtain ⟨x, hx, he⟩ := List.mem_map.1 this
  exact ⟨x, hx, he.symm⟩

theorem resolveRefs_eq (G : Lang O V A E) (resolve : O → Option O) (t : Expr O V A) :
    resolveRefs G resolve t = fold (transformNode G (resolveNode G resolve)) t := by
  unfold resolveRefs
  congr 2
  funext n
  unfold resolved resolveNode
  cases n.label with
  | op o => dsimp only; cases resolve o <;> rfl
  | _ => rfl

theorem resolve_plain {G : Lang O V A E} {resolve : O → Option O} {t r : Expr O V A} (h : Plain G t)
    (hr : resolveRefs G resolve t = .ok r) : Plain G r := by
  rw [resolveRefs_eq] at hr
  induction t using Expr.ind generalizing r with
  | h n ih =>
    rw [fold_eq] at hr
    cases hds : folds (transformNode G (resolveNode G resolve)) n.deps with
    | error e => rw [hds] at hr; cases hr
    | ok xs =>
      rw [hds] at hr
      simp only [Except.bind] at hr
      have hxs : ∀ x ∈ xs, Plain G x := by
        intro x hx
        obtain ⟨d, hd, he⟩ := folds_mem hds hx
        exact ih d hd (plain_dep h hd) he
      unfold transformNode at hr
      have nonop : (∀ o, n.label ≠ .op o) → resolveNode G resolve n = .ok r → Plain G r := by
        intro hno he
        unfold resolveNode at he
        cases hl : n.label with
        | op o => exact absurd hl (hno o)
        | _ => rw [hl] at he; cases he; exact h
      cases hl : n.label with
      | op o =>
        rw [hl] at hr
        dsimp only at hr
        have fin : ∀ m : Expr O V A, m.label = .op o → (∀ d ∈ m.deps, Plain G d) → resolveNode G resolve m = .ok r → Plain G r := by
          intro m hm hd he
          have build : ∀ m' : Expr O V A, (∃ o, m'.label = .op o) → m'.deps = m.deps → Plain G m' := by
            intro m' ⟨o', ho'⟩ hdeps x hx
            rcases sub_cases hx with rfl | ⟨d, hd', hx⟩
            · exact ⟨fun _ => ⟨o', ho'⟩, fun k hk => by rw [ho'] at hk; cases hk⟩
            · exact hd d (hdeps ▸ hd') x hx
          unfold resolveNode at he
          rw [hm] at he
          dsimp only at he
          cases hres : resolve o with
          | none => rw [hres] at he; cases he; exact build r ⟨o, hm⟩ rfl
          | some o' =>
            rw [hres] at he
            dsimp only at he
            cases he
            exact build (.mk (.op o') G.noAttr m.deps) ⟨o', rfl⟩ rfl
        by_cases hx : xs = n.deps
        · rw [if_pos hx] at hr
          exact fin n hl (fun d hd => plain_dep h hd) hr
        · rw [if_neg hx] at hr
          unfold Lang.mkOp at hr
          split at hr
          · cases hr
          · exact fin (.mk (.op o) _ xs) rfl hxs hr
      | leaf k => rw [hl] at hr; exact nonop (by simp [hl]) hr
      | placeholder k => rw [hl] at hr; exact nonop (by simp [hl]) hr
      | literal v => rw [hl] at hr; exact nonop (by simp [hl]) hr

theorem hasPlaceholders_any (ds : List (Expr O V A)) : hasPlaceholders ds = ds.any hasPlaceholder := by
  induction ds with
  | nil => rfl
  | cons d ds ih => rw [hasPlaceholders, ih]; rfl

theorem hasPlaceholder_op {n : Expr O V A} {o : O} (h : n.label = .op o) : hasPlaceholder n = n.deps.any hasPlaceholder := by
  obtain ⟨l, a, ds⟩ := n
  simp only [Expr.label] at h
  subst h
  rw [hasPlaceholder, hasPlaceholders_any]
  rfl

theorem hasPlaceholder_iff (t : Expr O V A) : hasPlaceholder t = true ↔ ∃ n k, Sub n t ∧ n.label = .placeholder k := by
  induction t using Expr.ind with
  | h n ih =>
    obtain ⟨l, a, ds⟩ := n
    rw [hasPlaceholder, hasPlaceholders_any, Bool.or_eq_true, List.any_eq_true]
    constructor
    · rintro (h | ⟨d, hd, h⟩)
      · cases l with
        | placeholder k => exact ⟨_, k, .refl _, rfl⟩
        | _ => cases h
      · obtain ⟨m, k, h1, h2⟩ := (ih d hd).1 h
        exact ⟨m, k, .dep h1 hd, h2⟩
    · rintro ⟨m, k, h1, h2⟩
      rcases sub_cases h1 with rfl | ⟨d, hd, h1⟩
      · left; simp only [Expr.label] at h2; subst h2; rfl
      · exact Or.inr ⟨d, hd, (ih d hd).2 ⟨m, k, h1, h2⟩⟩

/-- An expression without placeholders is its own instance. -/
theorem instTo_none {G : Lang O V A E} {σ : List Nat → Expr O V A} {t : Expr O V A} (h : hasPlaceholder t = false) :
    fold (instNode G σ) t = .ok t := by
  induction t using Expr.ind with
  | h n ih =>
    have hd : ∀ d ∈ n.deps, hasPlaceholder d = false := by
      intro d hd
      cases hh : hasPlaceholder d with
      | false => rfl
      | true =>
        obtain ⟨m, k, h1, h2⟩ := (hasPlaceholder_iff d).1 hh
        rw [(hasPlaceholder_iff n).2 ⟨m, k, .dep h1 hd, h2⟩] at h
        cases h
    have hf : folds (instNode G σ) n.deps = .ok n.deps := by
      rw [folds_ok]
      exact List.map_congr_left (fun d hd' => ih d hd' (hd d hd'))
    rw [fold_eq, hf]
    simp only [Except.bind]
    unfold instNode
    cases hl : n.label with
    | placeholder k => rw [(hasPlaceholder_iff n).2 ⟨n, k, .refl _, hl⟩] at h; cases h
    | op o => dsimp only; rw [h]; rfl
    | _ => rfl

/-- What `results` holds for a finished node. -/
def hm (n r : Expr O V A) : Option (Expr O V A) := if hasPlaceholder n then some r else none

/-- What `results` holds at first. -/
def pre (σ : List Nat → Expr O V A) (n : Expr O V A) : Option (Expr O V A) :=
  match n.label with
  | .placeholder k => some (σ k)
  | _ => none

theorem preset_eq {seen : List (Expr O V A × Nat)} {mem : List (Option (Expr O V A))} {σ : List Nat → Expr O V A} :
    ∀ (ns : List (Expr O V A)) (i : Nat) (m : List (Nat × Nat)) (done : List (Option (Expr O V A))),
    memMapping (E := E) seen i ns = .ok m → done.length = i →
    (∀ n k s, n ∈ ns → n.label = .placeholder k → lookup seen n = some s → readMem mem s = some (σ k)) →
    presetLoop mem m (done ++ List.replicate ns.length none) = some (done ++ ns.map (pre σ)) := by
  intro ns
  induction ns with
  | nil => intro i m done h hi hr; rw [memMapping] at h; cases h; rw [presetLoop]; rfl
  | cons n ns ih =>
    intro i m done h hi hr
    rw [memMapping] at h
    have skip : memMapping (E := E) seen (i + 1) ns = .ok m → pre σ n = none →
        presetLoop mem m (done ++ List.replicate (n :: ns).length none) = some (done ++ (n :: ns).map (pre σ)) := by
      intro h hp
      have := ih (i + 1) m (done ++ [none]) h (by simp [hi]) (fun n k s hn => hr n k s (List.mem_cons_of_mem _ hn))
      rw [List.map_cons, hp]
      simpa [List.replicate_succ] using this
    cases hl : n.label with
    | placeholder k =>
      rw [hl] at h
      dsimp only at h
      cases hs : lookup seen n with
      | none => rw [hs] at h; cases h
      | some j =>
        rw [hs] at h
        dsimp only at h
        cases hm : memMapping (E := E) seen (i + 1) ns with
        | error e => rw [hm] at h; cases h
        | ok m' =>
          rw [hm] at h
          cases h
          rw [presetLoop, hr n k j (by simp) hl hs]
          dsimp only
          rw [if_pos (by simp [hi])]
          have e1 : (done ++ List.replicate (n :: ns).length none).set i (some (σ k)) =
              (done ++ [some (σ k)]) ++ List.replicate ns.length none := by
            rw [List.set_append_right _ _ (by omega), hi, Nat.sub_self, List.length_cons, List.replicate_succ, List.set_cons_zero]
            simp
          rw [e1, ih (i + 1) m' (done ++ [some (σ k)]) hm (by simp [hi]) (fun n k s hn => hr n k s (List.mem_cons_of_mem _ hn))]
          have : pre σ n = some (σ k) := by unfold pre; rw [hl]
          simp [this]
    | leaf k => rw [hl] at h; exact skip h (by unfold pre; rw [hl])
    | literal v => rw [hl] at h; exact skip h (by unfold pre; rw [hl])
    | op o => rw [hl] at h; exact skip h (by unfold pre; rw [hl])

theorem pick_eq : ∀ (results : List (Option (Expr O V A))) (ix : List Nat) (ds xs : List (Expr O V A)),
    ds.length = xs.length → (∀ (j : Nat) d x, ds[j]? = some d → xs[j]? = some x → hasPlaceholder d = false → x = d) →
    gather results ix = some (List.zipWith hm ds xs) → pickDeps results ix ds = some xs := by
  intro results ix
  induction ix with
  | nil =>
    intro ds xs hl _ h
    rw [gather] at h
    cases ds <;> cases xs <;> simp_all [pickDeps]
  | cons k ks ih =>
    intro ds xs hl hsame h
    rw [gather] at h
    cases hk : results[k]? with
    | none => rw [hk] at h; cases h
    | some r =>
      rw [hk] at h; dsimp only at h
      cases hg : gather results ks with
      | none => rw [hg] at h; cases h
      | some rs =>
        rw [hg] at h; dsimp only at h
        cases ds with
        | nil => simp at h
        | cons d ds =>
          cases xs with
          | nil => simp at hl
          | cons x xs =>
            simp only [List.zipWith_cons_cons, Option.some.injEq, List.cons.injEq] at h
            obtain ⟨rfl, h2⟩ := h
            have := ih ds xs (by simpa using hl) (fun j d x h1 h2 => hsame (j + 1) d x (by simpa using h1) (by simpa using h2))
              (by rw [hg, h2])
            have hx := hsame 0 d x rfl rfl
            rw [pickDeps, hk]
            dsimp only
            unfold hm
            cases hp : hasPlaceholder d with
            | false => rw [if_neg (by simp)]; dsimp only; rw [this, hx hp]; rfl
            | true => rw [if_pos rfl]; dsimp only; rw [this]; rfl

theorem hm_any : ∀ (ds xs : List (Expr O V A)), ds.length = xs.length →
    (List.zipWith hm ds xs).any Option.isSome = ds.any hasPlaceholder := by
  intro ds
  induction ds with
  | nil => intro xs h; rfl
  | cons d ds ih =>
    intro xs h
    cases xs with
    | nil => simp at h
    | cons x xs =>
      simp only [List.length_cons, Nat.add_right_cancel_iff] at h
      simp only [List.zipWith_cons_cons, List.any_cons, ih xs h, hm]
      cases hasPlaceholder d <;> simp

theorem substLoop_eq {G : Lang O V A E} {σ : List Nat → Expr O V A} {root : Expr O V A} {po : PostOrder O V A}
    (hpo : postOrder root = some po) (hpl : Plain G root) : ∀ (m i : Nat) (vals : List (Expr O V A)),
    i + m = po.nodes.length → Res (instNode G σ) po.nodes i vals →
    (∃ e, fold (instNode G σ) root = .error e ∧
      substLoop G po m i (List.zipWith hm (po.nodes.take i) vals ++ (po.nodes.drop i).map (pre σ)) = some (.error e)) ∨
    (∃ vals', Res (instNode G σ) po.nodes po.nodes.length vals' ∧
      substLoop G po m i (List.zipWith hm (po.nodes.take i) vals ++ (po.nodes.drop i).map (pre σ)) =
        some (.ok (List.zipWith hm po.nodes vals'))) := by
  have hnodes := nodes_eq hpo
  obtain ⟨po', hpo', _, hsub, _, hdep, _⟩ := post_order root
  rw [hpo] at hpo'; cases hpo'
  intro m
  induction m with
  | zero =>
    intro i vals him h
    have : i = po.nodes.length := by omega
    subst this
    rw [List.take_length, List.drop_length, substLoop, List.map_nil, List.append_nil]
    exact Or.inr ⟨vals, h, rfl⟩
  | succ m ih =>
    intro i vals him h
    have hlt : i < po.nodes.length := by omega
    obtain ⟨n, hi⟩ : ∃ n, po.nodes[i]? = some n := ⟨_, List.getElem?_eq_getElem hlt⟩
    have hn : Sub n root := (hsub n).1 (List.mem_of_getElem? hi)
    obtain ⟨hp1, hp2⟩ := hpl n hn
    have hlen := h.length (by omega)
    have hzl : (List.zipWith hm (po.nodes.take i) vals).length = i := by simp; omega
    have hdrop : po.nodes.drop i = n :: po.nodes.drop (i + 1) := by
      rw [List.drop_eq_getElem_cons hlt]
      congr 1
      rw [List.getElem?_eq_getElem hlt] at hi
      simpa using hi
    have hat : (List.zipWith hm (po.nodes.take i) vals ++ (po.nodes.drop i).map (pre σ))[i]? = some (pre σ n) := by
      rw [List.getElem?_append_right (by omega), hzl, Nat.sub_self, hdrop]; rfl
    -- writing the value of `n`
    have hz : ∀ r, List.zipWith hm (po.nodes.take i) vals ++ hm n r :: (po.nodes.drop (i + 1)).map (pre σ) =
        List.zipWith hm (po.nodes.take (i + 1)) (vals ++ [r]) ++ (po.nodes.drop (i + 1)).map (pre σ) := by
      intro r
      rw [List.take_succ, hi, List.zipWith_append (by simp; omega)]
      simp
    have step : ∀ r, fold (instNode G σ) n = .ok r → hm n r = pre σ n →
        List.zipWith hm (po.nodes.take i) vals ++ (po.nodes.drop i).map (pre σ) =
        List.zipWith hm (po.nodes.take (i + 1)) (vals ++ [r]) ++ (po.nodes.drop (i + 1)).map (pre σ) := by
      intro r hr he
      rw [← hz, he, hdrop]; rfl
    rw [substLoop, hat]
    cases hpre : pre σ n with
    | some x =>
      dsimp only
      cases hl : n.label with
      | placeholder k =>
        have e := hp2 k hl
        have hr : fold (instNode G σ) n = .ok (σ k) := by
          rw [fold_eq, e]
          show ((folds (instNode G σ) []).bind _) = _
          rw [folds]; rfl
        rw [step (σ k) hr (by
          unfold hm pre
          rw [hl, (hasPlaceholder_iff n).2 ⟨n, k, .refl _, hl⟩]; rfl)]
        exact ih (i + 1) _ (by omega) (h.snoc hi hr)
      | leaf k => unfold pre at hpre; rw [hl] at hpre; cases hpre
      | literal v => unfold pre at hpre; rw [hl] at hpre; cases hpre
      | op o => unfold pre at hpre; rw [hl] at hpre; cases hpre
    | none =>
      dsimp only
      obtain ⟨ix, xs, h1, h2, h3⟩ := deps_res hpo hi h
      obtain ⟨ix', h1', h4, h5⟩ := hdep i n hi
      rw [h1] at h1'; cases h1'
      have hl := folds_length h3
      rw [hi, h1]
      dsimp only
      have hg : gather (List.zipWith hm (po.nodes.take i) vals ++ (po.nodes.drop i).map (pre σ)) ix =
          some (List.zipWith hm n.deps xs) := by
        rw [gather_map]
        rw [gather_map] at h2
        apply List.ext_getElem?
        intro j
        have g1 := congrArg (fun l => l[j]?) h4
        have g2 := congrArg (fun l => l[j]?) h2
        simp only [List.getElem?_map] at g1 g2
        simp only [List.getElem?_map, List.getElem?_zipWith]
        cases hj : ix[j]? with
        | none =>
          rw [hj] at g1
          cases hd : n.deps[j]? with
          | some d => rw [hd] at g1; simp at g1
          | none => rfl
        | some k =>
          have hk : k < i := h5 k (List.mem_of_getElem? hj)
          rw [hj] at g1 g2
          cases hd : n.deps[j]? with
          | none => rw [hd] at g1; simp at g1
          | some d =>
            cases hx : xs[j]? with
            | none => rw [hx] at g2; simp at g2
            | some x =>
              rw [hd] at g1
              rw [hx] at g2
              simp only [Option.map_some, Option.some.injEq] at g1 g2 ⊢
              rw [List.getElem?_append_left (by omega), List.getElem?_zipWith, List.getElem?_take_of_lt hk, g1, g2]
      rw [hg]
      dsimp only
      rw [hm_any _ _ hl]
      have hkeep : hasPlaceholder n = false → fold (instNode G σ) n = .ok n ∧ hm n n = pre σ n := by
        intro hh
        refine ⟨instTo_none hh, ?_⟩
        rw [hpre]; unfold hm; rw [hh]; rfl
      cases hlab : n.label with
      | op o =>
        have hpn := hasPlaceholder_op hlab
        cases hh : n.deps.any hasPlaceholder with
        | false =>
          rw [if_neg (by simp)]
          obtain ⟨k1, k2⟩ := hkeep (by rw [hpn, hh])
          rw [step n k1 k2]
          exact ih (i + 1) _ (by omega) (h.snoc hi k1)
        | true =>
          rw [if_pos rfl]
          dsimp only
          have hsame : ∀ (j : Nat) d x, n.deps[j]? = some d → xs[j]? = some x → hasPlaceholder d = false → x = d := by
            intro j d x hd hx hdp
            have := congrArg (fun l => l[j]?) (folds_ok.1 h3)
            simp only [List.getElem?_map, hd, hx, Option.map_some, Option.some.injEq] at this
            rw [instTo_none hdp] at this
            cases this; rfl
          rw [pick_eq _ _ _ _ hl hsame hg]
          dsimp only
          have hf : fold (instNode G σ) n = G.mkOp o xs := by
            rw [fold_eq, h3]
            simp only [Except.bind, instNode, hlab]
            rw [hpn, hh]; rfl
          cases hmk : G.mkOp o xs with
          | error e =>
            left
            refine ⟨e, ?_, rfl⟩
            have hok := h.allOk
            rw [hnodes] at hok
            exact root_err (v := instNode G σ) hok (by rw [← hnodes]; exact hi) (by rw [hf, hmk])
          | ok r =>
            dsimp only
            have hr : fold (instNode G σ) n = .ok r := by rw [hf, hmk]
            have e1 : (List.zipWith hm (po.nodes.take i) vals ++ (po.nodes.drop i).map (pre σ)).set i (some r) =
                List.zipWith hm (po.nodes.take (i + 1)) (vals ++ [r]) ++ (po.nodes.drop (i + 1)).map (pre σ) := by
              rw [← hz, hdrop, List.set_append_right _ _ (by omega), hzl, Nat.sub_self, List.map_cons, List.set_cons_zero]
              unfold hm
              rw [hpn, hh]; rfl
            rw [e1]
            exact ih (i + 1) _ (by omega) (h.snoc hi hr)
      | placeholder k => unfold pre at hpre; rw [hlab] at hpre; cases hpre
      | leaf k =>
        have hd : n.deps = [] := Classical.byContradiction (fun hd => by obtain ⟨o, ho⟩ := hp1 hd; rw [hlab] at ho; cases ho)
        rw [hd]
        obtain ⟨k1, k2⟩ := hkeep (by
          obtain ⟨l, a, ds⟩ := n
          simp only [Expr.label, Expr.deps] at hlab hd
          subst hlab; subst hd; rfl)
        rw [if_neg (by simp), step n k1 k2]
        exact ih (i + 1) _ (by omega) (h.snoc hi k1)
      | literal v =>
        have hd : n.deps = [] := Classical.byContradiction (fun hd => by obtain ⟨o, ho⟩ := hp1 hd; rw [hlab] at ho; cases ho)
        rw [hd]
        obtain ⟨k1, k2⟩ := hkeep (by
          obtain ⟨l, a, ds⟩ := n
          simp only [Expr.label, Expr.deps] at hlab hd
          subst hlab; subst hd; rfl)
        rw [if_neg (by simp), step n k1 k2]
        exact ih (i + 1) _ (by omega) (h.snoc hi k1)

theorem substitute_eq {G : Lang O V A E} {seen : List (Expr O V A × Nat)} {mem : List (Option (Expr O V A))}
    {σ : List Nat → Expr O V A} {root : Expr O V A} {po : PostOrder O V A} {mapping : List (Nat × Nat)}
    (hpo : postOrder root = some po) (hpl : Plain G root) (hm' : memMapping (E := E) seen 0 po.nodes = .ok mapping)
    (hread : ∀ n k s, n.label = .placeholder k → lookup seen n = some s → Sub n root → readMem mem s = some (σ k)) :
    substituteNodes G po mapping mem = some (instTo G σ root) := by
  obtain ⟨po', hpo', _, hsub, hlast, _, _⟩ := post_order root
  rw [hpo] at hpo'; cases hpo'
  unfold substituteNodes instTo
  have h1 := preset_eq (mem := mem) (σ := σ) po.nodes 0 mapping [] hm' rfl
    (fun n k s hn hl hs => hread n k s hl hs ((hsub n).1 hn))
  rw [List.nil_append, List.nil_append] at h1
  rw [h1]
  dsimp only
  have h0 : Res (instNode G σ) po.nodes 0 [] := by unfold Res; simp
  have := substLoop_eq (σ := σ) hpo hpl po.nodes.length 0 [] (by omega) h0
  simp only [List.take_zero, List.zipWith_nil_left, List.drop_zero, List.nil_append] at this
  rcases this with ⟨e, e1, e2⟩ | ⟨vals, e1, e2⟩
  · rw [e2, e1]
  · rw [e2]
    dsimp only
    have hpos : 0 < po.nodes.length := by
      cases hn : po.nodes with
      | nil => rw [hn] at hlast; cases hlast
      | cons _ _ => simp
    have hl : po.nodes[po.nodes.length - 1]? = some root := by rw [← List.getLast?_eq_getElem?]; exact hlast
    obtain ⟨r, hr1, hr2⟩ := e1.get (by omega) hl
    have hlen := e1.length (Nat.le_refl _)
    have : (List.zipWith hm po.nodes vals).getLast? = some (hm root r) := by
      rw [List.getLast?_eq_getElem?, List.length_zipWith, hlen, Nat.min_self, List.getElem?_zipWith, hl, hr1]
    rw [this, hlast, hr2]
    unfold hm
    cases hp : hasPlaceholder root with
    | true => rfl
    | false =>
      rw [instTo_none hp] at hr2
      cases hr2
      rfl

end Verif.Opt
