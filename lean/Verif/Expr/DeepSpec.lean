import Verif.Expr.TransformProps
import Mathlib.Logic.Relation

/-!
# What `DeepTransform` computes
-/

namespace Verif.Expr
variable {O V A E : Type} [DecidableEq O] [DecidableEq V] [DecidableEq A]

/-- `Deep G fn n r`: rewriting `n` deeply gives `r`.  The dependencies are rewritten deeply, the node is rebuilt as `m`, and
`fn` is applied; if it changes `m`, the new node is rewritten deeply. -/
inductive Deep (G : Lang O V A E) (fn : Expr O V A → Except E (Expr O V A)) : Expr O V A → Expr O V A → Prop
  | done (n m : Expr O V A) (ds : List (Expr O V A)) (hl : ds.length = n.deps.length)
      (hd : ∀ (i : Nat) (d d' : Expr O V A), n.deps[i]? = some d → ds[i]? = some d' → Deep G fn d d')
      (hw : G.withNewDeps n ds = .ok m) (hf : fn m = .ok m) : Deep G fn n m
  | more (n m t r : Expr O V A) (ds : List (Expr O V A)) (hl : ds.length = n.deps.length)
      (hd : ∀ (i : Nat) (d d' : Expr O V A), n.deps[i]? = some d → ds[i]? = some d' → Deep G fn d d')
      (hw : G.withNewDeps n ds = .ok m) (hf : fn m = .ok t) (ht : t ≠ m) (hr : Deep G fn t r) : Deep G fn n r

/-- `fn` changes nothing in `r`. -/
def Normal (fn : Expr O V A → Except E (Expr O V A)) (r : Expr O V A) : Prop := ∀ s, Sub s r → fn s = .ok s

/-- All dependencies are rewritten. -/
def DeepList (G : Lang O V A E) (fn : Expr O V A → Except E (Expr O V A)) (as bs : List (Expr O V A)) : Prop :=
  bs.length = as.length ∧ ∀ (i : Nat) (d d' : Expr O V A), as[i]? = some d → bs[i]? = some d' → Deep G fn d d'

/-- The node `n` rebuilt over its rewritten dependencies. -/
def Rebuilt (G : Lang O V A E) (fn : Expr O V A → Except E (Expr O V A)) (n m : Expr O V A) : Prop :=
  ∃ ds, DeepList G fn n.deps ds ∧ G.withNewDeps n ds = .ok m

/-- Rewriting `n` requires rewriting `m`. -/
def Needs (G : Lang O V A E) (fn : Expr O V A → Except E (Expr O V A)) (n m : Expr O V A) : Prop :=
  m ∈ n.deps ∨ ∃ k, Rebuilt G fn n k ∧ fn k = .ok m ∧ m ≠ k

variable {G : Lang O V A E} {fn : Expr O V A → Except E (Expr O V A)}

theorem withNewDeps_deps {n m : Expr O V A} {ds : List (Expr O V A)} (hl : ds.length = n.deps.length)
    (h : G.withNewDeps n ds = .ok m) : m.deps = ds := by
  cases hn : n.label with
  | op o => exact (withNewDeps_label G h).2 o hn
  | _ =>
    unfold Lang.withNewDeps at h
    by_cases h1 : n.deps = ds
    · rw [if_pos h1] at h; cases h; exact h1
    · rw [if_neg h1, hn] at h
      dsimp only at h
      by_cases h2 : ds = []
      · subst h2
        exact absurd (List.eq_nil_of_length_eq_zero hl.symm) h1
      · rw [if_pos h2] at h; cases h

theorem withNewDeps_self (n : Expr O V A) : G.withNewDeps n n.deps = .ok n := by
  unfold Lang.withNewDeps
  rw [if_pos rfl]

theorem sub_cases {s n : Expr O V A} (h : Sub s n) : s = n ∨ ∃ d, d ∈ n.deps ∧ Sub s d := by
  cases h with
  | refl => exact Or.inl rfl
  | dep h1 h2 => exact Or.inr ⟨_, h2, h1⟩

theorem list_get_of_mem {α : Type} {l : List α} {a : α} (h : a ∈ l) : ∃ i : Nat, l[i]? = some a := List.mem_iff_getElem?.1 h

theorem deep_normal {n r : Expr O V A} (h : Deep G fn n r) : Normal fn r := by
  induction h with
  | done n m ds hl hd hw hf ih =>
    intro s hs
    rcases sub_cases hs with rfl | ⟨d, hd', hs⟩
    · exact hf
    · have hm := withNewDeps_deps hl hw
      rw [hm] at hd'
      obtain ⟨i, hi⟩ := list_get_of_mem hd'
      have hlt : i < n.deps.length := by
        rw [← hl]
        by_contra hc
        rw [List.getElem?_eq_none (by omega)] at hi
        cases hi
      exact ih i _ d (List.getElem?_eq_getElem hlt) hi s hs
  | more n m t r ds hl hd hw hf ht hr ih1 ih2 => exact ih2

theorem normal_deep {r : Expr O V A} (h : Normal fn r) : Deep G fn r r := by
  induction r using Expr.ind with
  | h r ih =>
    refine .done r r r.deps rfl ?_ (withNewDeps_self r) (h r (.refl r))
    intro i d d' hd hd'
    rw [hd] at hd'; cases hd'
    have hm := List.mem_of_getElem? hd
    exact ih d hm (fun s hs => h s (.dep hs hm))

theorem Normal.dep {r d : Expr O V A} (h : Normal fn r) (hd : d ∈ r.deps) : Normal fn d := fun s hs => h s (.dep hs hd)

theorem deep_det {n r r' : Expr O V A} (h : Deep G fn n r) (h' : Deep G fn n r') : r = r' := by
  induction h generalizing r' with
  | done n m ds hl hd hw hf ih =>
    cases h' with
    | done _ _ ds' hl' hd' hw' hf' =>
      have : ds = ds' := by
        apply List.ext_getElem? 
        intro i
        by_cases hi : i < n.deps.length
        · have e1 := List.getElem?_eq_getElem (l := ds) (i := i) (by omega)
          have e2 := List.getElem?_eq_getElem (l := ds') (i := i) (by omega)
          rw [e1, e2]
          exact congrArg some (ih i _ _ (List.getElem?_eq_getElem hi) e1 (hd' i _ _ (List.getElem?_eq_getElem hi) e2))
        · rw [List.getElem?_eq_none (by omega), List.getElem?_eq_none (by omega)]
      subst this
      rw [hw] at hw'; cases hw'; rfl
    | more _ m' t _ ds' hl' hd' hw' hf' ht hr =>
      have : ds = ds' := by
        apply List.ext_getElem? 
        intro i
        by_cases hi : i < n.deps.length
        · have e1 := List.getElem?_eq_getElem (l := ds) (i := i) (by omega)
          have e2 := List.getElem?_eq_getElem (l := ds') (i := i) (by omega)
          rw [e1, e2]
          exact congrArg some (ih i _ _ (List.getElem?_eq_getElem hi) e1 (hd' i _ _ (List.getElem?_eq_getElem hi) e2))
        · rw [List.getElem?_eq_none (by omega), List.getElem?_eq_none (by omega)]
      subst this
      rw [hw] at hw'; cases hw'
      rw [hf] at hf'; cases hf'
      exact absurd rfl ht
  | more n m t r ds hl hd hw hf ht hr ih1 ih2 =>
    cases h' with
    | done _ _ ds' hl' hd' hw' hf' =>
      have : ds = ds' := by
        apply List.ext_getElem? 
        intro i
        by_cases hi : i < n.deps.length
        · have e1 := List.getElem?_eq_getElem (l := ds) (i := i) (by omega)
          have e2 := List.getElem?_eq_getElem (l := ds') (i := i) (by omega)
          rw [e1, e2]
          exact congrArg some (ih1 i _ _ (List.getElem?_eq_getElem hi) e1 (hd' i _ _ (List.getElem?_eq_getElem hi) e2))
        · rw [List.getElem?_eq_none (by omega), List.getElem?_eq_none (by omega)]
      subst this
      rw [hw] at hw'; cases hw'
      rw [hf] at hf'; cases hf'
      exact absurd rfl ht
    | more _ m' t' _ ds' hl' hd' hw' hf' ht' hr' =>
      have : ds = ds' := by
        apply List.ext_getElem? 
        intro i
        by_cases hi : i < n.deps.length
        · have e1 := List.getElem?_eq_getElem (l := ds) (i := i) (by omega)
          have e2 := List.getElem?_eq_getElem (l := ds') (i := i) (by omega)
          rw [e1, e2]
          exact congrArg some (ih1 i _ _ (List.getElem?_eq_getElem hi) e1 (hd' i _ _ (List.getElem?_eq_getElem hi) e2))
        · rw [List.getElem?_eq_none (by omega), List.getElem?_eq_none (by omega)]
      subst this
      rw [hw] at hw'; cases hw'
      rw [hf] at hf'; cases hf'
      exact ih2 hr'

theorem deepList_det {as bs cs : List (Expr O V A)} (h : DeepList G fn as bs) (h' : DeepList G fn as cs) : bs = cs := by
  apply List.ext_getElem? 
  intro i
  by_cases hi : i < as.length
  · have e1 := List.getElem?_eq_getElem (l := bs) (i := i) (by have := h.1; omega)
    have e2 := List.getElem?_eq_getElem (l := cs) (i := i) (by have := h'.1; omega)
    rw [e1, e2]
    exact congrArg some (deep_det (h.2 i _ _ (List.getElem?_eq_getElem hi) e1) (h'.2 i _ _ (List.getElem?_eq_getElem hi) e2))
  · rw [List.getElem?_eq_none (by have := h.1; omega), List.getElem?_eq_none (by have := h'.1; omega)]

theorem rebuilt_det {n m m' : Expr O V A} (h : Rebuilt G fn n m) (h' : Rebuilt G fn n m') : m = m' := by
  obtain ⟨ds, h1, h2⟩ := h
  obtain ⟨ds', h1', h2'⟩ := h'
  have := deepList_det h1 h1'
  subst this
  rw [h2] at h2'; cases h2'; rfl

/-- The dependencies of a rebuilt node are normal. -/
theorem rebuilt_normal {n m : Expr O V A} (h : Rebuilt G fn n m) : ∀ d ∈ m.deps, Normal fn d := by
  obtain ⟨ds, ⟨hl, hd⟩, hw⟩ := h
  intro d hdm
  rw [withNewDeps_deps hl hw] at hdm
  obtain ⟨i, hi⟩ := list_get_of_mem hdm
  have hlt : i < n.deps.length := by
    rw [← hl]
    by_contra hc
    rw [List.getElem?_eq_none (by omega)] at hi
    cases hi
  exact deep_normal (hd i _ d (List.getElem?_eq_getElem hlt) hi)

theorem rebuilt_self {m : Expr O V A} (h : ∀ d ∈ m.deps, Normal fn d) : Rebuilt G fn m m := by
  refine ⟨m.deps, ⟨rfl, ?_⟩, withNewDeps_self m⟩
  intro i d d' hd hd'
  rw [hd] at hd'; cases hd'
  exact normal_deep (h d (List.mem_of_getElem? hd))

theorem rebuilt_idem {n m : Expr O V A} (h : Rebuilt G fn n m) : Rebuilt G fn m m := rebuilt_self (rebuilt_normal h)

/-- Deep rewriting in terms of the rebuilt node. -/
theorem deep_iff {n m r : Expr O V A} (h : Rebuilt G fn n m) :
    Deep G fn n r ↔ (fn m = .ok m ∧ r = m) ∨ ∃ t, fn m = .ok t ∧ t ≠ m ∧ Deep G fn t r := by
  constructor
  · intro hr
    cases hr with
    | done _ _ ds hl hd hw hf =>
      have := rebuilt_det h ⟨ds, ⟨hl, hd⟩, hw⟩
      subst this
      exact Or.inl ⟨hf, rfl⟩
    | more _ m' t _ ds hl hd hw hf ht hr =>
      have := rebuilt_det h ⟨ds, ⟨hl, hd⟩, hw⟩
      subst this
      exact Or.inr ⟨t, hf, ht, hr⟩
  · obtain ⟨ds, ⟨hl, hd⟩, hw⟩ := h
    rintro (⟨hf, rfl⟩ | ⟨t, hf, ht, hr⟩)
    · exact .done n r ds hl hd hw hf
    · exact .more n m t r ds hl hd hw hf ht hr

theorem deep_rebuilt {n r : Expr O V A} (h : Deep G fn n r) : ∃ m, Rebuilt G fn n m := by
  cases h with
  | done _ _ ds hl hd hw hf => exact ⟨_, ds, ⟨hl, hd⟩, hw⟩
  | more _ m' t _ ds hl hd hw hf ht hr => exact ⟨_, ds, ⟨hl, hd⟩, hw⟩

/-- A node and its rebuilt node have the same result. -/
theorem deep_via_rebuilt {n m r : Expr O V A} (h : Rebuilt G fn n m) : Deep G fn n r ↔ Deep G fn m r := by
  rw [deep_iff h, deep_iff (rebuilt_idem h)]

theorem deep_needs {n r m : Expr O V A} (h : Deep G fn n r) (hm : Needs G fn n m) : ∃ r', Deep G fn m r' := by
  rcases hm with hm | ⟨k, hk, hf, hne⟩
  · obtain ⟨k, ds, ⟨hl, hd⟩, hw⟩ := deep_rebuilt h
    obtain ⟨i, hi⟩ := list_get_of_mem hm
    have hlt : i < ds.length := by
      rw [hl]
      by_contra hc
      rw [List.getElem?_eq_none (by omega)] at hi
      cases hi
    exact ⟨_, hd i m _ hi (List.getElem?_eq_getElem hlt)⟩
  · rcases (deep_iff hk).1 h with ⟨h1, _⟩ | ⟨t, h1, h2, h3⟩
    · rw [hf] at h1; cases h1; exact absurd rfl hne
    · rw [hf] at h1; cases h1; exact ⟨r, h3⟩

theorem deep_acc {n r : Expr O V A} (h : Deep G fn n r) : Acc (fun m n => Needs G fn n m) n := by
  induction h with
  | done n m ds hl hd hw hf ih =>
    constructor
    intro k hk
    rcases hk with hk | ⟨m', hm', hf', hne⟩
    · obtain ⟨i, hi⟩ := list_get_of_mem hk
      have hlt : i < ds.length := by
        rw [hl]
        by_contra hc
        rw [List.getElem?_eq_none (by omega)] at hi
        cases hi
      exact ih i k _ hi (List.getElem?_eq_getElem hlt)
    · have := rebuilt_det hm' ⟨ds, ⟨hl, hd⟩, hw⟩
      subst this
      rw [hf] at hf'; cases hf'
      exact absurd rfl hne
  | more n m t r ds hl hd hw hf ht hr ih1 ih2 =>
    constructor
    intro k hk
    rcases hk with hk | ⟨m', hm', hf', hne⟩
    · obtain ⟨i, hi⟩ := list_get_of_mem hk
      have hlt : i < ds.length := by
        rw [hl]
        by_contra hc
        rw [List.getElem?_eq_none (by omega)] at hi
        cases hi
      exact ih1 i k _ hi (List.getElem?_eq_getElem hlt)
    · have := rebuilt_det hm' ⟨ds, ⟨hl, hd⟩, hw⟩
      subst this
      rw [hf] at hf'; cases hf'
      exact ih2

theorem acc_no_cycle {α : Type} {R : α → α → Prop} {a : α} (h : Acc (fun m n => R n m) a) : ¬ Relation.TransGen R a a := by
  induction h with
  | intro a _ ih =>
    intro hc
    rcases Relation.TransGen.head'_iff.1 hc with ⟨b, hab, hba⟩
    exact ih b hab (Relation.TransGen.tail' hba hab)

theorem deep_reach {n m r : Expr O V A} (h : Deep G fn n r) (hm : Relation.ReflTransGen (Needs G fn) n m) :
    ∃ r', Deep G fn m r' := by
  induction hm with
  | refl => exact ⟨r, h⟩
  | tail _ h2 ih =>
    obtain ⟨r', hr'⟩ := ih
    exact deep_needs hr' h2

theorem normal_reach {x y : Expr O V A} (h : Normal fn x) (hm : Relation.ReflTransGen (Needs G fn) x y) : Sub y x := by
  induction hm with
  | refl => exact .refl x
  | tail _ h2 ih =>
    rename_i b c _
    rcases h2 with h2 | ⟨k, hk, hf, hne⟩
    · exact Sub.trans (.dep (.refl c) h2) ih
    · exfalso
      have hb : Normal fn b := fun s hs => h s (Sub.trans hs ih)
      have := rebuilt_det hk (rebuilt_self (fun d hd => hb.dep hd))
      subst this
      rw [hb k (.refl k)] at hf; cases hf
      exact hne rfl

/-- Only finitely many nodes are needed for a node with a result. -/
theorem deep_finite {n r : Expr O V A} (h : Deep G fn n r) :
    ∃ l : List (Expr O V A), ∀ m, Relation.ReflTransGen (Needs G fn) n m → m ∈ l := by
  induction h with
  | done n m ds hl hd hw hf ih =>
    have hdeps : ∀ as : List (Expr O V A), (∀ a ∈ as, a ∈ n.deps) →
        ∃ l : List (Expr O V A), ∀ a ∈ as, ∀ m, Relation.ReflTransGen (Needs G fn) a m → m ∈ l := by
      intro as
      induction as with
      | nil => intro _; exact ⟨[], by simp⟩
      | cons a as iha =>
        intro hsub
        obtain ⟨l1, h1⟩ := iha (fun x hx => hsub x (by simp [hx]))
        obtain ⟨i, hi⟩ := list_get_of_mem (hsub a (by simp))
        have hlt : i < ds.length := by
          rw [hl]
          by_contra hc
          rw [List.getElem?_eq_none (by omega)] at hi
          cases hi
        obtain ⟨l2, h2⟩ := ih i a _ hi (List.getElem?_eq_getElem hlt)
        refine ⟨l1 ++ l2, ?_⟩
        intro x hx m hm
        rcases List.mem_cons.1 hx with rfl | hx
        · exact List.mem_append_right _ (h2 m hm)
        · exact List.mem_append_left _ (h1 x hx m hm)
    obtain ⟨l, hl'⟩ := hdeps n.deps (fun a ha => ha)
    refine ⟨n :: l, ?_⟩
    intro k hk
    rcases Relation.ReflTransGen.cases_head hk with rfl | ⟨b, hb, hbk⟩
    · simp
    · rcases hb with hb | ⟨m', hm', hf', hne⟩
      · exact List.mem_cons_of_mem _ (hl' b hb k hbk)
      · have := rebuilt_det hm' ⟨ds, ⟨hl, hd⟩, hw⟩
        subst this
        rw [hf] at hf'; cases hf'
        exact absurd rfl hne
  | more n m t r ds hl hd hw hf ht hr ih1 ih2 =>
    have hdeps : ∀ as : List (Expr O V A), (∀ a ∈ as, a ∈ n.deps) →
        ∃ l : List (Expr O V A), ∀ a ∈ as, ∀ m, Relation.ReflTransGen (Needs G fn) a m → m ∈ l := by
      intro as
      induction as with
      | nil => intro _; exact ⟨[], by simp⟩
      | cons a as iha =>
        intro hsub
        obtain ⟨l1, h1⟩ := iha (fun x hx => hsub x (by simp [hx]))
        obtain ⟨i, hi⟩ := list_get_of_mem (hsub a (by simp))
        have hlt : i < ds.length := by
          rw [hl]
          by_contra hc
          rw [List.getElem?_eq_none (by omega)] at hi
          cases hi
        obtain ⟨l2, h2⟩ := ih1 i a _ hi (List.getElem?_eq_getElem hlt)
        refine ⟨l1 ++ l2, ?_⟩
        intro x hx m hm
        rcases List.mem_cons.1 hx with rfl | hx
        · exact List.mem_append_right _ (h2 m hm)
        · exact List.mem_append_left _ (h1 x hx m hm)
    obtain ⟨l, hl'⟩ := hdeps n.deps (fun a ha => ha)
    obtain ⟨l2, hl2⟩ := ih2
    refine ⟨n :: l ++ l2, ?_⟩
    intro k hk
    rcases Relation.ReflTransGen.cases_head hk with rfl | ⟨b, hb, hbk⟩
    · simp
    · rcases hb with hb | ⟨m', hm', hf', hne⟩
      · exact List.mem_append_left _ (List.mem_cons_of_mem _ (hl' b hb k hbk))
      · have := rebuilt_det hm' ⟨ds, ⟨hl, hd⟩, hw⟩
        subst this
        rw [hf] at hf'; cases hf'
        exact List.mem_append_right _ (hl2 k hbk)

end Verif.Expr
