import Verif.FModel.FModelLemmas

/-!
# Lemmas about the three ways to process the expression
-/

namespace Verif.FModel

open Verif.Forest (Tag Filter)

/-! ### Truncated filters -/

/-- The truncation of one filter. -/
def truncF (t : Option Nat) (f : Filter) : Filter :=
  match t with
  | none => f
  | some n => { f with stepTo := toInt n }

theorem truncate_eq (t : Option Nat) (fs : List Filter) : truncate t fs = fs.map (truncF t) := by
  cases t with
  | none => exact (List.map_id fs).symm
  | some n => rfl

theorem toInt_small (n : Nat) (h : n < 2 ^ 31) : toInt n = n := by
  unfold toInt
  rw [Nat.mod_eq_of_lt (by omega), if_pos h]
  omega

theorem truncF_accepts (t : Option Nat) (ht : ∀ n, t = some n → n < 2 ^ 31) (ids : List Int) (hne : ids ≠ [])
    (tag : Tag) (hs : 0 ≤ tag.step) :
    (truncF t { submodels := ids }).accepts tag = (decide (tag.submodel ∈ ids) && below t tag) := by
  have he : ids.isEmpty = false := by cases ids <;> simp_all
  have hc : ids.contains tag.submodel = decide (tag.submodel ∈ ids) := by
    rw [Bool.eq_iff_iff]; simp
  cases t with
  | none =>
    simp only [truncF, Filter.accepts, below, he, hc]
    simp [hs]
  | some n =>
    have h1 := toInt_small n (ht n rfl)
    have h2 : ((n : Int) == -1) = false := by
      rw [beq_eq_false_iff_ne]; omega
    simp only [truncF, Filter.accepts, below, he, hc, h1, h2]
    simp [hs, Bool.and_comm]

theorem filter_sum_mul (trees : List T) (p : T → Bool) (c : Rat) :
    ((trees.filter p).map fun t => t.adj * t.weight * c).sum =
      c * ((trees.filter p).map fun t => t.adj * t.weight).sum := by
  rw [List.sum_map_mul_right, mul_comm]

theorem scaledSum_single (trees : List T) (mult : List (Int × Nat)) (t : Option Nat)
    (ht : ∀ n, t = some n → n < 2 ^ 31) (hs : ∀ x ∈ trees, 0 ≤ x.tag.step) (id : Int) :
    scaledSum trees mult (truncF t { submodels := [id] }) = multOf mult id * submodelSum trees t id := by
  unfold scaledSum submodelSum
  have hf : (trees.filter fun x => (truncF t { submodels := [id] }).accepts x.tag) =
      trees.filter fun x => decide (x.tag.submodel = id) && below t x.tag := by
    apply List.filter_congr
    intro x hx
    rw [truncF_accepts t ht [id] (by simp) x.tag (hs x hx)]
    simp
  rw [hf, ← filter_sum_mul]
  congr 1
  apply List.map_congr_left
  intro x hx
  have : x.tag.submodel = id := by
    have := (List.mem_filter.1 hx).2
    simp only [Bool.and_eq_true, decide_eq_true_eq] at this
    exact this.1
  rw [this]

/-! ### Sums of expressions -/

theorem eval_addAll {α : Type} (I : Nat → List V → Option V) (ρ : Atom → Option V) (f : α → PE) (g : α → V) :
    ∀ (l : List α) (first : PE) (v : V), eval I ρ first = some v → (∀ x ∈ l, eval I ρ (f x) = some (g x)) →
      eval I ρ (addAll first (l.map f)) = some (v + (l.map g).sum) := by
  intro l
  induction l with
  | nil => intro first v h _; simpa [addAll] using h
  | cons x l ih =>
    intro first v h hl
    have hx := hl x (List.mem_cons_self ..)
    have hstep : eval I ρ (.op .add [first, f x]) = some (v + g x) := by
      simp only [eval, evalAll, h, hx, applyOp]; rfl
    have := ih _ _ hstep fun y hy => hl y (List.mem_cons_of_mem _ hy)
    simpa only [addAll, List.map_cons, List.foldl_cons, List.sum_cons, add_assoc] using this

theorem eval_embed (I : Nat → List V → Option V) (inputs : List (Key × V)) (key : Option Key) (tuple : List Rat)
    (hk : ∀ k, key = some k → inputs.lookup k = none) (e : E) :
    eval I (postEnv inputs key tuple) (embed e) = eval I (inputEnv inputs) e := by
  unfold embed subst
  rw [eval_bind]
  congr 1
  funext s
  cases s with
  | leaf k => simp [eval, postEnv, inputEnv]
  | ph k =>
    simp only [List.lookup_nil, eval, postEnv, inputEnv]
    split
    · rename_i h; exact (hk k h).symm
    · rfl

/-- The parameters `params` give every submodel its value in the bag. -/
def ParamsOk (a : Args) (key : Key) (tuple : List Rat) (params : List (Key × PE)) (n b : Nat) : Prop :=
  ∀ k, match a.submodelIds.lookup k with
    | none => params.lookup k = none
    | some s => ∃ j id, params.lookup k = some (.atom (.nth key j)) ∧ s[b]? = some id ∧
        tuple[j]? = some (n * submodelSum a.trees a.truncation id)

theorem eval_subst (I : Nat → List V → Option V) (a : Args) (inputs : List (Key × V)) (key : Key) (tuple : List Rat)
    (params : List (Key × PE)) (n b : Nat) (hp : ParamsOk a key tuple params n b)
    (hk : ∃ s, a.submodelIds.lookup key = some s) (e : E) :
    eval I (postEnv inputs (some key) tuple) (subst params e) = eval I (bagEnv a n inputs b) e := by
  unfold subst
  rw [eval_bind]
  congr 1
  funext s
  cases s with
  | leaf k => simp [eval, postEnv, bagEnv]
  | ph k =>
    have := hp k
    cases hl : a.submodelIds.lookup k with
    | none =>
      rw [hl] at this
      simp only [this, eval, postEnv, bagEnv, hl]
      rw [if_neg]
      intro h
      simp only [Option.some.injEq] at h
      subst h
      obtain ⟨s, hs⟩ := hk
      rw [hl] at hs; simp at hs
    | some s =>
      rw [hl] at this
      obtain ⟨j, id, h1, h2, h3⟩ := this
      simp [h1, eval, postEnv, bagEnv, hl, h2, h3]

/-! ### One bag -/

theorem noBagParams_spec (key : Key) (g : List Int → Rat) (tuple : List Rat) :
    ∀ (ids : List (Key × List Int)) (i : Nat),
      (∀ j, j < (noBagParams key ids i).2.length →
        tuple[i + j]? = ((noBagParams key ids i).2[j]?).map fun f => g f.submodels) →
      ∀ k, match ids.lookup k with
        | none => (noBagParams key ids i).1.lookup k = none
        | some s => ∃ j, (noBagParams key ids i).1.lookup k = some (.atom (.nth key j)) ∧ tuple[j]? = some (g s) := by
  intro ids
  induction ids with
  | nil => intro i _ k; rfl
  | cons s rest ih =>
    obtain ⟨k0, s0⟩ := s
    intro i h k
    simp only [noBagParams, List.lookup_cons] at h ⊢
    cases hk : k == k0 with
    | true =>
      refine ⟨i, rfl, ?_⟩
      have := h 0 (by simp)
      simpa using this
    | false =>
      refine ih (i + 1) ?_ k
      intro j hj
      have := h (j + 1) (by simp; omega)
      simpa [Nat.add_assoc, Nat.add_comm 1 j] using this

theorem noBagParams_filters (key : Key) : ∀ (ids : List (Key × List Int)) (i : Nat),
    (noBagParams key ids i).2 = ids.map fun s => ({ submodels := s.2 } : Filter) := by
  intro ids
  induction ids with
  | nil => intro i; rfl
  | cons s rest ih => intro i; simp [noBagParams, ih]

/-! ### Several bags -/

theorem bagParams_spec (key : Key) (bag : Nat) (g : Int → Rat) (tuple : List Rat) :
    ∀ (ids : List (Key × List Int)) (i : Nat) (params : List (Key × PE)) (new : List Int),
      bagParams key bag ids i = .ok (params, new) →
      (∀ j, j < new.length → tuple[i + j]? = (new[j]?).map g) →
      ∀ k, match ids.lookup k with
        | none => params.lookup k = none
        | some s => ∃ j id, params.lookup k = some (.atom (.nth key j)) ∧ s[bag]? = some id ∧
            tuple[j]? = some (g id) := by
  intro ids
  induction ids with
  | nil =>
    intro i params new h _ k
    simp only [bagParams, Except.ok.injEq, Prod.mk.injEq] at h
    obtain ⟨rfl, rfl⟩ := h
    rfl
  | cons s rest ih =>
    obtain ⟨k0, s0⟩ := s
    intro i params new h ht k
    simp only [bagParams] at h
    cases hid : s0[bag]? with
    | none => rw [hid] at h; simp at h
    | some id =>
      rw [hid] at h
      cases hr : bagParams key bag rest (i + 1) with
      | error e => rw [hr] at h; simp at h
      | ok r =>
        rw [hr] at h
        simp only [Except.ok.injEq, Prod.mk.injEq] at h
        obtain ⟨rfl, rfl⟩ := h
        simp only [List.lookup_cons]
        cases hk : k == k0 with
        | true =>
          refine ⟨i, id, rfl, hid, ?_⟩
          have := ht 0 (by simp)
          simpa using this
        | false =>
          refine ih (i + 1) r.1 r.2 hr ?_ k
          intro j hj
          have := ht (j + 1) (by simp; omega)
          simpa [Nat.add_assoc, Nat.add_comm 1 j] using this

theorem bagLoop_spec (a : Args) (key : Key) (g : Int → Rat) (tuple : List Rat) (n : Nat) :
    ∀ (todo : List (Option E)) (b i : Nat) (bags : List PE) (new : List Int),
      bagLoop a key todo b i = .ok (bags, new) →
      (∀ id, id ∈ new → g id = n * submodelSum a.trees a.truncation id) →
      (∀ j, j < new.length → tuple[i + j]? = (new[j]?).map g) →
      bags.length = todo.length ∧
      ∀ x f, todo[x]? = some f → ∃ params, bags[x]? = some (bagExpr a params f) ∧
        ParamsOk a key tuple params n (b + x) := by
  intro todo
  induction todo with
  | nil =>
    intro b i bags new h _ _
    simp only [bagLoop, Except.ok.injEq, Prod.mk.injEq] at h
    obtain ⟨rfl, rfl⟩ := h
    simp
  | cons f rest ih =>
    intro b i bags new h hg ht
    simp only [bagLoop] at h
    cases hp : bagParams key b a.submodelIds i with
    | error e => rw [hp] at h; simp at h
    | ok pr =>
      obtain ⟨params, ids⟩ := pr
      rw [hp] at h
      simp only at h
      cases hr : bagLoop a key rest (b + 1) (i + ids.length) with
      | error e => rw [hr] at h; simp at h
      | ok r =>
        obtain ⟨bags', more⟩ := r
        rw [hr] at h
        simp only [Except.ok.injEq, Prod.mk.injEq] at h
        obtain ⟨rfl, rfl⟩ := h
        obtain ⟨i1, i2⟩ := ih (b + 1) (i + ids.length) bags' more hr
          (fun id hid => hg id (List.mem_append_right _ hid)) (by
            intro j hj
            have := ht (ids.length + j) (by simp; omega)
            rw [Nat.add_assoc, this, List.getElem?_append_right (by omega)]
            simp)
        refine ⟨by simp [i1], ?_⟩
        intro x f' hx
        cases x with
        | zero =>
          simp only [List.getElem?_cons_zero, Option.some.injEq] at hx
          subst hx
          refine ⟨params, rfl, ?_⟩
          have hps := bagParams_spec key b g tuple a.submodelIds i params ids hp (by
            intro j hj
            have := ht j (by simp; omega)
            rw [this, List.getElem?_append_left hj])
          intro k
          have := hps k
          cases hl : a.submodelIds.lookup k with
          | none => rw [hl] at this; exact this
          | some s =>
            rw [hl] at this
            obtain ⟨j, id, h1, h2, h3⟩ := this
            refine ⟨j, id, h1, by simpa using h2, ?_⟩
            rw [h3, hg id]
            -- `id` belongs to the new ids
            have hmem : ∀ (l : List (Key × List Int)) (i : Nat) (ps : List (Key × PE)) (nw : List Int),
                bagParams key b l i = .ok (ps, nw) → ∀ s, l.lookup k = some s → ∀ id, s[b]? = some id → id ∈ nw := by
              intro l
              induction l with
              | nil => intro i ps nw _ s hs; simp at hs
              | cons q l ihl =>
                obtain ⟨k0, s0⟩ := q
                intro i ps nw hq s hs id hid
                simp only [bagParams] at hq
                cases h0 : s0[b]? with
                | none => rw [h0] at hq; simp at hq
                | some id0 =>
                  rw [h0] at hq
                  cases hr' : bagParams key b l (i + 1) with
                  | error e => rw [hr'] at hq; simp at hq
                  | ok r' =>
                    rw [hr'] at hq
                    simp only [Except.ok.injEq, Prod.mk.injEq] at hq
                    obtain ⟨rfl, rfl⟩ := hq
                    simp only [List.lookup_cons] at hs
                    cases hk0 : k == k0 with
                    | true =>
                      rw [hk0] at hs
                      simp only [Option.some.injEq] at hs
                      subst hs
                      rw [h0] at hid
                      simp only [Option.some.injEq] at hid
                      simp [hid]
                    | false =>
                      rw [hk0] at hs
                      exact List.mem_cons_of_mem _ (ihl (i + 1) r'.1 r'.2 hr' s hs id hid)
            exact List.mem_append_left _ (hmem a.submodelIds i params ids hp s hl id h2)
        | succ x =>
          obtain ⟨ps, p1, p2⟩ := i2 x f' (by simpa using hx)
          exact ⟨ps, by simpa using p1, by simpa [Nat.add_assoc, Nat.add_comm 1 x] using p2⟩

/-! ### Means -/

theorem sum_enabled (l : List (Bool × V)) :
    (l.map fun x => if x.1 then x.2 else V.val 0).sum = ((l.filter Prod.fst).map Prod.snd).sum := by
  induction l with
  | nil => rfl
  | cons x l ih =>
    obtain ⟨c, v⟩ := x
    cases c
    · simp only [List.map_cons, List.sum_cons, Bool.false_eq_true, if_false, ih]
      exact zero_add _
    · simp [ih]

theorem count_enabled (l : List Bool) :
    (l.map fun c => if c then V.val 1 else V.val 0).sum = V.val ((l.filter id).length : Rat) := by
  induction l with
  | nil => simp [V.zero_def]
  | cons c l ih =>
    cases c
    · simp only [List.map_cons, List.sum_cons, Bool.false_eq_true, if_false, ih]
      exact zero_add _
    · simp only [List.map_cons, List.sum_cons, if_true, ih, V.val_add, List.filter_cons, id, List.length_cons]
      congr 1
      push_cast
      ring

theorem zip_filter_length (ws : List Bool) : ∀ (vs : List V), ws.length = vs.length →
    (((ws.zip vs).filter Prod.fst).map Prod.snd).length = (ws.filter id).length := by
  induction ws with
  | nil => intro vs _; simp
  | cons w ws ih =>
    intro vs h
    cases vs with
    | nil => simp at h
    | cons v vs =>
      have := ih vs (by simpa using h)
      cases w <;> simp_all

end Verif.FModel
