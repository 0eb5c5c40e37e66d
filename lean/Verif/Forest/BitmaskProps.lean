import Verif.Forest.BitmaskBuildLemmas
import Mathlib.Data.List.Perm.Basic

/-!
# C63: bitmask evaluation of forests
-/

namespace Verif.Forest

variable {A M : Type}

/-! ### Specification -/

/-- What is added to a builder. -/
inductive AddOp (A M : Type) where
  /-- `AddSmallTree` -/
  | small (t : Tree Cond A) (group : Nat)
  /-- `AddObliviousTree` -/
  | oblivious (t : OblTree M)

def AddOp.group : AddOp A M → Nat
  | .small _ g => g
  | .oblivious t => t.group

/-- The calls in order. -/
def addOps (scale : A → A → M) (fuel : Nat) : List (AddOp A M) → BBuilder M → Option (BBuilder M)
  | [], b => some b
  | .small t g :: rest, b => (addSmallTree scale fuel b t g).bind (addOps scale fuel rest)
  | .oblivious t :: rest, b => addOps scale fuel rest (addOblivious b t.tree t.tag t.group)

/-- What the caller has to guarantee: trees with at most 64 leaves which are really trees, oblivious trees with one
adjustment for every combination of the layers, supported conditions without NaN bounds. -/
def AddOp.Ok (G : Nat) : AddOp A M → Prop
  | .small t g => g < G ∧ Proper t ∧ t.adjustments.length ≤ 64 ∧
      ∀ n ∈ t.splits, n.cond.supported = true ∧ n.cond.NoNan
  | .oblivious t => t.group < G ∧ t.tree.adjustments.length = 2 ^ t.tree.layers.length ∧ t.tree.layers.length < 32 ∧
      ∀ c ∈ t.tree.layers, c.supported = true ∧ c.NoNan

/-- The value of a tree: the adjustment at the end of the path of the conditions times the weight, the adjustment whose
number has the values of the layers as binary digits. -/
def AddOp.Value (scale : A → A → M) (env : Env) (v : M) : AddOp A M → Prop
  | .small t _ => ∃ i a, Path (Cond.eval env) t t.root i ∧ t.adjustments[i]? = some a ∧ v = scale a t.weight
  | .oblivious t => t.tree.adjustments[layerIndex (Cond.eval env) t.tree.layers]? = some v

/-! ### Values of single trees -/

theorem small_value {w : Nat} (scale : A → A → M) (env : Env) (weight : A) (b : BT Cond A) {S : List MaskedSplit}
    (h : Masks b 0 S) (hl : b.leaves.length ≤ w) :
    (⟨S, b.leaves.map (scale · weight)⟩ : PT M).value w regularLeaf env (scale (b.eval (Cond.eval env)) weight) := by
  intro mask hm
  obtain ⟨h1, h2, -⟩ := masks_bits (Cond.eval env) b 0 S h
  have hp := pos_lt (Cond.eval env) b
  refine ⟨b.pos (Cond.eval env), regularLeaf_spec (by omega) (fun i hi => ?_) ?_, ?_⟩
  · rw [hm]
    obtain ⟨s, hs, he, hb⟩ := h1 i (Nat.zero_le _) (by omega)
    refine ⟨s, hs, he, ?_⟩
    rw [BitVec.getLsbD_setWidth, hb]
    simp; omega
  · rw [← Bool.not_eq_true, hm]
    rintro ⟨s, hs, he, hb⟩
    rw [BitVec.getLsbD_setWidth, Bool.and_eq_true] at hb
    exact h2 ⟨s, hs, he, by rw [Nat.zero_add]; exact hb.2⟩
  · simp [pos_spec]

theorem layerSplits_conds {w : Nat} : ∀ (layers : List Cond) (m : BitVec w), ∀ s ∈ layerSplits m layers, s.cond ∈ layers := by
  intro layers
  induction layers with
  | nil => simp [layerSplits]
  | cons c cs ih =>
    intro m s hs
    simp only [layerSplits, List.mem_cons] at hs
    rcases hs with rfl | hs
    · simp
    · exact List.mem_cons_of_mem _ (ih _ s hs)

theorem layer_bits {w : Nat} (hw : w ≤ 64) (env : Env) : ∀ (layers : List Cond), layers.length < w → ∀ i,
    (∃ x ∈ layerSplits (BitVec.ofNat w (2 ^ layers.length)) layers, x.cond.eval env = true ∧
      (x.mask.setWidth w).getLsbD i = true) ↔ (layerIndex (Cond.eval env) layers).testBit i = true := by
  intro layers
  induction layers with
  | nil => intro _ i; simp [layerSplits, layerIndex]
  | cons c cs ih =>
    intro hl i
    simp only [List.length_cons] at hl
    have hsh : BitVec.ofNat w (2 ^ (cs.length + 1)) >>> 1 = BitVec.ofNat w (2 ^ cs.length) := by
      apply BitVec.eq_of_toNat_eq
      rw [BitVec.toNat_ushiftRight, BitVec.toNat_ofNat, BitVec.toNat_ofNat, Nat.mod_eq_of_lt, Nat.mod_eq_of_lt,
        Nat.shiftRight_eq_div_pow, Nat.pow_one, Nat.pow_succ, Nat.mul_div_cancel _ (by omega)]
      · exact Nat.pow_lt_pow_right (by omega) (by omega)
      · exact Nat.pow_lt_pow_right (by omega) hl
    simp only [layerSplits, List.length_cons, hsh, List.exists_mem_cons_iff]
    rw [ih (by omega), layerIndex_cons]
    have hlt := layerIndex_lt (Cond.eval env) cs
    have hb : (((BitVec.ofNat w (2 ^ cs.length)).setWidth 64).setWidth w).getLsbD i = decide (cs.length = i) := by
      rw [BitVec.getLsbD_setWidth, BitVec.getLsbD_setWidth, BitVec.getLsbD_ofNat, Nat.testBit_two_pow]
      by_cases he : cs.length = i
      · subst he
        simp; omega
      · simp [he]
    rw [hb]
    by_cases hc : c.eval env = true
    · simp only [hc, true_and, if_true, decide_eq_true_eq]
      by_cases he : cs.length = i
      · subst he
        simp [Nat.testBit_two_pow_add_eq, Nat.testBit_lt_two_pow hlt]
      · simp only [he, false_or]
        rcases Nat.lt_or_gt_of_ne he with h | h
        · rw [Nat.testBit_lt_two_pow (Nat.lt_trans hlt (Nat.pow_lt_pow_right (by omega) h)),
            Nat.testBit_lt_two_pow]
          have : 2 ^ (cs.length + 1) ≤ 2 ^ i := Nat.pow_le_pow_right (by omega) h
          rw [Nat.pow_succ] at this
          omega
        · rw [Nat.testBit_two_pow_add_gt h]
    · simp [hc]

theorem oblivious_value {w : Nat} (hw : w ≤ 64) (env : Env) {t : OblTree M}
    (hl : t.tree.adjustments.length = 2 ^ t.tree.layers.length) (hd : t.tree.layers.length < w) {v : M}
    (hv : t.tree.adjustments[layerIndex (Cond.eval env) t.tree.layers]? = some v) :
    (oblPT w t).value w obliviousLeaf env v := by
  intro mask hm
  refine ⟨mask.toNat, rfl, ?_⟩
  suffices h : mask.toNat = layerIndex (Cond.eval env) t.tree.layers by rw [h]; exact hv
  apply Nat.eq_of_testBit_eq
  intro i
  rw [Bool.eq_iff_iff, ← layer_bits hw env t.tree.layers hd i, ← hl]
  exact hm i

/-! ### The builder -/

def smalls : List (AddOp A M) → List (Tree Cond A × Nat)
  | [] => []
  | .small t g :: rest => (t, g) :: smalls rest
  | .oblivious _ :: rest => smalls rest

def obls : List (AddOp A M) → List (OblTree M)
  | [] => []
  | .small _ _ :: rest => obls rest
  | .oblivious t :: rest => t :: obls rest

/-- The relation of a tree and its stored form. -/
def Stored (scale : A → A → M) (p : Tree Cond A × Nat) (mt : MaskedTree M) : Prop :=
  mt.group = p.2 ∧ ∃ b, Denotes p.1 p.1.root b ∧ b.leaves.length ≤ p.1.adjustments.length ∧ Masks b 0 mt.splits ∧
    mt.adjustments = b.leaves.map (scale · p.1.weight)

theorem addOps_ok (scale : A → A → M) (G fuel : Nat) : ∀ (ops : List (AddOp A M)) (b : BBuilder M),
    (∀ op ∈ ops, op.Ok G) → (∀ t g, .small t g ∈ ops → t.splits.length ≤ fuel) →
    ∃ b', addOps scale fuel ops b = some b' ∧
      (∃ l, b'.masked = b.masked ++ l ∧ List.Forall₂ (Stored scale) (smalls ops) l) ∧
      b'.oblivious = b.oblivious ++ obls ops ∧
      (b'.mask64 = false → b.mask64 = false ∧ ∀ p ∈ smalls ops, p.1.adjustments.length ≤ 32) := by
  intro ops
  induction ops with
  | nil => intro b _ _; exact ⟨b, rfl, ⟨[], by simp, .nil⟩, by simp [obls], fun h => ⟨h, by simp [smalls]⟩⟩
  | cons op ops ih =>
    intro b hok hf
    cases op with
    | small t g =>
      obtain ⟨-, hp, h64, hc⟩ := hok (.small t g) (by simp)
      obtain ⟨bt, hb⟩ := proper_denotes hp
      have hlv := proper_leaves hp hb
      have hin := leaves_length bt
      obtain ⟨m, S, e, hM, -⟩ := maskDfs_spec scale hb fuel [] []
        (by have := hf t g (by simp); have := hp.regions; omega) (by simp; omega)
      obtain ⟨b', e', ⟨l, hl1, hl2⟩, ho, h32⟩ := ih (b := { b with
          masked := b.masked ++ [⟨g, t.tag, S, bt.leaves.map (scale · t.weight)⟩]
          mask64 := b.mask64 || decide (t.adjustments.length > 32) }) (fun op h => hok op (by simp [h]))
        (fun t g h => hf t g (by simp [h]))
      refine ⟨b', ?_, ⟨⟨g, t.tag, S, bt.leaves.map (scale · t.weight)⟩ :: l, ?_, ?_⟩, ?_, ?_⟩
      · simp only [addOps, addSmallTree, e, Option.bind_eq_bind, Option.bind_some, Option.pure_def, List.nil_append]
        exact e'
      · rw [hl1]; simp
      · exact .cons ⟨rfl, bt, hb, hlv, hM, rfl⟩ hl2
      · exact ho
      · intro h
        obtain ⟨h1, h2⟩ := h32 h
        simp only [Bool.or_eq_false_iff, decide_eq_false_iff_not] at h1
        refine ⟨h1.1, fun p hp' => ?_⟩
        simp only [smalls, List.mem_cons] at hp'
        rcases hp' with rfl | hp'
        · simp only; omega
        · exact h2 p hp'
    | oblivious t =>
      obtain ⟨b', e', hl, ho, h32⟩ := ih (addOblivious b t.tree t.tag t.group) (fun op h => hok op (by simp [h]))
        (fun t g h => hf t g (by simp [h]))
      refine ⟨b', e', hl, ?_, fun h => ?_⟩
      · rw [ho]; simp [addOblivious, obls]
      · obtain ⟨h1, h2⟩ := h32 h
        simp only [addOblivious, Bool.or_eq_false_iff] at h1
        exact ⟨h1.1, h2⟩

theorem mem_smalls {ops : List (AddOp A M)} {p : Tree Cond A × Nat} : p ∈ smalls ops ↔ .small p.1 p.2 ∈ ops := by
  induction ops with
  | nil => simp [smalls]
  | cons op ops ih =>
    cases op with
    | small t g => simp [smalls, ih, Prod.ext_iff]
    | oblivious t => simp [smalls, ih]

theorem mem_obls {ops : List (AddOp A M)} {t : OblTree M} : t ∈ obls ops ↔ .oblivious t ∈ ops := by
  induction ops with
  | nil => simp [obls]
  | cons op ops ih =>
    cases op with
    | small t g => simp [obls, ih]
    | oblivious t => simp [obls, ih]

theorem sums_split [AddCommMonoid M] (ops : List (AddOp A M)) (val : AddOp A M → M) (g : Nat) :
    ((ops.filter fun op => decide (op.group = g)).map val).sum =
      (((smalls ops).filter fun p => decide (p.2 = g)).map fun p => val (.small p.1 p.2)).sum +
      (((obls ops).filter fun t => decide (t.group = g)).map fun t => val (.oblivious t)).sum := by
  induction ops with
  | nil => simp [smalls, obls]
  | cons op ops ih =>
    cases op with
    | small t g' =>
      by_cases hg : g' = g
      · have h1 : ((AddOp.small t g' : AddOp A M).group) = g := hg
        rw [List.filter_cons_of_pos (by simpa using h1), smalls, obls, List.filter_cons_of_pos (by simpa using hg)]
        simp only [List.map_cons, List.sum_cons, ih, add_assoc]
      · have h1 : ¬ ((AddOp.small t g' : AddOp A M).group) = g := hg
        rw [List.filter_cons_of_neg (by simpa using h1), smalls, obls, List.filter_cons_of_neg (by simpa using hg)]
        exact ih
    | oblivious t =>
      by_cases hg : t.group = g
      · have h1 : ((AddOp.oblivious t : AddOp A M).group) = g := hg
        rw [List.filter_cons_of_pos (by simpa using h1), smalls, obls, List.filter_cons_of_pos (by simpa using hg)]
        simp only [List.map_cons, List.sum_cons, ih]
        exact add_left_comm _ _ _
      · have h1 : ¬ ((AddOp.oblivious t : AddOp A M).group) = g := hg
        rw [List.filter_cons_of_neg (by simpa using h1), smalls, obls, List.filter_cons_of_neg (by simpa using hg)]
        exact ih

/-- Filtering by group commutes with a relation which determines the group. -/
theorem forall₂_group {α β : Type} {R : α → β → Prop} {ga : α → Nat} {gb : β → Nat} (g : Nat)
    (hR : ∀ a b, R a b → ga a = gb b) {l : List α} {l' : List β} (h : List.Forall₂ R l l') :
    List.Forall₂ R (l.filter fun a => decide (ga a = g)) (l'.filter fun b => decide (gb b = g)) := by
  induction h with
  | nil => exact .nil
  | @cons a b _ _ hab _ ih =>
    simp only [List.filter_cons, hR a b hab]
    split
    · exact .cons hab ih
    · exact ih

/-- The evaluator for masks of width `w`. -/
theorem buildImpl_ok [AddCommMonoid M] {w : Nat} (hw : w ≤ 64) {o : Oracles} (ho : o.Ok) (G : Nat) (scale : A → A → M)
    (ops : List (AddOp A M)) (b : BBuilder M) (hok : ∀ op ∈ ops, op.Ok G)
    (hm : List.Forall₂ (Stored scale) (smalls ops) b.masked) (hob : b.oblivious = obls ops)
    (h1 : ∀ p ∈ smalls ops, p.1.adjustments.length ≤ w) (h2 : ∀ t ∈ obls ops, t.tree.layers.length < w) :
    ∃ e, buildImpl w o G b = some e ∧ ∀ (env : Env) (val : AddOp A M → M), (∀ op ∈ ops, op.Value scale env (val op)) →
      ∀ outs, outs.length = G → e.eval 0 (· + ·) env outs =
        some ((List.range' 0 G).zipWith
          (fun g x => x + ((ops.filter fun op => decide (op.group = g)).map val).sum) outs) := by
  have pm := ho.sort_perm (groupLt maskedKey) b.masked
  have po := ho.sort_perm (groupLt oblKey) b.oblivious
  have sm : ∀ t ∈ o.sort (groupLt maskedKey) b.masked, (maskedPT t).Supported := by
    intro t ht s hs
    obtain ⟨k, hk, hkt⟩ := List.mem_iff_getElem.1 (pm.mem_iff.1 ht)
    have hk' : k < (smalls ops).length := by rw [hm.length_eq]; exact hk
    have hst := hm.get hk' hk
    simp only [List.get_eq_getElem, hkt] at hst
    obtain ⟨-, bt, hb, -, hM, -⟩ := hst
    obtain ⟨n, hn, he⟩ := denotes_conds hb _ (masks_conds hM s hs)
    have := hok _ (mem_smalls.1 (List.getElem_mem hk'))
    rw [← he]
    exact this.2.2.2 n hn
  have so : ∀ t ∈ o.sort (groupLt oblKey) b.oblivious, (oblPT w t).Supported := by
    intro t ht s hs
    have := hok _ (mem_obls.1 (hob ▸ po.mem_iff.1 ht))
    exact this.2.2.2 _ (layerSplits_conds _ _ s hs)
  obtain ⟨s, gs, Tf, e1, hl, hs, -, hgs⟩ := buildGroups_ok G 0 _ _ ({} : BState w M) [] bstateOk_empty sm so
    (group_sorted ho maskedKey b.masked) (group_sorted ho oblKey b.oblivious) (by simp) (by simp)
  have piv := ho.order_perm s.building.iv
  have pset := ho.order_perm s.building.sets
  obtain ⟨d, e2, hd, hds, hdh⟩ := finishIv_spec ho Tf.length (o.order s.building.iv) ({} : SplitsData w)
    (fun e he => hs.good.1 e (piv.mem_iff.1 he)) ⟨by simp, by simp, by simp, by simp, by simp⟩
  refine ⟨⟨s.trees, gs, s.adjustments, { d with sets := o.order s.building.sets }⟩, ?_, fun env val hval outs hout => ?_⟩
  · simp only [buildImpl, e1, e2, Option.bind_eq_bind, Option.bind_some, Option.pure_def]
  · have hd' : DataGood Tf.length { d with sets := o.order s.building.sets } :=
      { hd with sets := fun x hx => hs.good.2 x (pset.mem_iff.1 hx) }
    obtain ⟨masks, m1, m2, m3⟩ := findMasks_spec env hd'
    have hbits : ∀ j i, Bit masks j i ↔ ∃ p, Tf[j]? = some p ∧ p.Hits w env i := by
      intro j i
      rw [m3, ← hs.hits, Building.Hits]
      refine or_congr ?_ ?_
      · rw [show ({ d with sets := o.order s.building.sets } : SplitsData w).IvHits Tf.length env j i ↔
          d.IvHits Tf.length env j i from Iff.rfl, hdh]
        simp only [piv.mem_iff]
        have : ¬ ({} : SplitsData w).IvHits Tf.length env j i := by simp [SplitsData.IvHits]
        simp only [this, false_or]
      · simp only [pset.mem_iff]
    have hit : ∀ leaf : BitVec w → Option Nat, ∀ (j : Nat) (p : PT M) (v : M), Tf[j]? = some p → p.value w leaf env v →
        ∀ acc : M, loopIter (· + ·) (⟨s.trees, gs, s.adjustments, { d with sets := o.order s.building.sets }⟩ :
          BitmaskEval w M) masks leaf j acc = some (acc + v) := by
      intro leaf j p v hj hv acc
      exact loopIter_ok hs.adj m2 hbits hj hv acc
    simp only [BitmaskEval.eval, hs.trees, m1, Option.bind_eq_bind, Option.bind_some]
    -- values of the stored trees
    have vm : List.Forall₂ (fun mt (x : Nat × M) => mt.group = x.1 ∧ (maskedPT mt).value w regularLeaf env x.2) b.masked
        ((smalls ops).map fun p => (p.2, val (.small p.1 p.2))) := by
      rw [List.forall₂_map_right_iff]
      refine List.Forall₂.flip ?_
      rw [List.forall₂_iff_get] at hm ⊢
      refine ⟨hm.1, fun i hi hi' => ?_⟩
      obtain ⟨q1, bt, q2, q3, q4, q5⟩ := hm.2 i hi hi'
      refine ⟨q1, ?_⟩
      have hmem := mem_smalls.1 (List.get_mem (smalls ops) ⟨i, hi⟩)
      obtain ⟨k, a, v1, v2, v3⟩ := hval _ hmem
      obtain ⟨k', w1, w2⟩ := eval_of_denotes (ev := Cond.eval env) q2
      have := path_unique v1 w1
      subst this
      rw [v2] at w2
      cases w2
      rw [v3, maskedPT, q5]
      exact small_value scale env _ bt q4 (Nat.le_trans q3 (h1 _ (List.get_mem (smalls ops) ⟨i, hi⟩)))
    have vo : List.Forall₂ (fun (t : OblTree M) (x : Nat × M) => t.group = x.1 ∧ (oblPT w t).value w obliviousLeaf env x.2)
        b.oblivious ((obls ops).map fun t => (t.group, val (.oblivious t))) := by
      rw [hob, List.forall₂_map_right_iff, List.forall₂_same]
      intro t ht
      have := hok _ (mem_obls.1 ht)
      exact ⟨rfl, oblivious_value hw env this.2.1 (h2 t ht) (hval _ (mem_obls.1 ht))⟩
    obtain ⟨xm, xm1, xm2⟩ := List.perm_comp_forall₂ pm vm
    obtain ⟨xo, xo1, xo2⟩ := List.perm_comp_forall₂ po vo
    have hsum : ∀ {α : Type} {sorted : List α} {toPT : α → PT M} {gr : α → Nat} {leaf : BitVec w → Option Nat}
        {x y : List (Nat × M)} {g : Nat} {r : Nat × Nat},
        List.Forall₂ (fun t (x : Nat × M) => gr t = x.1 ∧ (toPT t).value w leaf env x.2) sorted x → x.Perm y →
        Slice Tf r ((sorted.filter fun t => decide (gr t = 0 + g)).map toPT) →
        processRangeOfTrees 0 (· + ·) (⟨s.trees, gs, s.adjustments, { d with sets := o.order s.building.sets }⟩ :
          BitmaskEval w M) masks leaf r = some ((y.filter fun z => decide (z.1 = g)).map Prod.snd).sum := by
      intro α sorted toPT gr leaf x y g r hf hp hsl
      rw [Nat.zero_add] at hsl
      have hf' := forall₂_group (gb := Prod.fst) g (fun _ _ h => h.1) hf
      rw [processRangeOfTrees_ok (hit leaf) hsl (vs := (x.filter fun z => decide (z.1 = g)).map Prod.snd) (by
        rw [List.forall₂_map_left_iff, List.forall₂_map_right_iff]
        exact hf'.imp fun _ _ h => h.2)]
      rw [((hp.filter _).map _).sum_eq]
    rw [evalGroups_ok gs outs (fun g => ((ops.filter fun op => decide (op.group = g)).map val).sum) 0 (by omega), hout]
    intro k grp hk
    obtain ⟨q1, q2⟩ := hgs k grp hk
    refine ⟨_, _, hsum xm1 xm2 q1, hsum xo1 xo2 q2, ?_⟩
    rw [Nat.zero_add, sums_split]
    simp only [List.filter_map, List.map_map]
    rfl

/-- Bitmask evaluation computes the sums of the values of the trees: for any order of the `Add…` calls, any sort function
and any iteration order of the hash maps the builder succeeds, and for every input the evaluator adds to the output of
every group exactly the sum of the values of the trees of that group.  No access is out of bounds. -/
theorem bitmask_eval [AddCommMonoid M] {o : Oracles} (ho : o.Ok) (G fuel : Nat) (scale : A → A → M)
    (ops : List (AddOp A M)) (hok : ∀ op ∈ ops, op.Ok G) (hf : ∀ t g, .small t g ∈ ops → t.splits.length ≤ fuel) :
    ∃ b ev, addOps scale fuel ops {} = some b ∧ b.build o G = some ev ∧
      ∀ (env : Env) (val : AddOp A M → M), (∀ op ∈ ops, op.Value scale env (val op)) →
        ∀ outs, outs.length = G → ∃ outs', ev.eval 0 (· + ·) env outs = some outs' ∧ outs'.length = G ∧
          ∀ g x, outs[g]? = some x →
            outs'[g]? = some (x + ((ops.filter fun op => decide (op.group = g)).map val).sum) := by
  obtain ⟨b, e, ⟨l, hl, hst⟩, hob, h32⟩ := addOps_ok scale G fuel ops {} hok hf
  simp only [List.nil_append] at hl hob
  subst hl
  have fin : ∀ (f : Nat → M) (outs : List M), outs.length = G →
      ((List.range' 0 G).zipWith (fun g x => x + f g) outs).length = G ∧
      ∀ g x, outs[g]? = some x → ((List.range' 0 G).zipWith (fun g x => x + f g) outs)[g]? = some (x + f g) := by
    intro f outs hout
    refine ⟨by simp [hout], fun g x hx => ?_⟩
    have hg : g < G := by rw [← hout]; exact (List.getElem?_eq_some_iff.1 hx).1
    rw [List.getElem?_zipWith, hx]
    simp [hg]
  by_cases hem : (b.masked.isEmpty && b.oblivious.isEmpty) = true
  · refine ⟨b, .none, e, by simp [BBuilder.build, hem], fun env val _ outs hout => ⟨outs, rfl, hout, fun g x hx => ?_⟩⟩
    simp only [Bool.and_eq_true, List.isEmpty_iff] at hem
    have h1 : smalls ops = [] := by
      have := hst.length_eq
      rw [hem.1] at this
      exact List.length_eq_zero_iff.1 (by simpa using this)
    have h2 : obls ops = [] := by rw [← hob]; exact hem.2
    rw [hx, sums_split, h1, h2]
    simp
  · cases h64 : b.mask64 with
    | false =>
      obtain ⟨ev, e1, e2⟩ := buildImpl_ok (w := 32) (by omega) ho G scale ops b hok hst hob (h32 h64).2 (fun t ht => by
        have := hok _ (mem_obls.1 ht); exact this.2.2.1)
      refine ⟨b, .mask32 ev, e, by simp [BBuilder.build, hem, h64, e1], fun env val hv outs hout => ?_⟩
      exact ⟨_, e2 env val hv outs hout, fin _ outs hout⟩
    | true =>
      obtain ⟨ev, e1, e2⟩ := buildImpl_ok (w := 64) (by omega) ho G scale ops b hok hst hob (fun p hp => by
          have := hok _ (mem_smalls.1 hp); exact this.2.2.1) (fun t ht => by
        have := hok _ (mem_obls.1 ht); have := this.2.2.1; omega)
      refine ⟨b, .mask64 ev, e, by simp [BBuilder.build, hem, h64, e1], fun env val hv outs hout => ?_⟩
      exact ⟨_, e2 env val hv outs hout, fin _ outs hout⟩

/-- Every tree which meets the hypotheses has a value. -/
theorem addOp_value {scale : A → A → M} {G : Nat} {op : AddOp A M} (h : op.Ok G) (env : Env) :
    ∃ v, op.Value scale env v := by
  cases op with
  | small t g =>
    obtain ⟨b, hb⟩ := proper_denotes h.2.1
    obtain ⟨i, h1, h2⟩ := eval_of_denotes (ev := Cond.eval env) hb
    exact ⟨_, i, _, h1, h2, rfl⟩
  | oblivious t =>
    have := layerIndex_lt (Cond.eval env) t.tree.layers
    rw [← h.2.1] at this
    exact ⟨_, List.getElem?_eq_getElem this⟩

/-! ### Non-vacuity: concrete oracles and a concrete forest -/

def insertSorted {α : Type} (lt : α → α → Bool) (x : α) : List α → List α
  | [] => [x]
  | y :: ys => if lt x y then x :: y :: ys else y :: insertSorted lt x ys

def insertionSort {α : Type} (lt : α → α → Bool) : List α → List α
  | [] => []
  | x :: xs => insertSorted lt x (insertionSort lt xs)

/-- Insertion sort, and hash maps iterated backwards. -/
def sampleOracles : Oracles := ⟨insertionSort, List.reverse⟩

theorem insertSorted_perm {α : Type} (lt : α → α → Bool) (x : α) : ∀ l, (insertSorted lt x l).Perm (x :: l) := by
  intro l
  induction l with
  | nil => exact .refl _
  | cons y ys ih =>
    rw [insertSorted]
    split
    · exact .refl _
    · exact (List.Perm.cons y ih).trans (List.Perm.swap x y ys)

theorem insertionSort_perm {α : Type} (lt : α → α → Bool) : ∀ l, (insertionSort lt l).Perm l := by
  intro l
  induction l with
  | nil => exact .refl _
  | cons x xs ih => exact (insertSorted_perm lt x _).trans (List.Perm.cons x ih)

theorem insertSorted_sorted {α : Type} {lt : α → α → Bool} {S : List α} (hS : StrictWeak lt S) {x : α} (hx : x ∈ S) :
    ∀ l, (∀ y ∈ l, y ∈ S) → l.Pairwise (fun a b => lt b a = false) →
      (insertSorted lt x l).Pairwise (fun a b => lt b a = false) := by
  intro l
  induction l with
  | nil => intro _ _; simp [insertSorted]
  | cons y ys ih =>
    intro hl hp
    obtain ⟨h1, h2⟩ := List.pairwise_cons.1 hp
    have hy := hl y (by simp)
    rw [insertSorted]
    split
    · rename_i hxy
      refine List.pairwise_cons.2 ⟨fun z hz => ?_, hp⟩
      rw [← Bool.not_eq_true]
      intro hzx
      have hzS := hl z hz
      have := hS.trans z hzS x hx y hy hzx hxy
      rcases List.mem_cons.1 hz with rfl | hz
      · rw [hS.irrefl _ hzS] at this; cases this
      · rw [h1 z hz] at this; cases this
    · rename_i hxy
      refine List.pairwise_cons.2 ⟨fun z hz => ?_, ih (fun z hz => hl z (by simp [hz])) h2⟩
      rcases List.mem_cons.1 ((insertSorted_perm lt x ys).mem_iff.1 hz) with rfl | hz
      · simpa using hxy
      · exact h1 z hz

theorem sampleOracles_ok : sampleOracles.Ok := by
  refine ⟨fun lt l => insertionSort_perm lt l, fun lt l h => ?_, fun l => List.reverse_perm l⟩
  have key : ∀ l' : List _, (∀ x ∈ l', x ∈ l) → (insertionSort lt l').Pairwise fun a b => lt b a = false := by
    intro l'
    induction l' with
    | nil => intro _; simp [insertionSort]
    | cons x xs ih =>
      intro hl
      exact insertSorted_sorted h (hl x (by simp)) _
        (fun y hy => hl y (by simp [(insertionSort_perm lt xs).mem_iff.1 hy])) (ih fun y hy => hl y (by simp [hy]))
  exact key l fun x hx => hx

/-- A tree with an interval and a set, not symmetric. -/
def bitmaskTree : Tree Cond Int :=
  ⟨[⟨.split 1, .leaf 2, .interval 0 (.num 1) (.num 5)⟩, ⟨.leaf 0, .leaf 1, .setI64 1 [3, 4] true⟩], [10, 20, 30], 2, ⟨0, 1⟩⟩

def bitmaskOps : List (AddOp Int Int) :=
  [.small bitmaskTree 1,
    .oblivious ⟨0, ⟨1, 0⟩, ⟨[.interval 0 .ninf (.num 3), .interval 0 (.num 2) .pinf], [1, 2, 3, 4]⟩⟩,
    .small bitmaskTree 0]

theorem bitmaskTree_proper : Proper bitmaskTree :=
  ⟨⟨by decide, by decide, rfl, by simp [bitmaskTree]; omega, by simp [bitmaskTree]⟩,
    by decide +kernel, by decide +kernel⟩

example : (∀ op ∈ bitmaskOps, op.Ok 2) ∧ ∀ t g, .small t g ∈ bitmaskOps → t.splits.length ≤ 2 := by
  refine ⟨?_, ?_⟩
  · intro op hop
    simp only [bitmaskOps, List.mem_cons, List.not_mem_nil, or_false] at hop
    rcases hop with rfl | rfl | rfl
    · exact ⟨by omega, bitmaskTree_proper, by decide, by simp [bitmaskTree, Cond.supported, Cond.NoNan]⟩
    · exact ⟨by decide, rfl, by decide, by simp [Cond.supported, Cond.NoNan]⟩
    · exact ⟨by omega, bitmaskTree_proper, by decide, by simp [bitmaskTree, Cond.supported, Cond.NoNan]⟩
  · intro t g h
    simp only [bitmaskOps, List.mem_cons, List.not_mem_nil, or_false, AddOp.small.injEq, reduceCtorEq, false_or] at h
    rcases h with ⟨rfl, -⟩ | ⟨rfl, -⟩ <;> decide

/-- The evaluation with float input 0 equal to 2 or 7 and integer input 1 missing. -/
example :
    (((addOps (fun a w => a * w) 2 bitmaskOps {}).bind fun b => b.build sampleOracles 2).bind fun e =>
      e.eval 0 (· + ·) ⟨fun _ => some (.num 2), fun _ => none, fun _ => false⟩ [1000, 2000]) = some [1064, 2060] ∧
    (((addOps (fun a w => a * w) 2 bitmaskOps {}).bind fun b => b.build sampleOracles 2).bind fun e =>
      e.eval 0 (· + ·) ⟨fun _ => some (.num 7), fun _ => none, fun _ => false⟩ [1000, 2000]) = some [1042, 2040] :=
  ⟨by decide +kernel, by decide +kernel⟩

/-! ### What fails without the hypotheses -/

/-- An interval with a NaN bound: the condition is false for every input, the bitmask evaluator treats it as true for
values up to the right bound. -/
theorem bitmask_nan_bound_counterexample :
    let t : Tree Cond Int := ⟨[⟨.leaf 0, .leaf 1, .interval 0 .nan (.num 5)⟩], [10, 20], 1, ⟨0, 0⟩⟩
    let env : Env := ⟨fun _ => some (.num 2), fun _ => none, fun _ => false⟩
    Proper t ∧ Path (Cond.eval env) t t.root 0 ∧
    (((addOps (M := Int) (fun a w => a * w) 1 [.small t 0] {}).bind fun b => b.build sampleOracles 1).bind fun e =>
      e.eval 0 (· + ·) env [0]) = some [20] := by
  refine ⟨⟨⟨by decide, by decide, rfl, by simp; omega, by simp⟩, by decide +kernel, by decide +kernel⟩, ?_, by decide +kernel⟩
  exact .no (k := 0) (n := ⟨.leaf 0, .leaf 1, .interval 0 .nan (.num 5)⟩) rfl rfl (.leaf 0)

/-- Split nodes `0 … n - 1`, both children of each being the next one. -/
def chainTree (n : Nat) : Tree Cond Int :=
  ⟨((List.range (n - 1)).map fun k => ⟨.split (k + 1), .split (k + 1), .interval k (.num 0) (.num 5)⟩) ++
      [⟨.leaf 0, .leaf 1, .interval n (.num 0) (.num 5)⟩], (List.range (n + 1)).map Int.ofNat, 1, ⟨0, 0⟩⟩

/-- A tree with shared nodes, accepted by `FromTrees`, has more leaves than adjustments: with 7 split nodes the builder
shifts by 64; with 6 split nodes (7 adjustments) it chooses masks of 32 bits although there are 64 leaves, and the
evaluator asks for the lowest bit of zero. -/
theorem bitmask_shared_counterexample :
    (∃ m : Meta Nat, fromTrees (fun _ => []) [chainTree 6, chainTree 7] = .ok m) ∧
    addOps (M := Int) (fun a w => a * w) 10 [.small (chainTree 7) 0] {} = none ∧
    (let env : Env := ⟨fun _ => some (.num 2), fun _ => none, fun _ => false⟩
     Path (Cond.eval env) (chainTree 6) (chainTree 6).root 1 ∧
     ∃ b e, addOps (M := Int) (fun a w => a * w) 10 [.small (chainTree 6) 0] {} = some b ∧
       b.build sampleOracles 1 = some (.mask32 e) ∧ e.eval 0 (· + ·) env [0] = none) := by
  refine ⟨⟨⟨1, 1, []⟩, by decide +kernel⟩, ?_, ?_, ?_⟩
  · have : (addOps (M := Int) (fun a w => a * w) 10 [.small (chainTree 7) 0] {}).isNone = true := by decide +kernel
    exact Option.isNone_iff_eq_none.1 this
  · exact .yes (k := 0) rfl rfl (.yes (k := 1) rfl rfl (.yes (k := 2) rfl rfl (.yes (k := 3) rfl rfl
      (.yes (k := 4) rfl rfl (.yes (k := 5) rfl rfl (.leaf 1))))))
  · have h1 : (addOps (M := Int) (fun a w => a * w) 10 [.small (chainTree 6) 0] {}).isSome = true := by decide +kernel
    obtain ⟨b, hb⟩ := Option.isSome_iff_exists.1 h1
    have h2 : ((addOps (M := Int) (fun a w => a * w) 10 [.small (chainTree 6) 0] {}).bind fun b =>
      (buildImpl 32 sampleOracles 1 b).bind fun e => if b.masked.isEmpty || b.mask64 then none else
        if (e.eval 0 (· + ·) ⟨fun _ => some (.num 2), fun _ => none, fun _ => false⟩ [0]).isNone then some () else none) =
          some () := by decide +kernel
    rw [hb, Option.bind_some] at h2
    obtain ⟨e, he, h3⟩ := Option.bind_eq_some_iff.1 h2
    split at h3
    · cases h3
    · rename_i hm
      simp only [Bool.or_eq_true, not_or, Bool.not_eq_true] at hm
      split at h3
      · rename_i hn
        exact ⟨b, e, hb, by simp [BBuilder.build, hm, he], Option.isNone_iff_eq_none.1 hn⟩
      · cases h3

/-! ### Merged splits -/

theorem keyLt_antisymm {w : Nat} (inc : Bool) {a b : Fl × SMeta w} (ha : a.1 ≠ .nan) (hb : b.1 ≠ .nan)
    (h1 : keyLt inc a b = false) (h2 : keyLt inc b a = false) : a.1 = b.1 ∧ a.2.tree = b.2.tree := by
  cases inc with
  | true =>
    simp only [keyLt, if_true, Fl.lt_eq ha hb, Fl.lt_eq hb ha] at h1 h2
    simp at h1 h2
    have := Fl.le_antisymm h1.1 h2.1
    exact ⟨this.symm, by have := h1.2 h2.1; have := h2.2 h1.1; omega⟩
  | false =>
    have na := mt Fl.neg_nan.1 ha
    have nb := mt Fl.neg_nan.1 hb
    simp only [keyLt, Bool.false_eq_true, if_false, Fl.lt_eq na nb, Fl.lt_eq nb na, Fl.neg_le] at h1 h2
    simp at h1 h2
    have := Fl.le_antisymm h2.1 h1.1
    exact ⟨this.symm, by have := h1.2 h2.1; have := h2.2 h1.1; omega⟩

theorem dedup_keys {w : Nat} (inc : Bool) : ∀ (l : List (Fl × SMeta w)) (cur : Fl × SMeta w),
    ∀ p ∈ dedup inc cur l, ∃ q ∈ cur :: l, q.1 = p.1 ∧ q.2.tree = p.2.tree := by
  intro l
  induction l with
  | nil => intro cur p hp; exact ⟨p, by simpa [dedup] using hp, rfl, rfl⟩
  | cons x l ih =>
    intro cur p hp
    rw [dedup] at hp
    split at hp
    · obtain ⟨q, hq, h⟩ := ih _ p hp
      rcases List.mem_cons.1 hq with rfl | hq
      · exact ⟨cur, by simp, h⟩
      · exact ⟨q, by simp [hq], h⟩
    · rcases List.mem_cons.1 hp with rfl | hp
      · exact ⟨p, by simp, rfl, rfl⟩
      · obtain ⟨q, hq, h⟩ := ih _ p hp
        exact ⟨q, List.mem_cons_of_mem _ hq, h⟩

theorem keyEq_of {w : Nat} (inc : Bool) {a b : Fl × SMeta w} (ha : a.1 ≠ .nan) (h : a.1 = b.1)
    (ht : a.2.tree = b.2.tree) : keyEq inc a b = true := by
  have := mt Fl.neg_nan.1 ha
  cases inc <;> simp_all [keyEq, Fl.eq_iff]

theorem dedup_distinct {w : Nat} (inc : Bool) : ∀ (l : List (Fl × SMeta w)) (cur : Fl × SMeta w),
    (∀ p ∈ cur :: l, p.1 ≠ .nan) → (cur :: l).Pairwise (fun a b => keyLt inc b a = false) →
    (dedup inc cur l).Pairwise fun a b => ¬ (a.1 = b.1 ∧ a.2.tree = b.2.tree) := by
  intro l
  induction l with
  | nil => intro cur _ _; simp [dedup]
  | cons x l ih =>
    intro cur hn hs
    obtain ⟨hc, hs'⟩ := List.pairwise_cons.1 hs
    obtain ⟨hx, hl⟩ := List.pairwise_cons.1 hs'
    rw [dedup]
    split
    · refine ih _ ?_ (List.pairwise_cons.2 ⟨fun b hb => hc b (by simp [hb]), hl⟩)
      intro p hp
      rcases List.mem_cons.1 hp with rfl | hp
      · exact hn cur (by simp)
      · exact hn p (by simp [hp])
    · rename_i hk
      refine List.pairwise_cons.2 ⟨?_, ih x (fun p hp => hn p (List.mem_cons_of_mem _ hp)) hs'⟩
      intro p hp ⟨h1, h2⟩
      obtain ⟨q, hq, h3, h4⟩ := dedup_keys inc l x p hp
      rcases List.mem_cons.1 hq with rfl | hq
      · exact hk (keyEq_of inc (hn cur (by simp)) (h1.trans h3.symm) (h2.trans h4.symm))
      · have e : keyLt inc cur x = keyLt inc q x := by
          simp only [keyLt, h1, h2, h3, h4]
        have := keyLt_antisymm inc (hn cur (by simp)) (hn x (by simp)) (e.trans (hx q hq)) (hc x (by simp))
        exact hk (keyEq_of inc (hn cur (by simp)) this.1 this.2)

/-- `SortAndDeduplicate` leaves at most one split for each tree and threshold. -/
theorem sortDedup_distinct {w : Nat} {o : Oracles} (ho : o.Ok) (inc : Bool) {l : List (Fl × SMeta w)}
    (h : ∀ p ∈ l, p.1 ≠ .nan) :
    (sortDedup o inc l).Pairwise fun a b => ¬ (a.1 = b.1 ∧ a.2.tree = b.2.tree) := by
  unfold sortDedup
  split
  · rename_i hl
    match l, hl with
    | [], _ => simp
    | [a], _ => simp
  · have hp := ho.sort_perm (keyLt inc) l
    have hs := ho.sort_sorted (keyLt inc) l (keyLt_weak inc h)
    have h' : ∀ p ∈ o.sort (keyLt inc) l, p.1 ≠ .nan := fun p hq => h p (hp.mem_iff.1 hq)
    generalize o.sort (keyLt inc) l = s at *
    cases s with
    | nil => simp
    | cons x rest => exact dedup_distinct inc rest x h' hs

/-- Two splits of tree 0 at the same threshold, separated by one of tree 1, become one. -/
example : (sortDedup sampleOracles true
    [(.num 2, (⟨1#8, 0⟩ : SMeta 8)), (.num 2, ⟨4#8, 1⟩), (.num 2, ⟨2#8, 0⟩)]).map
      (fun p => (p.2.mask, p.2.tree)) = [(3#8, 0), (4#8, 1)] := by
  decide +kernel

end Verif.Forest
