import Verif.FModel.ValueLemmas

/-!
# The value of a plain sum
-/

namespace Verif.FModel

open Verif.Forest (Tag Filter)

theorem plainMult_spec (e : E) : ∀ (pairs : List (Key × Int)) (m : List (Int × Nat)), (pairs.map Prod.snd).Nodup →
    (∀ id, id ∉ pairs.map Prod.snd → (pairs.foldl (fun m p =>
      if nodeCount e (.src (.ph p.1)) > 1 then (p.2, nodeCount e (.src (.ph p.1))) :: m else m) m).lookup id =
        m.lookup id) ∧
    (∀ p ∈ pairs, (pairs.foldl (fun m p =>
      if nodeCount e (.src (.ph p.1)) > 1 then (p.2, nodeCount e (.src (.ph p.1))) :: m else m) m).lookup p.2 =
        if nodeCount e (.src (.ph p.1)) > 1 then some (nodeCount e (.src (.ph p.1))) else m.lookup p.2) := by
  intro pairs
  induction pairs with
  | nil => intro m _; simp
  | cons q pairs ih =>
    intro m hn
    rw [List.map_cons, List.nodup_cons] at hn
    obtain ⟨i1, i2⟩ := ih (if nodeCount e (.src (.ph q.1)) > 1 then (q.2, nodeCount e (.src (.ph q.1))) :: m else m) hn.2
    simp only [List.foldl_cons]
    refine ⟨?_, ?_⟩
    · intro id hid
      rw [List.map_cons, List.mem_cons, not_or] at hid
      rw [i1 id hid.2]
      split
      · rw [List.lookup_cons, beq_eq_false_iff_ne.2 hid.1]
      · rfl
    · intro p hp
      rcases List.mem_cons.1 hp with rfl | hp
      · rw [i1 p.2 hn.1]
        split
        · simp
        · rfl
      · rw [i2 p hp]
        split
        · rfl
        · split
          · have : p.2 ≠ q.2 := fun h => hn.1 (h ▸ List.mem_map_of_mem hp)
            rw [List.lookup_cons, beq_eq_false_iff_ne.2 this]
          · rfl

theorem multOf_plain (e : E) (pairs : List (Key × Int)) (hn : (pairs.map Prod.snd).Nodup) (p : Key × Int)
    (hp : p ∈ pairs) (hc : 0 < nodeCount e (.src (.ph p.1))) :
    multOf (plainMult e pairs) p.2 = nodeCount e (.src (.ph p.1)) := by
  unfold multOf plainMult
  rw [(plainMult_spec e pairs [] hn).2 p hp]
  split
  · rfl
  · simp; omega

theorem sum_pick (c : Key → Nat) (μ : Int → Nat) (x : Rat) (sub : Int) : ∀ pairs : List (Key × Int),
    (pairs.map Prod.snd).Nodup → (∀ p ∈ pairs, μ p.2 = c p.1) →
    (pairs.map fun p => (c p.1 : Rat) * (if sub = p.2 then x else 0)).sum =
      if sub ∈ pairs.map Prod.snd then x * μ sub else 0 := by
  intro pairs
  induction pairs with
  | nil => intro _ _; simp
  | cons q pairs ih =>
    intro hn hμ
    rw [List.map_cons, List.nodup_cons] at hn
    rw [List.map_cons, List.sum_cons, ih hn.2 fun p hp => hμ p (List.mem_cons_of_mem _ hp)]
    by_cases hq : sub = q.2
    · subst hq
      rw [if_pos rfl, if_neg hn.1, if_pos (by simp), hμ q (List.mem_cons_self ..)]
      ring
    · rw [if_neg hq]
      simp only [List.map_cons, List.mem_cons, hq, false_or]
      ring

theorem submodelSum_cons (t : T) (ts : List T) (u : Option Nat) (id : Int) :
    submodelSum (t :: ts) u id =
      (if t.tag.submodel = id ∧ below u t.tag = true then t.adj * t.weight else 0) + submodelSum ts u id := by
  unfold submodelSum
  rw [List.filter_cons]
  by_cases h : t.tag.submodel = id ∧ below u t.tag = true
  · rw [if_pos (by simpa using h), if_pos h, List.map_cons, List.sum_cons]
  · rw [if_neg (by simpa using h), if_neg h, zero_add]

/-- The sum over the trees of several submodels. -/
theorem scaledSum_plain (e : E) (u : Option Nat) (hu : ∀ n, u = some n → n < 2 ^ 31) (pairs : List (Key × Int))
    (hne : pairs ≠ []) (hn : (pairs.map Prod.snd).Nodup) (hc : ∀ p ∈ pairs, 0 < nodeCount e (.src (.ph p.1))) :
    ∀ trees : List T, (∀ x ∈ trees, 0 ≤ x.tag.step) →
    scaledSum trees (plainMult e pairs) (truncF u { submodels := pairs.map Prod.snd }) =
      (pairs.map fun p => (nodeCount e (.src (.ph p.1)) : Rat) * submodelSum trees u p.2).sum := by
  intro trees
  induction trees with
  | nil =>
    intro _
    have : ∀ l : List (Key × Int), (l.map fun p => (nodeCount e (.src (.ph p.1)) : Rat) * submodelSum [] u p.2).sum = 0 := by
      intro l
      induction l with
      | nil => rfl
      | cons a l ih => rw [List.map_cons, List.sum_cons, ih]; simp [submodelSum]
    rw [this]
    simp [scaledSum]
  | cons t ts ih =>
    intro hs
    have hrec := ih fun x hx => hs x (List.mem_cons_of_mem _ hx)
    have hsplit : (pairs.map fun p => (nodeCount e (.src (.ph p.1)) : Rat) * submodelSum (t :: ts) u p.2).sum =
        (pairs.map fun p => (nodeCount e (.src (.ph p.1)) : Rat) *
          (if t.tag.submodel = p.2 then (if below u t.tag = true then t.adj * t.weight else 0) else 0)).sum +
        (pairs.map fun p => (nodeCount e (.src (.ph p.1)) : Rat) * submodelSum ts u p.2).sum := by
      rw [← List.sum_map_add]
      congr 1
      apply List.map_congr_left
      intro p _
      rw [submodelSum_cons, ← mul_add]
      congr 2
      by_cases h1 : t.tag.submodel = p.2 <;> by_cases h2 : below u t.tag = true <;> simp [h1, h2]
    rw [hsplit, ← hrec, sum_pick (fun k => nodeCount e (.src (.ph k))) (multOf (plainMult e pairs)) _ _ pairs hn
      fun p hp => multOf_plain e pairs hn p hp (hc p hp)]
    unfold scaledSum
    rw [List.filter_cons, truncF_accepts u hu _ (by simpa using hne) t.tag (hs t (List.mem_cons_self ..))]
    by_cases h1 : t.tag.submodel ∈ pairs.map Prod.snd <;> by_cases h2 : below u t.tag = true
    · rw [if_pos (by simpa [h2] using h1), if_pos h1, if_pos h2, List.map_cons, List.sum_cons]
    · rw [if_neg (by simp [h2]), if_pos h1, if_neg h2]; ring
    · rw [if_neg (by rw [decide_eq_false h1]; simp), if_neg h1]; ring
    · rw [if_neg (by simp [h2]), if_neg h1]; ring

theorem range_getD (l : List Int) (f : Int → Rat) :
    ((List.range l.length).map fun b => f (l.getD b 0)) = l.map f := by
  apply List.ext_getElem (by simp)
  intro i h1 h2
  simp only [List.length_map, List.length_range] at h1
  simp [List.getD_eq_getElem?_getD, List.getElem?_eq_getElem h1]

/-- Summing over the bags and then over the submodels, or over the submodels and then over their ids. -/
theorem sum_swap (ids : List (Key × List Int)) (c : Key → Rat) (S : Int → Rat) (n : Nat) : ∀ sn : List Key,
    (∀ k ∈ sn, ((ids.lookup k).getD []).length = n) →
    ((List.range n).map fun b => (sn.map fun k => c k * (n * S (((ids.lookup k).getD []).getD b 0))).sum).sum =
      n * ((plainPairs ids sn).map fun p => c p.1 * S p.2).sum := by
  intro sn
  induction sn with
  | nil => intro _; simp [plainPairs]
  | cons k sn ih =>
    intro h
    have hk := h k (List.mem_cons_self ..)
    simp only [List.map_cons, List.sum_cons, List.sum_map_add]
    rw [ih fun k' hk' => h k' (List.mem_cons_of_mem _ hk')]
    have : plainPairs ids (k :: sn) = (((ids.lookup k).getD []).map fun id => (k, id)) ++ plainPairs ids sn := by
      simp [plainPairs]
    rw [this, List.map_append, List.sum_append, mul_add, List.map_map]
    congr 1
    rw [← hk, range_getD _ fun id => c k * (((((ids.lookup k).getD []).length : Nat) : Rat) * S id),
      ← List.sum_map_mul_left]
    congr 1
    apply List.map_congr_left
    intro id _
    simp only [Function.comp]
    ring

theorem plainPairs_nodup (ids : List (Key × List Int)) (hids : (ids.flatMap Prod.snd).Nodup) (sn : List Key)
    (hsn : sn.Nodup) : ((plainPairs ids sn).map Prod.snd).Nodup := by
  have : (plainPairs ids sn).map Prod.snd = sn.flatMap fun k => (ids.lookup k).getD [] := by
    simp [plainPairs, List.map_flatMap, Function.comp_def]
  rw [this]
  rw [List.nodup_flatMap] at hids ⊢
  have hget : ∀ k, ids.lookup k = none ∨ (k, (ids.lookup k).getD []) ∈ ids := by
    intro k
    cases h : ids.lookup k with
    | none => exact .inl rfl
    | some s => exact .inr (mem_of_lookup h)
  refine ⟨?_, ?_⟩
  · intro k _
    rcases hget k with h | h
    · simp [h]
    · exact hids.1 _ h
  · refine hsn.imp fun {k k'} hne => ?_
    rcases hget k with h | h
    · simp [Function.onFun, h]
    · rcases hget k' with h' | h'
      · simp [Function.onFun, h']
      · have hsym : Std.Symm (Function.onFun List.Disjoint (Prod.snd : Key × List Int → List Int)) :=
          ⟨fun a b hab => List.Disjoint.symm hab⟩
        have := hids.2.forall h h' (by intro hc; exact hne (congrArg Prod.fst hc))
        exact this

theorem mean_all (l : List V) (h : l ≠ []) : mean (l.map fun x => (true, x)) = l.sum.div (.val l.length) := by
  have hm : ((l.map fun x => (true, x)).filter Prod.fst).map Prod.snd = l := by
    induction l with
    | nil => exact absurd rfl h
    | cons a l ih =>
      cases l with
      | nil => rfl
      | cons b l => simp_all
  unfold mean
  simp only [hm]
  rw [if_neg (by simpa using h)]

theorem plain_value (I : Nat → List V → Option V) (a : Args) (low : E) (key : Key) (hv : Valid a) (info : Info)
    (hi : analyze a low = .ok info) (hplain : plainSum low = true) (ho : a.oob = none)
    (hne : info.submodelNodes ≠ [])
    (hk : ∃ s, a.submodelIds.lookup key = some s)
    (hlow : ∀ ρ, eval I ρ low = eval I ρ a.expression) (htips : (tips low).Perm (tips a.expression))
    (hids : (a.submodelIds.flatMap Prod.snd).Nodup)
    (inputs : List (Key × V)) (v : V) (h : Value I a info.bagCount inputs v) :
    eval I (postEnv inputs (some key) (forestTuple a.trees (handlePlainSum a key info).mult
      (truncate a.truncation (handlePlainSum a key info).filters))) (handlePlainSum a key info).processed = some v := by
  obtain ⟨vs, hvs, hev, hres⟩ := h
  rw [ho] at hres
  simp only at hres
  unfold analyze at hi
  cases ha : analyzeTips a.submodelIds (visited low) 0 with
  | error e => rw [ha] at hi; simp at hi
  | ok r =>
    obtain ⟨b, sn, pn⟩ := r
    rw [ha] at hi
    simp only [Except.ok.injEq] at hi
    subst hi
    simp only at hne hvs hev ⊢
    obtain ⟨a1, a2, a3, -, a5, a6⟩ := analyzeTips_spec a.submodelIds _ _ _ _ _ ha
    have hsn := a6 (List.nodup_dedup _)
    have hb1 : max b 1 = b := by
      obtain ⟨k, hk⟩ := List.exists_mem_of_ne_nil _ hne
      obtain ⟨_, s, hs⟩ := (a2 k).1 hk
      obtain ⟨h1, h2⟩ := a3 k hk s hs
      have : s.length ≠ 0 := by simpa using h2
      omega
    rw [hb1] at hvs hev
    have hbpos : 0 < b := by omega
    have hcount : ∀ t, (tips low).count t = nodeCount a.expression t := fun t => htips.count_eq t
    have hget : ∀ k ∈ sn, ∃ s, a.submodelIds.lookup k = some s ∧ s.length = b := by
      intro k hk
      obtain ⟨_, s, hs⟩ := (a2 k).1 hk
      exact ⟨s, hs, (a3 k hk s hs).1⟩
    have hcpos : ∀ k ∈ sn, 0 < nodeCount a.expression (.src (.ph k)) := by
      intro k hk
      rw [← hcount, List.count_pos_iff]
      have := ((a2 k).1 hk).1
      rwa [visited, List.mem_dedup] at this
    -- the value of a summand which is not a submodel
    generalize hzdef : (pn.map fun t => nodeCount a.expression t • (tipVal (inputEnv inputs) t).getD .missing).sum = Z
    have hsame : ∀ t ∈ pn, ∀ x, tipVal (bagEnv a b inputs x) t = tipVal (inputEnv inputs) t := by
      intro t ht x
      have := ((a5 t).1 ht).2
      match t, this with
      | .lit w, _ => rfl
      | .src (.leaf k), _ => rfl
      | .src (.ph k), this => simp [tipVal, bagEnv, inputEnv, this k rfl]
    have hbag : ∀ x w, vs[x]? = some w →
        (∀ t ∈ tips low, tipVal (bagEnv a b inputs x) t = some ((tipVal (bagEnv a b inputs x) t).getD .missing)) ∧
        w = .val (sn.map fun k => (nodeCount a.expression (.src (.ph k)) : Rat) *
          (b * submodelSum a.trees a.truncation (((a.submodelIds.lookup k).getD []).getD x 0))).sum + Z := by
      intro x w hw
      have hx : x < b := by rw [← hvs]; exact (List.getElem?_eq_some_iff.1 hw).1
      have he := hev x w hw
      rw [← hlow] at he
      obtain ⟨h1, h2⟩ := eval_plainSum I _ low w hplain he
      refine ⟨h1, ?_⟩
      rw [h2, sum_dedup, show (tips low).dedup = visited low from rfl, a1, ← hzdef]
      congr 1
      · rw [← V.sum_val, List.map_map]
        congr 1
        apply List.map_congr_left
        intro k hk
        obtain ⟨s, hs, hl⟩ := hget k hk
        simp only [Function.comp, hcount, tipVal, bagEnv, hs, List.getElem?_eq_getElem (hl ▸ hx), Option.map_some,
          Option.getD_some, V.nsmul_val, List.getD_eq_getElem?_getD]
      · congr 1
        apply List.map_congr_left
        intro t ht
        rw [hcount, hsame t ht x]
    -- the forest
    have htuple : (forestTuple a.trees (handlePlainSum a key ⟨plainSum low, max b 1, sn, pn⟩).mult
        (truncate a.truncation (handlePlainSum a key ⟨plainSum low, max b 1, sn, pn⟩).filters)) =
        [((plainPairs a.submodelIds sn).map fun p => (nodeCount a.expression (.src (.ph p.1)) : Rat) *
          submodelSum a.trees a.truncation p.2).sum] := by
      rw [forestTuple_eq, truncate_eq]
      simp only [handlePlainSum, List.map_cons, List.map_nil]
      rw [scaledSum_plain a.expression a.truncation hv.trunc (plainPairs a.submodelIds sn) ?_
        (plainPairs_nodup a.submodelIds hids sn hsn) ?_ a.trees hv.steps]
      · obtain ⟨k, hk⟩ := List.exists_mem_of_ne_nil _ hne
        obtain ⟨s, hs, hl⟩ := hget k hk
        intro hc
        simp only [plainPairs, List.flatMap_eq_nil_iff, List.map_eq_nil_iff] at hc
        have := hc k hk
        rw [hs] at this
        simp only [Option.getD_some] at this
        rw [this] at hl
        simp at hl; omega
      · intro p hp
        simp only [plainPairs, List.mem_flatMap, List.mem_map] at hp
        obtain ⟨k, hk, id, _, rfl⟩ := hp
        exact hcpos k hk
    rw [htuple]
    simp only [handlePlainSum]
    -- the summands
    obtain ⟨w0, hw0⟩ : ∃ w, vs[0]? = some w := ⟨_, List.getElem?_eq_getElem (by omega)⟩
    have hnode : ∀ t ∈ pn, eval I (postEnv inputs (some key) [((plainPairs a.submodelIds sn).map fun p =>
        (nodeCount a.expression (.src (.ph p.1)) : Rat) * submodelSum a.trees a.truncation p.2).sum])
        (plainNode a.expression t) = some (nodeCount a.expression t • (tipVal (inputEnv inputs) t).getD .missing) := by
      intro t ht
      have hin := (a5 t).1 ht
      have htl : t ∈ tips low := by
        have := hin.1
        rwa [visited, List.mem_dedup] at this
      have hcp : 0 < nodeCount a.expression t := by rw [← hcount, List.count_pos_iff]; exact htl
      have hdef := (hbag 0 w0 hw0).1 t htl
      rw [hsame t ht 0] at hdef
      have hpe : eval I (postEnv inputs (some key) [((plainPairs a.submodelIds sn).map fun p =>
          (nodeCount a.expression (.src (.ph p.1)) : Rat) * submodelSum a.trees a.truncation p.2).sum]) t.toPE =
          tipVal (inputEnv inputs) t := by
        match t, hin.2 with
        | .lit w, _ => simp [Tip.toPE, eval, tipVal]
        | .src (.leaf k), _ => simp [Tip.toPE, eval, tipVal, postEnv, inputEnv]
        | .src (.ph k), h2 =>
          simp only [Tip.toPE, eval, tipVal, postEnv, inputEnv]
          rw [if_neg]
          intro hc
          simp only [Option.some.injEq] at hc
          subst hc
          obtain ⟨s, hs⟩ := hk
          rw [h2 key rfl] at hs; simp at hs
      unfold plainNode
      split
      · simp only [eval, evalAll, hpe]
        rw [hdef]
        simp only [Option.getD_some, applyOp, Option.some.injEq]
        cases (tipVal (inputEnv inputs) t).getD .missing with
        | missing => rw [V.nsmul_missing _ hcp]; rfl
        | val q => rw [V.nsmul_val]; simp [V.mul, mul_comm]
      · have h1 : nodeCount a.expression t = 1 := by omega
        rw [hpe, hdef, h1, one_nsmul]
        simp
    have hfirst : eval I (postEnv inputs (some key) [((plainPairs a.submodelIds sn).map fun p =>
        (nodeCount a.expression (.src (.ph p.1)) : Rat) * submodelSum a.trees a.truncation p.2).sum])
        (.atom (.nth key 0)) = some (.val ((plainPairs a.submodelIds sn).map fun p =>
        (nodeCount a.expression (.src (.ph p.1)) : Rat) * submodelSum a.trees a.truncation p.2).sum) := by
      simp [eval, postEnv]
    rw [eval_addAll I _ (plainNode a.expression)
      (fun t => nodeCount a.expression t • (tipVal (inputEnv inputs) t).getD .missing) pn _ _ hfirst hnode, hzdef]
    congr 1
    -- the mean of the bags
    have hvsne : vs ≠ [] := by intro hc; rw [hc] at hvs; simp at hvs; omega
    have hvseq : vs = (List.range b).map fun x => V.val (sn.map fun k => (nodeCount a.expression (.src (.ph k)) : Rat) *
          (b * submodelSum a.trees a.truncation (((a.submodelIds.lookup k).getD []).getD x 0))).sum + Z := by
      apply List.ext_getElem (by simp [hvs])
      intro i h1 h2
      rw [(hbag i vs[i] (List.getElem?_eq_getElem h1)).2]
      simp
    rw [hres, mean_all vs hvsne, hvs, hvseq, List.sum_map_add]
    rw [show ((List.range b).map fun _ => Z).sum = b • Z by simp]
    rw [show (fun x => V.val (sn.map fun k => (nodeCount a.expression (.src (.ph k)) : Rat) *
          (b * submodelSum a.trees a.truncation (((a.submodelIds.lookup k).getD []).getD x 0))).sum) =
        V.val ∘ (fun x => (sn.map fun k => (nodeCount a.expression (.src (.ph k)) : Rat) *
          (b * submodelSum a.trees a.truncation (((a.submodelIds.lookup k).getD []).getD x 0))).sum) from rfl,
      ← List.map_map, V.sum_val]
    rw [sum_swap a.submodelIds (fun k => (nodeCount a.expression (.src (.ph k)) : Rat))
      (submodelSum a.trees a.truncation) b sn (by
        intro k hk
        obtain ⟨s, hs, hl⟩ := hget k hk
        rw [hs]; exact hl)]
    have hb0 : (b : Rat) ≠ 0 := by
      rw [Ne, Nat.cast_eq_zero]; omega
    cases Z with
    | missing => rw [V.nsmul_missing b hbpos, V.add_missing, V.add_missing]; rfl
    | val z =>
      rw [V.nsmul_val, V.val_add, V.val_add]
      simp only [V.div, V.val.injEq]
      field_simp

end Verif.FModel
