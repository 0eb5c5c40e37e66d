import Verif.FModel.PlanLemmas

/-!
# The value of the processed expression
-/

namespace Verif.FModel

open Verif.Forest (Tag Filter)

/-- What is assumed about the arguments: `submodel_ids` is a map, the forest is a valid one, the truncation step is an
`int`. -/
structure Valid (a : Args) : Prop where
  keys : (a.submodelIds.map Prod.fst).Nodup
  steps : ∀ t ∈ a.trees, 0 ≤ t.tag.step
  trunc : ∀ n, a.truncation = some n → n < 2 ^ 31

theorem lookup_of_mem {l : List (Key × List Int)} (hn : (l.map Prod.fst).Nodup) {k : Key} {s : List Int}
    (h : (k, s) ∈ l) : l.lookup k = some s := by
  induction l with
  | nil => simp at h
  | cons q l ih =>
    obtain ⟨k0, s0⟩ := q
    rw [List.map_cons, List.nodup_cons] at hn
    rw [List.lookup_cons]
    rcases List.mem_cons.1 h with h' | h'
    · cases h'; simp
    · have : (k == k0) = false := by
        rw [beq_eq_false_iff_ne]
        rintro rfl
        exact hn.1 (List.mem_map.2 ⟨(k, s), h', rfl⟩)
      rw [this]
      exact ih hn.2 h'

theorem mem_of_lookup {l : List (Key × List Int)} {k : Key} {s : List Int} (h : l.lookup k = some s) : (k, s) ∈ l := by
  induction l with
  | nil => simp at h
  | cons q l ih =>
    obtain ⟨k0, s0⟩ := q
    rw [List.lookup_cons] at h
    cases hk : k == k0 with
    | true =>
      rw [hk] at h
      simp only [Option.some.injEq] at h
      rw [beq_iff_eq] at hk
      subst h hk
      simp
    | false => rw [hk] at h; exact List.mem_cons_of_mem _ (ih h)

/-! ### Without bags -/

theorem noBags_value (I : Nat → List V → Option V) (a : Args) (key : Key) (hv : Valid a)
    (hk : ∃ s, a.submodelIds.lookup key = some s) (hlen : ∀ s ∈ a.submodelIds, s.2.length = 1)
    (inputs : List (Key × V)) (v : V) (h : eval I (bagEnv a 1 inputs 0) a.expression = some v) :
    eval I (postEnv inputs (some key) (forestTuple a.trees [] (truncate a.truncation (handleNoBags a key).filters)))
      (handleNoBags a key).processed = some v := by
  rw [forestTuple_eq, truncate_eq]
  simp only [handleNoBags]
  rw [eval_subst I a inputs key _ _ 1 0 ?_ hk, h]
  have hp := noBagParams_spec key (fun ids => scaledSum a.trees [] (truncF a.truncation { submodels := ids }))
    (((noBagParams key a.submodelIds 0).2.map (truncF a.truncation)).map (scaledSum a.trees [])) a.submodelIds 0 (by
      intro j hj
      rw [noBagParams_filters]
      simp only [List.map_map, List.getElem?_map, Nat.zero_add, Option.map_map]
      rfl)
  intro k
  have := hp k
  cases hl : a.submodelIds.lookup k with
  | none => rw [hl] at this; exact this
  | some s =>
    rw [hl] at this
    obtain ⟨j, h1, h2⟩ := this
    have h1l := hlen _ (mem_of_lookup hl)
    match s, h1l with
    | [id], _ =>
      refine ⟨j, id, h1, rfl, ?_⟩
      rw [h2, scaledSum_single a.trees [] a.truncation hv.trunc hv.steps id]
      simp [multOf]

/-! ### With bags -/

theorem multOf_const (ids : List Int) (n : Nat) (id : Int) (h : id ∈ ids) :
    multOf (ids.map fun id => (id, n)) id = n := by
  unfold multOf
  induction ids with
  | nil => simp at h
  | cons x ids ih =>
    rw [List.map_cons, List.lookup_cons]
    cases hx : id == x with
    | true => simp
    | false =>
      rcases List.mem_cons.1 h with rfl | h
      · simp at hx
      · exact ih h

theorem bags_value (I : Nat → List V → Option V) (a : Args) (key : Key) (hv : Valid a)
    (hk : ∃ s, a.submodelIds.lookup key = some s) (n : Nat) (hn : 0 < n) (p : Plan) (hp : handleBags a key n = .ok p)
    (hoob : ∀ fs, a.oob = some fs → fs.length = n)
    (inputs : List (Key × V)) (hin : inputs.lookup key = none)
    (v : V) (h : Value I a n inputs v) :
    eval I (postEnv inputs (some key) (forestTuple a.trees p.mult (truncate a.truncation p.filters)))
      p.processed = some v := by
  obtain ⟨vs, hvs, hev, hres⟩ := h
  unfold handleBags at hp
  cases hb : bagLoop a key (bagFilters n a.oob) 0 0 with
  | error e => rw [hb] at hp; simp at hp
  | ok r =>
    obtain ⟨bags, ids⟩ := r
    rw [hb] at hp
    match bags, hb, hp with
    | [], _, hp => simp at hp
    | b0 :: bs, hb, hp =>
    simp only [Except.ok.injEq] at hp
    subst hp
    simp only
    rw [forestTuple_eq, truncate_eq]
    generalize htu : ((ids.map fun id => ({ submodels := [id] } : Filter)).map (truncF a.truncation)).map
      (scaledSum a.trees (ids.reverse.map fun id => (id, n))) = tuple
    obtain ⟨hlen, hbags⟩ := bagLoop_spec a key
      (fun id => scaledSum a.trees (ids.reverse.map fun id => (id, n)) (truncF a.truncation { submodels := [id] }))
      tuple n _ 0 0 _ _ hb (by
        intro id hid
        rw [scaledSum_single a.trees _ a.truncation hv.trunc hv.steps id,
          multOf_const _ n id (List.mem_reverse.2 hid)]) (by
        intro j _
        rw [← htu]
        simp only [List.map_map, List.getElem?_map, Nat.zero_add]
        rfl)
    have hemb : ∀ e : E, eval I (postEnv inputs (some key) tuple) (embed e) = eval I (inputEnv inputs) e := by
      intro e
      apply eval_embed
      intro k hk'
      simp only [Option.some.injEq] at hk'
      exact hk' ▸ hin
    -- the values of the bags
    have hval : ∀ x, x < n → ∃ params, ParamsOk a key tuple params n x ∧
        eval I (postEnv inputs (some key) tuple) (subst params a.expression) = some (vs.getD x .missing) ∧
        ∀ f, (bagFilters n a.oob)[x]? = some f → (b0 :: bs)[x]? = some (bagExpr a params f) := by
      intro x hx
      have hfl : x < (bagFilters n a.oob).length := by
        cases ho : a.oob with
        | none => simpa [bagFilters] using hx
        | some fs => simpa [bagFilters, hoob fs ho] using hx
      obtain ⟨params, h1, h2⟩ := hbags x _ (List.getElem?_eq_getElem hfl)
      rw [Nat.zero_add] at h2
      refine ⟨params, h2, ?_, ?_⟩
      · rw [eval_subst I a inputs key tuple params n x h2 hk]
        apply hev
        rw [List.getD_eq_getElem?_getD, List.getElem?_eq_getElem (by omega)]
        simp
      · intro f hf
        rw [h1]
        rw [List.getElem?_eq_getElem hfl] at hf
        simp only [Option.some.injEq] at hf
        rw [hf]
    cases ho : a.oob with
    | none =>
      rw [ho] at hres hlen hval
      simp only [bagFilters, List.length_replicate] at hlen
      have hall : ∀ (x : Nat) (e : PE), (b0 :: bs)[x]? = some e → ∀ w, vs[x]? = some w →
          eval I (postEnv inputs (some key) tuple) e = some w := by
        intro x e he w hw
        have hx : x < n := by
          rw [← hvs]; exact (List.getElem?_eq_some_iff.1 hw).1
        obtain ⟨params, _, h2, h3⟩ := hval x hx
        have := h3 none (by simp [bagFilters, hx])
        rw [he] at this
        simp only [Option.some.injEq] at this
        rw [this]
        simp only [bagExpr]
        rw [h2, List.getD_eq_getElem?_getD, hw]
        simp
      match vs, hvs, hall with
      | [], hvs, _ => simp at hvs; omega
      | w0 :: ws, hvs, hall =>
        have h0 := hall 0 b0 rfl w0 rfl
        have hzip : ∀ q ∈ bs.zip ws, eval I (postEnv inputs (some key) tuple) q.1 = some q.2 := by
          intro q hq
          obtain ⟨i, hi⟩ := List.getElem?_of_mem hq
          rw [List.getElem?_zip_eq_some] at hi
          exact hall (i + 1) q.1 (by simpa using hi.1) q.2 (by simpa using hi.2)
        have hl : bs.length = ws.length := by simp at hlen hvs; omega
        have hsum := eval_addAll I (postEnv inputs (some key) tuple) Prod.fst Prod.snd (bs.zip ws) b0 w0 h0 hzip
        rw [List.map_fst_zip (by omega), List.map_snd_zip (by omega)] at hsum
        simp only [eval, evalAll, hsum, usedBagCount, applyOp, Option.some.injEq]
        rw [hres]
        have hmean : ∀ l : List V, ((l.map fun x => (true, x)).filter Prod.fst).map Prod.snd = l := by
          intro l
          induction l with
          | nil => rfl
          | cons a l ih => simp_all
        simp only [mean, hmean, List.isEmpty_cons, Bool.false_eq_true, if_false, List.sum_cons]
        rw [hvs]
    | some fs =>
      rw [ho] at hres hlen hval
      have hfs := hoob fs ho
      obtain ⟨es, hes, hres⟩ := hres
      have heslen : es.length = n := by
        have := congrArg List.length hes
        simpa [hfs] using this.symm
      have hfil : ∀ (x : Nat) (f : E) (e : V), fs[x]? = some f → es[x]? = some e →
          eval I (postEnv inputs (some key) tuple) (embed f) = some e := by
        intro x f e hf he
        rw [hemb]
        have := congrArg (fun l => l[x]?) hes
        simp only [List.getElem?_map, hf, he, Option.map_some, Option.some.injEq] at this
        exact this
      simp only [bagFilters, List.length_map] at hlen
      have hall : ∀ (x : Nat) (e : PE), (b0 :: bs)[x]? = some e → ∀ q, ((es.map V.present).zip vs)[x]? = some q →
          eval I (postEnv inputs (some key) tuple) e = some (if q.1 then q.2 else .val 0) := by
        intro x e he q hq
        rw [List.getElem?_zip_eq_some] at hq
        obtain ⟨hq1, hq2⟩ := hq
        have hx : x < n := by
          rw [← hvs]; exact (List.getElem?_eq_some_iff.1 hq2).1
        obtain ⟨params, _, h2, h3⟩ := hval x hx
        obtain ⟨f, hf⟩ : ∃ f, fs[x]? = some f := ⟨_, List.getElem?_eq_getElem (by omega)⟩
        obtain ⟨w, hw⟩ : ∃ w, es[x]? = some w := ⟨_, List.getElem?_eq_getElem (by omega)⟩
        have := h3 (some f) (by simp [bagFilters, hf])
        rw [he] at this
        simp only [Option.some.injEq] at this
        rw [this]
        rw [List.getElem?_map, hw] at hq1
        simp only [Option.map_some, Option.some.injEq] at hq1
        rw [List.getD_eq_getElem?_getD, hq2] at h2
        simp only [bagExpr, eval, evalAll, h2, hfil x f w hf hw, applyOp, Option.getD_some, hq1]
      match fs, es, vs, hfs, heslen, hvs, hall, hfil, hlen with
      | f0 :: fs', e0 :: es', w0 :: ws, hfs, heslen, hvs, hall, hfil, hlen =>
        have h0 := hall 0 b0 rfl (e0.present, w0) rfl
        have hzip : ∀ q ∈ bs.zip ((es'.map V.present).zip ws),
            eval I (postEnv inputs (some key) tuple) q.1 = some (if q.2.1 then q.2.2 else .val 0) := by
          intro q hq
          obtain ⟨i, hi⟩ := List.getElem?_of_mem hq
          rw [List.getElem?_zip_eq_some] at hi
          exact hall (i + 1) q.1 (by simpa using hi.1) q.2 (by simpa using hi.2)
        simp only [List.length_cons] at hlen hvs hfs heslen
        have hsum := eval_addAll I (postEnv inputs (some key) tuple) Prod.fst
          (fun q : PE × Bool × V => if q.2.1 then q.2.2 else .val 0) (bs.zip ((es'.map V.present).zip ws)) b0 _ h0 hzip
        have hz : (bs.zip ((es'.map V.present).zip ws)).map
            (fun q : PE × Bool × V => if q.2.1 then q.2.2 else V.val 0) =
            ((es'.map V.present).zip ws).map fun x => if x.1 then x.2 else V.val 0 := by
          have : (fun q : PE × Bool × V => if q.2.1 then q.2.2 else V.val 0) =
              (fun x : Bool × V => if x.1 then x.2 else V.val 0) ∘ Prod.snd := rfl
          rw [this, ← List.map_map, List.map_snd_zip (by simp; omega)]
        rw [List.map_fst_zip (by simp; omega), hz] at hsum
        have hused : ∀ q ∈ fs'.zip es', eval I (postEnv inputs (some key) tuple) (usedBag q.1) =
            some (if q.2.present then V.val 1 else V.val 0) := by
          intro q hq
          obtain ⟨i, hi⟩ := List.getElem?_of_mem hq
          rw [List.getElem?_zip_eq_some] at hi
          simp only [usedBag, eval, evalAll, hfil (i + 1) q.1 q.2 (by simpa using hi.1) (by simpa using hi.2), applyOp]
        have hused0 : eval I (postEnv inputs (some key) tuple) (usedBag f0) =
            some (if e0.present then V.val 1 else V.val 0) := by
          simp only [usedBag, eval, evalAll, hfil 0 f0 e0 rfl rfl, applyOp]
        have hcount := eval_addAll I (postEnv inputs (some key) tuple) (fun q : E × V => usedBag q.1)
          (fun q : E × V => if q.2.present then V.val 1 else V.val 0) (fs'.zip es') _ _ hused0 hused
        have hz2 : (fs'.zip es').map (fun q : E × V => usedBag q.1) = fs'.map usedBag := by
          have : (fun q : E × V => usedBag q.1) = usedBag ∘ Prod.fst := rfl
          rw [this, ← List.map_map, List.map_fst_zip (by omega)]
        have hz3 : (fs'.zip es').map (fun q : E × V => if q.2.present then V.val 1 else V.val 0) =
            (es'.map V.present).map fun c => if c then V.val 1 else V.val 0 := by
          have : (fun q : E × V => if q.2.present then V.val 1 else V.val 0) =
              ((fun c : Bool => if c then V.val 1 else V.val 0) ∘ V.present) ∘ Prod.snd := rfl
          rw [this, ← List.map_map, List.map_snd_zip (by omega), List.map_map]
        rw [hz2, hz3] at hcount
        have hc1 : (if e0.present then V.val 1 else V.val 0) +
            ((es'.map V.present).map fun c => if c then V.val 1 else V.val 0).sum =
            .val ((((e0 :: es').map V.present).filter id).length : Rat) := by
          rw [← count_enabled, List.map_cons, List.map_cons, List.sum_cons]
        rw [hc1] at hcount
        have hs1 : (if (e0.present, w0).1 then (e0.present, w0).2 else V.val 0) +
            (((es'.map V.present).zip ws).map fun x => if x.1 then x.2 else V.val 0).sum =
            (((((e0 :: es').map V.present).zip (w0 :: ws)).filter Prod.fst).map Prod.snd).sum := by
          rw [← sum_enabled]; rfl
        rw [hs1] at hsum
        have hlen2 := zip_filter_length ((e0 :: es').map V.present) (w0 :: ws) (by simp; omega)
        simp only [usedBagCount, eval, evalAll, hsum, hcount, applyOp, Option.some.injEq]
        rw [hres]
        unfold mean
        simp only
        cases hcnt : ((((e0 :: es').map V.present).zip (w0 :: ws)).filter Prod.fst).map Prod.snd with
        | nil =>
          rw [hcnt] at hlen2
          rw [← hlen2]
          simp only [List.length_nil, Nat.cast_zero, V.greater, List.isEmpty_nil, if_true, V.present, List.sum_nil,
            V.zero_def, gt_iff_lt, lt_self_iff_false, if_false, Bool.false_eq_true]
          rfl
        | cons y ys =>
          rw [hcnt] at hlen2
          rw [← hlen2]
          have hpos : (0 : Rat) < (((y :: ys).length : Nat) : Rat) := by
            rw [Nat.cast_pos]; simp
          simp only [V.greater, gt_iff_lt, hpos, if_true, V.present, List.isEmpty_cons, Bool.false_eq_true, if_false]

end Verif.FModel
