import Verif.Arr.ViewLemmas

/-! Helper lemmas: builders and fingerprints of arrays. -/

namespace Verif.Arr
open Verif.Bits Verif.Bitmap Verif.Dense
variable {α : Type}

theorem foldl_set : ∀ (l : List (Nat × Option α)) (f : Nat → Option α),
    (l.map Prod.fst).Nodup → (∀ c ∈ l, f c.1 = none) → ∀ k,
    ((l.map (fun c => DBuilder.Op.set c.1 c.2)).foldl opEffect f) k =
      match l.find? (fun c => c.1 == k) with
      | some c => c.2
      | none => f k := by
  intro l
  induction l with
  | nil => intro f _ _ k; rfl
  | cons c cs ih =>
    intro f hn hf k
    rw [List.map_cons, List.nodup_cons] at hn
    rw [List.map_cons, List.foldl_cons, ih _ hn.2 ?_ k]
    · rw [List.find?_cons]
      by_cases hk : c.1 = k
      · have hnone : cs.find? (fun c => c.1 == k) = none := by
          rw [List.find?_eq_none]
          intro d hd
          have : c.1 ≠ d.1 := by
            intro he
            exact hn.1 (he ▸ List.mem_map_of_mem hd)
          simp; omega
        rw [hnone]
        simp only [hk, BEq.rfl]
        obtain ⟨i, v⟩ := c
        dsimp only at hk
        subst hk
        cases v with
        | none => exact hf (i, none) (by simp)
        | some x => simp [opEffect]
      · have : (c.1 == k) = false := by simpa using hk
        rw [this]
        dsimp only
        have hfk : opEffect f (DBuilder.Op.set c.1 c.2) k = f k := by
          obtain ⟨i, v⟩ := c
          cases v with
          | none => rfl
          | some x =>
            dsimp only at hk
            simp only [opEffect]
            rw [if_neg (by omega)]
        rw [hfk]
    · intro d hd
      obtain ⟨i, v⟩ := c
      cases v with
      | none => exact hf d (by simp [hd])
      | some x =>
        have : i ≠ d.1 := by
          intro he
          apply hn.1
          dsimp only
          rw [he]
          exact List.mem_map_of_mem hd
        simp only [opEffect]
        rw [if_neg (by omega)]
        exact hf d (by simp [hd])

theorem createArrayIds_spec (mem : Nat → α) {size : Nat} {ids : List Nat} {values : List (Option α)}
    (hl : ids.length = values.length) (hinc : ids.Pairwise (· < ·)) (hb : ∀ i ∈ ids, i < size) :
    ∃ r, createArrayIds mem size ids values = some r ∧ r.Valid ∧ r.size = size ∧
      (∀ o i : Nat, ids[o]? = some i → some (r.elem i) = values[o]?) ∧
      (∀ i, i < size → i ∉ ids → r.elem i = none) := by
  unfold createArrayIds
  have hnd : ids.Nodup := hinc.imp (fun h => by omega)
  by_cases hc : 4 * values.length > size
  · rw [if_pos hc]
    obtain ⟨b, e1, e2⟩ := applyAll_inv ((ids.zip values).map (fun c => DBuilder.Op.set c.1 c.2))
      (fun _ => none) _ (new_inv ((List.range size).map mem)) (by
        intro o ho
        obtain ⟨c, hc, rfl⟩ := List.mem_map.1 ho
        have := hb c.1 (List.of_mem_zip hc).1
        simpa [opOk] using this)
    have e1' : (DBuilder.new ((List.range size).map mem)).applyAll
      ((ids.zip values).map (fun (i, v) => .set i v)) = some b := e1
    rw [e1']
    have hlen : ((List.range size).map mem).length = size := by simp
    rw [hlen] at e2
    obtain ⟨v1, v2⟩ := elems_of_inv e2
    have hsz : b.build.values.length = size := by
      have := congrArg List.length v2
      rw [elems_length] at this
      simpa using this
    have hel : ∀ i, i < size → (Arr.ofDense b.build).elem i =
        match (ids.zip values).find? (fun c => c.1 == i) with
        | some c => c.2
        | none => none := by
      intro i hi
      rw [ofDense_elem]
      refine elem_of_elems v2 ?_
      rw [List.getElem?_map, List.getElem?_range hi, Option.map_some, foldl_set]
      · rw [List.map_fst_zip (by omega)]; exact hnd
      · intro _ _; rfl
    refine ⟨_, rfl, ofDense_valid v1, hsz, ?_, ?_⟩
    · intro o i ho
      have ho' := (List.getElem?_eq_some_iff.1 ho).1
      rw [hel i (hb i (List.mem_of_getElem? ho))]
      have hv : o < values.length := by omega
      have hmem : (i, values[o]) ∈ ids.zip values := by
        apply List.mem_of_getElem? (i := o)
        rw [List.getElem?_zip_eq_some]
        exact ⟨ho, List.getElem?_eq_getElem hv⟩
      cases hf : (ids.zip values).find? (fun c => c.1 == i) with
      | none =>
        rw [List.find?_eq_none] at hf
        exact absurd (hf _ hmem) (by simp)
      | some c =>
        have h1 := List.mem_of_find?_eq_some hf
        have h2 := List.find?_some hf
        simp only [beq_iff_eq] at h2
        obtain ⟨k, hk⟩ := List.mem_iff_getElem?.1 h1
        rw [List.getElem?_zip_eq_some, h2] at hk
        have hko : k = o := by
          have hk' := (List.getElem?_eq_some_iff.1 hk.1).1
          exact (List.getElem?_inj hk' hnd).1 (hk.1.trans ho.symm)
        rw [← hko]
        exact hk.2.symm
    · intro i hi hni
      rw [hel i hi]
      cases hf : (ids.zip values).find? (fun c => c.1 == i) with
      | none => rfl
      | some c =>
        have h1 := List.mem_of_find?_eq_some hf
        have h2 := List.find?_some hf
        simp only [beq_iff_eq] at h2
        exact absurd (h2 ▸ (List.of_mem_zip h1).1) hni
  · rw [if_neg hc]
    obtain ⟨b, e1, e2⟩ := applyAll_inv ((values.zipIdx.map (fun c => (c.2, c.1))).map
        (fun c => DBuilder.Op.set c.1 c.2))
      (fun _ => none) _ (new_inv ((List.range values.length).map mem)) (by
        intro o ho
        simp only [List.map_map, List.mem_map] at ho
        obtain ⟨⟨v, k⟩, hc, rfl⟩ := ho
        have := List.mem_zipIdx hc
        simp [opOk]; omega)
    have e1' : (DBuilder.new ((List.range values.length).map mem)).applyAll
      (values.zipIdx.map (fun (v, i) => .set i v)) = some b := by
      rw [List.map_map] at e1; exact e1
    rw [e1']
    have hlen : ((List.range values.length).map mem).length = values.length := by simp
    rw [hlen] at e2
    obtain ⟨v1, v2⟩ := elems_of_inv e2
    have hsz : b.build.values.length = values.length := by
      have := congrArg List.length v2
      rw [elems_length] at this
      simpa using this
    have hel : ∀ o, o < values.length → some (Dense.elem b.build o) = values[o]? := by
      intro o ho
      have : Dense.elem b.build o = values[o] := by
        refine elem_of_elems v2 ?_
        rw [List.getElem?_map, List.getElem?_range ho, Option.map_some, foldl_set]
        · congr 1
          have hm : (o, values[o]) ∈ values.zipIdx.map (fun c => (c.2, c.1)) := by
            rw [List.mem_map]
            exact ⟨(values[o], o), by rw [List.mk_mem_zipIdx_iff_getElem?]; exact List.getElem?_eq_getElem ho, rfl⟩
          cases hf : (values.zipIdx.map (fun c => (c.2, c.1))).find? (fun c => c.1 == o) with
          | none =>
            rw [List.find?_eq_none] at hf
            exact absurd (hf _ hm) (by simp)
          | some c =>
            have h1 := List.mem_of_find?_eq_some hf
            have h2 := List.find?_some hf
            simp only [beq_iff_eq] at h2
            rw [List.mem_map] at h1
            obtain ⟨⟨v, k⟩, hk, rfl⟩ := h1
            dsimp only at h2
            subst h2
            rw [List.mk_mem_zipIdx_iff_getElem?] at hk
            exact (List.getElem?_eq_some_iff.1 hk).2.symm
        · rw [List.map_map]
          show (values.zipIdx.map (fun c => c.2)).Nodup
          have : values.zipIdx.map (fun c => c.2) = List.range values.length := by
            have := List.zipIdx_map_snd 0 values
            rw [List.range_eq_range']
            exact this
          rw [this]; exact List.nodup_range
        · intro _ _; rfl
      rw [this, List.getElem?_eq_getElem ho]
    obtain ⟨m1, m2, m3, m4⟩ := make_spec (n := size) (off := 0) (ids := ids.map (fun (i : Nat) => (i : Int)))
      (by unfold Inc; rw [List.pairwise_map]; exact hinc.imp (by intro x y h; omega)) (by
        intro x hx
        obtain ⟨i, hi, rfl⟩ := List.mem_map.1 hx
        have := hb i hi
        omega) v1 (by rw [hsz]; simp [hl]) none
    refine ⟨_, rfl, m1, rfl, ?_, ?_⟩
    · intro o i ho
      rw [m3 o i (by rw [List.getElem?_map, ho]; simp)]
      exact hel o (by have := (List.getElem?_eq_some_iff.1 ho).1; omega)
    · intro i hi hni
      apply m4 i hi
      intro hm
      obtain ⟨k, hk, hki⟩ := List.mem_map.1 hm
      have : k = i := by omega
      exact hni (this ▸ hk)

/-! ## `SparseArrayBuilder` -/

/-- The builder holds the ids `ids` and the values `f`. -/
def SInv (size cnt : Nat) (ids : List Nat) (f : Nat → Option α) (b : SBuilder α) : Prop :=
  b.size = size ∧ b.offset = ids.length ∧ b.ids.length = cnt ∧ ids.length ≤ cnt ∧
  b.ids.take b.offset = ids.map (fun (i : Nat) => (i : Int)) ∧ DBInv cnt f b.dense

theorem addId_inv {size cnt : Nat} {ids : List Nat} {f : Nat → Option α} {b : SBuilder α}
    (h : SInv size cnt ids f b) (hc : ids.length < cnt) (id : Nat) :
    ∃ b', b.addId id = some b' ∧ SInv size cnt (ids ++ [id]) f b' := by
  obtain ⟨h1, h2, h3, h4, h5, h6⟩ := h
  unfold SBuilder.addId wrV
  rw [if_pos (by omega)]
  refine ⟨_, rfl, h1, by simp [h2], by simpa using h3, by simp; omega, ?_, h6⟩
  dsimp only
  rw [List.take_add_one, List.take_set_of_le (Nat.le_refl _), h5, List.getElem?_set_self (by omega)]
  simp

theorem opEffect_set (f : Nat → Option α) (k : Nat) (v : Option α) :
    opEffect f (.set k v) = fun o => if o = k ∧ v.isSome then v else f o := by
  funext o
  cases v with
  | none => simp [opEffect]
  | some x => simp [opEffect]

theorem sapply_inv {size cnt : Nat} : ∀ (ops : List (SOp α)) (ids : List Nat) (f : Nat → Option α)
    (b : SBuilder α), SInv size cnt ids f b → ids.length + (sIds ops).length ≤ cnt →
    (∀ o v, SOp.setByOffset o v ∈ ops → o < cnt) →
    ∃ b', b.applyAll ops = some b' ∧ SInv size cnt (ids ++ sIds ops) (sVals ids.length f ops) b' := by
  intro ops
  induction ops with
  | nil =>
    intro ids f b h _ _
    exact ⟨b, rfl, by simpa [sIds, sVals] using h⟩
  | cons o os ih =>
    intro ids f b h hlen hset
    rw [SBuilder.applyAll]
    have hset' : ∀ o v, SOp.setByOffset o v ∈ os → o < cnt := fun o v hm => hset o v (by simp [hm])
    cases o with
    | add id v =>
      simp only [sIds, List.filterMap_cons, List.length_cons] at hlen
      obtain ⟨d, d1, d2⟩ := apply_inv h.2.2.2.2.2 (.set ids.length v) (show ids.length < cnt by omega)
      have d1' : b.dense.set b.offset v = some d := by rw [h.2.1]; exact d1
      simp only [SBuilder.apply, d1', Option.bind_eq_bind, Option.bind_some]
      obtain ⟨b1, e1, e2⟩ := addId_inv (b := { b with dense := d })
        ⟨h.1, h.2.1, h.2.2.1, h.2.2.2.1, h.2.2.2.2.1, d2⟩ (by omega) id
      rw [e1]
      simp only [Option.bind_some]
      obtain ⟨b2, g1, g2⟩ := ih _ _ b1 e2 (by simp [sIds]; omega) hset'
      refine ⟨b2, g1, ?_⟩
      simpa [sIds, sVals, opEffect_set] using g2
    | addId id =>
      simp only [sIds, List.filterMap_cons, List.length_cons] at hlen
      simp only [SBuilder.apply]
      obtain ⟨b1, e1, e2⟩ := addId_inv h (by omega) id
      rw [e1]
      simp only [Option.bind_eq_bind, Option.bind_some]
      obtain ⟨b2, g1, g2⟩ := ih _ _ b1 e2 (by simp [sIds]; omega) hset'
      refine ⟨b2, g1, ?_⟩
      simpa [sIds, sVals] using g2
    | setByOffset k v =>
      obtain ⟨d, d1, d2⟩ := apply_inv h.2.2.2.2.2 (.set k v) (show k < cnt from hset k v (by simp))
      have d1' : b.dense.set k v = some d := d1
      simp only [SBuilder.apply, d1', Option.bind_eq_bind, Option.bind_some]
      obtain ⟨b2, g1, g2⟩ := ih ids _ { b with dense := d }
        ⟨h.1, h.2.1, h.2.2.1, h.2.2.2.1, h.2.2.2.2.1, d2⟩ (by simpa [sIds] using hlen) hset'
      refine ⟨b2, g1, ?_⟩
      simpa [sIds, sVals, opEffect_set] using g2

theorem sbuilder_spec {size : Nat} (mem : List α) (idmem : List Int) (hm : idmem.length = mem.length)
    {ops : List (SOp α)} (hcnt : (sIds ops).length ≤ mem.length)
    (hset : ∀ o v, SOp.setByOffset o v ∈ ops → o < mem.length)
    (hinc : (sIds ops).Pairwise (· < ·)) (hb : ∀ i ∈ sIds ops, i < size) :
    ∃ b, (SBuilder.new size mem idmem).applyAll ops = some b ∧ b.build.Valid ∧ b.build.size = size ∧
      (∀ o i : Nat, (sIds ops)[o]? = some i → b.build.elem i = sVals 0 (fun _ => none) ops o) ∧
      (∀ i, i < size → i ∉ sIds ops → b.build.elem i = none) := by
  obtain ⟨b, e1, h1, h2, h3, h4, h5, h6⟩ := sapply_inv ops [] (fun _ => none) (SBuilder.new size mem idmem)
    ⟨rfl, rfl, hm, by simp, by simp [SBuilder.new], new_inv mem⟩ (by simpa using hcnt) hset
  rw [List.nil_append] at h2 h4 h5
  have h1 : b.size = size := h1
  rw [List.length_nil] at h6
  obtain ⟨v1, v2⟩ := elems_of_inv_prefix h6 (size := b.offset) (by omega)
  have hsz : (b.dense.buildSize b.offset).values.length = b.offset := by
    have := congrArg List.length v2
    rw [elems_length] at this
    simpa using this
  obtain ⟨m1, m2, m3, m4⟩ := make_spec (n := size) (off := 0)
    (ids := (sIds ops).map (fun (i : Nat) => (i : Int)))
    (by unfold Inc; rw [List.pairwise_map]; exact hinc.imp (by intro x y h; omega)) (by
      intro x hx
      obtain ⟨i, hi, rfl⟩ := List.mem_map.1 hx
      have := hb i hi
      omega) v1 (by rw [hsz]; simp [h2]) none
  refine ⟨b, e1, ?_⟩
  unfold SBuilder.build
  rw [h1, h5]
  refine ⟨m1, rfl, ?_, ?_⟩
  · intro o i ho
    rw [m3 o i (by rw [List.getElem?_map, ho]; simp)]
    refine elem_of_elems v2 ?_
    rw [List.getElem?_map, List.getElem?_range]
    · rfl
    · have := (List.getElem?_eq_some_iff.1 ho).1; omega
  · intro i hi hni
    apply m4 i hi
    intro hmm
    obtain ⟨k, hk, hki⟩ := List.mem_map.1 hmm
    have : k = i := by omega
    exact hni (this ▸ hk)

/-! ## Fingerprints -/

theorem fingerprint_arr_eq {a : Arr α} (hv : a.Valid) :
    a.fingerprintTokens = some (.size a.size ::
      (((.size a.data.values.length :: (Dense.elems a.data).flatMap DArr.optTokens).map Arr.ATok.dense) ++
      ((DArr.optTokens a.miss).map .dense ++
      (.typ a.flt.typ :: if a.flt.typ ≠ .full then [.ids a.flt.ids] else [])))) := by
  unfold Arr.fingerprintTokens
  rw [Dense.fingerprint_eq hv.1]
  rfl

theorem optTokens_append_inj {x y : Option α} {s t : List (DArr.Tok α)}
    (h : DArr.optTokens x ++ s = DArr.optTokens y ++ t) : x = y ∧ s = t := by
  cases x <;> cases y <;> simp_all [DArr.optTokens]

theorem flatMap_tokens_append_inj : ∀ (xs ys : List (Option α)) (s t : List (DArr.Tok α)),
    xs.length = ys.length → xs.flatMap DArr.optTokens ++ s = ys.flatMap DArr.optTokens ++ t →
    xs = ys ∧ s = t := by
  intro xs
  induction xs with
  | nil =>
    intro ys s t hl h
    have : ys = [] := by simpa using hl.symm
    subst this
    exact ⟨rfl, by simpa using h⟩
  | cons x xs ih =>
    intro ys s t hl h
    cases ys with
    | nil => simp at hl
    | cons y ys =>
      rw [List.flatMap_cons, List.flatMap_cons, List.append_assoc, List.append_assoc] at h
      obtain ⟨rfl, h'⟩ := optTokens_append_inj h
      obtain ⟨rfl, h''⟩ := ih ys s t (by simpa using hl) h'
      exact ⟨rfl, h''⟩

theorem dense_prefix_inj {l m : List (DArr.Tok α)} {t u : FType} {s v : List (Arr.ATok α)}
    (h : l.map Arr.ATok.dense ++ (.typ t :: s) = m.map Arr.ATok.dense ++ (.typ u :: v)) :
    l = m ∧ t = u ∧ s = v := by
  induction l generalizing m with
  | nil =>
    cases m with
    | nil => simpa using h
    | cons y ys => simp at h
  | cons x xs ih =>
    cases m with
    | nil => simp at h
    | cons y ys =>
      simp only [List.map_cons, List.cons_append, List.cons.injEq, Arr.ATok.dense.injEq] at h
      obtain ⟨rfl, h'⟩ := h
      obtain ⟨rfl, h''⟩ := ih h'
      exact ⟨rfl, h''⟩

theorem fingerprint_arr_inj {a b : Arr α} (ha : a.Valid) (hb : b.Valid)
    (h : a.fingerprintTokens = b.fingerprintTokens) :
    a.size = b.size ∧ Dense.elems a.data = Dense.elems b.data ∧ a.miss = b.miss ∧
      a.flt.typ = b.flt.typ ∧ (a.flt.typ ≠ .full → a.flt.ids = b.flt.ids) := by
  rw [fingerprint_arr_eq ha, fingerprint_arr_eq hb] at h
  simp only [Option.some.injEq, List.cons.injEq, Arr.ATok.size.injEq] at h
  obtain ⟨h1, h2⟩ := h
  rw [← List.append_assoc, ← List.append_assoc, ← List.map_append, ← List.map_append] at h2
  obtain ⟨h3, h4, h5⟩ := dense_prefix_inj h2
  simp only [List.cons_append, List.cons.injEq, DArr.Tok.size.injEq] at h3
  obtain ⟨h6, h7⟩ := flatMap_tokens_append_inj _ _ _ _ (by rw [elems_length, elems_length]; exact h3.1)
    h3.2
  have h8 : a.miss = b.miss :=
    (optTokens_append_inj (s := []) (t := []) (by simpa using h7)).1
  refine ⟨h1, h6, h8, h4, ?_⟩
  intro hf
  rw [if_pos hf, if_pos (by rw [← h4]; exact hf)] at h5
  simpa using h5

theorem elem_of_same {a b : Arr α} (ha : a.Valid) (hb : b.Valid)
    (h2 : Dense.elems a.data = Dense.elems b.data) (h3 : a.miss = b.miss) (h4 : a.flt.typ = b.flt.typ)
    (h5 : a.flt.typ ≠ .full → a.flt.ids = b.flt.ids) (h6 : a.flt.off = b.flt.off) (i : Nat)
    (hs : a.size = b.size) (hi : i < a.size) :
    a.elem i = b.elem i := by
  have hio : a.flt.idToOffset i = b.flt.idToOffset i := by
    unfold Filter.idToOffset
    rw [← h4]
    cases ht : a.flt.typ with
    | empty => rfl
    | full => rfl
    | partial' => rw [h5 (by rw [ht]; simp), h6]
  rw [elem_eq_offset ha, elem_eq_offset hb, ← hio, h3]
  cases he : a.flt.idToOffset i with
  | none => rfl
  | some o =>
    have hl := offset_lt ha hi he
    refine elem_of_elems h2 ?_
    rw [elems_get?, if_pos]
    have := congrArg List.length h2
    rw [elems_length, elems_length] at this
    omega

end Verif.Arr
