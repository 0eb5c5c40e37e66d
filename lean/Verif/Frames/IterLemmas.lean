import Verif.Frames.CopyLemmas

/-! Helper lemmas: creation of the iterator, and the loop over the rows. -/

namespace Verif.Frames
open Verif.Bits Verif.Bitmap Verif.Dense Verif.Arr

variable {V : Type}

/-! ## Writing outputs -/

theorem writeVals_spec : ∀ (xs mem : List V) (pos : Nat), pos + xs.length ≤ mem.length →
    writeVals mem pos xs = some (mem.take pos ++ xs ++ mem.drop (pos + xs.length)) := by
  intro xs
  induction xs with
  | nil => intro mem pos _; simp [writeVals]
  | cons x xs ih =>
    intro mem pos h
    rw [List.length_cons] at h
    have hp : pos < mem.length := by omega
    rw [writeVals, wrV, if_pos hp, Option.bind_some, ih _ _ (by rw [List.length_set]; omega)]
    congr 1
    rw [List.take_set, List.drop_set, if_pos (by omega), List.take_add_one, List.set_append_right _ _ (by simp; omega)]
    simp only [List.length_take, List.getElem?_eq_getElem hp, Option.toList_some]
    rw [show pos - min pos mem.length = 0 by omega]
    simp [Nat.add_assoc, Nat.add_comm 1]

theorem addChunks_append (c : List Bool) : ∀ (cs : List (List Bool)) (s : Builder),
    s.addChunks (cs ++ [c]) = (s.addChunks cs).bind (fun s => s.addForEach c) := by
  intro cs
  induction cs with
  | nil =>
    intro s
    simp only [List.nil_append, Builder.addChunks, Option.bind_eq_bind, Option.bind_some]
    cases s.addForEach c <;> rfl
  | cons d cs ih =>
    intro s
    simp only [List.cons_append, Builder.addChunks, Option.bind_eq_bind]
    cases s.addForEach d with
    | none => rfl
    | some s' => exact ih s'

/-- The builders after the rows `D`. -/
def OutInv (mem : List V) (bmem : List Word) (slot : Scalar) (D : List (Frame V)) (b : OutB V) : Prop :=
  b.vals = D.map (fun f => (f slot.id).2) ++ mem.drop D.length ∧
  (slot.opt = false → b.bits = none) ∧
  (slot.opt = true → ∃ bb cs, b.bits = some bb ∧ (Builder.new bmem).addChunks cs = some bb ∧
    cs.flatten = D.map (fun f => (f slot.id).1))

theorem outInv_start (mem : List V) (bmem : List Word) (slot : Scalar) :
    OutInv mem bmem slot [] (OutB.start mem bmem slot) := by
  refine ⟨by simp [OutB.start], fun h => by simp [OutB.start, h], fun h => ?_⟩
  exact ⟨Builder.new bmem, [], by simp [OutB.start, h], rfl, rfl⟩

theorem copyOut_inv {mem : List V} {bmem : List Word} {slot : Scalar} {D fs : List (Frame V)}
    {b : OutB V} (h : OutInv mem bmem slot D b) (hl : D.length + fs.length ≤ mem.length)
    (hb : mem.length ≤ 32 * bmem.length) :
    ∃ b', copyOut slot D.length fs b = some b' ∧ OutInv mem bmem slot (D ++ fs) b' := by
  obtain ⟨h1, h2, h3⟩ := h
  have hw : writeVals b.vals D.length (fs.map (fun f => (f slot.id).2)) =
      some ((D ++ fs).map (fun f => (f slot.id).2) ++ mem.drop (D ++ fs).length) := by
    rw [writeVals_spec _ _ _ (by rw [h1]; simp; omega), h1]
    congr 1
    rw [List.take_append_of_le_length (by simp), List.take_of_length_le (by simp), List.length_map,
      List.drop_append, List.length_map, List.drop_eq_nil_of_le (by simp), List.drop_drop]
    simp
  cases ho : slot.opt with
  | false =>
    unfold copyOut
    rw [h2 ho]
    dsimp only
    rw [hw]
    exact ⟨_, rfl, rfl, fun _ => rfl, fun h => by rw [ho] at h; cases h⟩
  | true =>
    obtain ⟨bb, cs, k1, k2, k3⟩ := h3 ho
    unfold copyOut
    rw [k1]
    dsimp only
    obtain ⟨s, e1, _⟩ := builder_bits bmem (cs ++ [fs.map (fun f => (f slot.id).1)]) (by
      rw [List.flatten_append, k3]; simp; omega)
    rw [addChunks_append, k2, Option.bind_some] at e1
    rw [e1, Option.bind_some, hw]
    refine ⟨_, rfl, rfl, (fun h => by rw [ho] at h; cases h), fun _ => ?_⟩
    refine ⟨s, cs ++ [fs.map (fun f => (f slot.id).1)], rfl, ?_, ?_⟩
    · rw [addChunks_append, k2]; exact e1
    · rw [List.flatten_append, k3]; simp

/-- All builders after the rows `D`. -/
def OutsInv (mem : Nat → List V) (bmem : Nat → List Word) (outs : List (OutSlot × Scalar))
    (D : List (Frame V)) (bs : List (OutB V)) : Prop :=
  bs.length = outs.length ∧ ∀ (k : Nat) o, outs[k]? = some o → ∃ b, bs[k]? = some b ∧
    OutInv (mem k) (bmem k) o.2 D b

theorem saveOutputs_inv {D fs : List (Frame V)} : ∀ (outs : List (OutSlot × Scalar)) (bs : List (OutB V))
    (mem : Nat → List V) (bmem : Nat → List Word),
    (∀ k, k < outs.length → D.length + fs.length ≤ (mem k).length ∧ (mem k).length ≤ 32 * (bmem k).length) →
    OutsInv mem bmem outs D bs →
    ∃ bs', saveOutputs D.length fs outs bs = some bs' ∧ OutsInv mem bmem outs (D ++ fs) bs' := by
  intro outs
  induction outs with
  | nil =>
    intro bs mem bmem _ h
    have : bs = [] := by simpa using h.1
    subst this
    exact ⟨[], rfl, rfl, by simp⟩
  | cons o outs ih =>
    intro bs mem bmem hm h
    cases bs with
    | nil => exact absurd h.1 (by simp)
    | cons b bs =>
      obtain ⟨b0, q1, q2⟩ := h.2 0 o (by simp)
      simp only [List.getElem?_cons_zero, Option.some.injEq] at q1
      subst q1
      obtain ⟨b', e1, e2⟩ := copyOut_inv q2 (hm 0 (by simp)).1 (hm 0 (by simp)).2
      obtain ⟨bs', g1, g2⟩ := ih bs (fun k => mem (k + 1)) (fun k => bmem (k + 1))
        (fun k hk => hm (k + 1) (by simp; omega)) ⟨by simpa using h.1, fun k o' ho' => by
          have := h.2 (k + 1) o' (by simpa using ho')
          simpa using this⟩
      refine ⟨b' :: bs', by rw [saveOutputs, e1, Option.bind_some, g1]; rfl, by simp [g2.1], ?_⟩
      intro k o' ho'
      cases k with
      | zero => simp at ho'; subst ho'; exact ⟨b', by simp, e2⟩
      | succ k => simpa using g2.2 k o' (by simpa using ho')

theorem startOuts_inv (mem : Mem V) (it : Iter V) :
    OutsInv mem.vals mem.bits it.outs [] (startOuts mem it) := by
  refine ⟨by simp [startOuts], ?_⟩
  intro k o ho
  refine ⟨OutB.start (mem.vals k) (mem.bits k) o.2, ?_, outInv_start _ _ _⟩
  unfold startOuts
  rw [List.getElem?_map, List.getElem?_zipIdx, ho]
  simp

/-- The finished array. -/
theorem finalize_spec {mem : List V} {bmem : List Word} {o : OutSlot} {slot : Scalar}
    {D : List (Frame V)} {b : OutB V} (h : OutInv mem bmem slot D b) (hl : mem.length = D.length)
    (hb : bmem.length = bitmapSize mem.length) :
    (b.finalize o).Valid ∧ (b.finalize o).key = o.key ∧
      (b.finalize o).elems = D.map (fun f => look slot.opt (f slot.id)) := by
  obtain ⟨h1, h2, h3⟩ := h
  have hv : b.vals = D.map (fun f => (f slot.id).2) := by
    rw [h1, List.drop_eq_nil_of_le (by omega)]; simp
  -- the dense array
  have key : ∀ d : DArr V, d = ⟨b.vals, match b.bits with | none => [] | some bb => bb.build, 0⟩ →
      d.Valid ∧ Dense.elems d = D.map (fun f => look slot.opt (f slot.id)) := by
    intro d hd
    cases ho : slot.opt with
    | false =>
      rw [h2 ho] at hd
      dsimp only at hd
      subst hd
      refine ⟨⟨by simp, Or.inl rfl⟩, ?_⟩
      unfold Dense.elems Dense.elem
      rw [hv]
      apply List.ext_getElem?
      intro i
      by_cases hi : i < D.length
      · simp [hi, look]
      · simp [hi, Nat.le_of_not_lt hi]
    | true =>
      obtain ⟨bb, cs, k1, k2, k3⟩ := h3 ho
      rw [k1] at hd
      dsimp only at hd
      subst hd
      obtain ⟨s, e1, e2, e3⟩ := builder_bits bmem cs (by
        rw [k3, List.length_map, hb, bitmapSize_eq]; omega)
      rw [k2] at e1
      cases e1
      have hcl : cs.flatten.length = D.length := by rw [k3]; simp
      refine ⟨⟨by simp, ?_⟩, ?_⟩
      · by_cases hbe : bb.build = []
        · exact Or.inl hbe
        · right
          have := (e3 hbe).1
          show bb.build.length = bitmapSize (b.vals.length + 0)
          rw [this, hb, hv]; simp [hl]
      · unfold Dense.elems Dense.elem
        apply List.ext_getElem?
        intro i
        by_cases hi : i < D.length
        · have hval : b.vals[i]? = some ((D[i] slot.id).2) := by rw [hv]; simp [hi]
          have hlen : i < b.vals.length := by rw [hv]; simpa using hi
          simp only [List.getElem?_map, List.getElem?_range hlen, List.getElem?_eq_getElem hi,
            Option.map_some, hval, Nat.zero_add, look]
          congr 1
          have hf : cs.flatten[i]'(by omega) = (D[i] slot.id).1 := by
            simp only [k3, List.getElem_map]
          by_cases hbe : bb.build = []
          · have : ∀ x ∈ cs.flatten, x = true := by
              rcases e2.1 hbe with q | q
              · exact q
              · subst q
                have : bitmapSize mem.length = 0 := by rw [← hb]; rfl
                rw [bitmapSize_eq] at this
                omega
            have := this _ (List.getElem_mem (by omega : i < cs.flatten.length))
            rw [hf] at this
            simp [hbe, this]
          · have := (e3 hbe).2 i (by omega)
            rw [hf] at this
            simp [hbe, this]
        · have hlen : ¬ i < b.vals.length := by rw [hv]; simpa using hi
          rw [List.getElem?_eq_none (by simp; omega), List.getElem?_eq_none (by simp; omega)]
  obtain ⟨kv, ke⟩ := key _ rfl
  unfold OutB.finalize In.Valid In.elems In.key OutSlot.key
  dsimp only
  cases o.sparse with
  | false => exact ⟨kv, rfl, ke⟩
  | true => exact ⟨ofDense_valid kv, rfl, ke⟩

/-! ## Creation -/

theorem lookup_append {cs : Counts} {k k' : Key} {n : Nat} :
    (cs ++ [(k', n)]).lookup k = (cs.lookup k).or (if k = k' then some n else none) := by
  induction cs with
  | nil => simp [List.lookup]; split <;> simp_all
  | cons c cs ih =>
    obtain ⟨c1, c2⟩ := c
    rw [List.cons_append, List.lookup_cons, List.lookup_cons]
    split
    · rfl
    · exact ih

theorem addInputs_ok : ∀ (ms : List (In V × Scalar)) (cs cs' : Counts), addInputs ms cs = .ok cs' →
    (∀ m ∈ ms, m.1.accepts m.2 = true ∧ cs'.lookup m.1.key = some m.1.arr.size) ∧
    (∀ k n, cs.lookup k = some n → cs'.lookup k = some n) := by
  intro ms
  induction ms with
  | nil =>
    intro cs cs' h
    rw [addInputs] at h
    cases h
    exact ⟨by simp, fun _ _ h => h⟩
  | cons m ms ih =>
    intro cs cs' h
    rw [addInputs] at h
    cases hl : cs.lookup m.1.key with
    | some n =>
      rw [hl] at h
      dsimp only at h
      split at h
      · cases h
      · rename_i hn
        split at h
        · rename_i ha
          obtain ⟨h1, h2⟩ := ih cs cs' h
          refine ⟨?_, h2⟩
          intro m' hm'
          rcases List.mem_cons.1 hm' with rfl | hm'
          · refine ⟨ha, ?_⟩
            rw [h2 _ _ hl]
            simp only [ne_eq, Decidable.not_not] at hn
            rw [hn]
          · exact h1 m' hm'
        · cases h
    | none =>
      rw [hl] at h
      dsimp only at h
      split at h
      · rename_i ha
        obtain ⟨h1, h2⟩ := ih _ cs' h
        refine ⟨?_, fun k n hk => h2 k n (by rw [lookup_append, hk]; rfl)⟩
        intro m' hm'
        rcases List.mem_cons.1 hm' with rfl | hm'
        · exact ⟨ha, h2 _ _ (by rw [lookup_append, hl]; simp)⟩
        · exact h1 m' hm'
      · cases h

theorem addInputs_complete {n : Nat} : ∀ (ms : List (In V × Scalar)) (cs : Counts),
    (∀ m ∈ ms, m.1.accepts m.2 = true ∧ m.1.arr.size = n) → (∀ k x, cs.lookup k = some x → x = n) →
    ∃ cs', addInputs ms cs = .ok cs' := by
  intro ms
  induction ms with
  | nil => intro cs _ _; exact ⟨cs, rfl⟩
  | cons m ms ih =>
    intro cs h hc
    obtain ⟨ha, hs⟩ := h m (by simp)
    rw [addInputs]
    cases hl : cs.lookup m.1.key with
    | some x =>
      dsimp only
      rw [if_neg (by rw [hc _ _ hl, hs]; simp), if_pos ha]
      exact ih cs (fun m' hm' => h m' (by simp [hm'])) hc
    | none =>
      dsimp only
      rw [if_pos ha]
      refine ih _ (fun m' hm' => h m' (by simp [hm'])) ?_
      intro k x hk
      rw [lookup_append] at hk
      cases hk0 : cs.lookup k with
      | some y => rw [hk0] at hk; simp at hk; subst hk; exact hc _ _ hk0
      | none =>
        rw [hk0] at hk
        simp at hk
        omega

theorem addOutputs_iff : ∀ (os : List (OutSlot × Scalar)),
    addOutputs os = .ok () ↔ ∀ o ∈ os, o.2.ty = o.1.ty := by
  intro os
  induction os with
  | nil => simp [addOutputs]
  | cons o os ih =>
    rw [addOutputs]
    by_cases h : o.2.ty = o.1.ty
    · rw [if_pos h, ih]; simp [h]
    · rw [if_neg h]; simp [h]

theorem commonCount_some : ∀ (ns : List Nat) (k : Nat) (r : Option Nat), commonCount ns (some k) = .ok r →
    r = some k ∧ ∀ n ∈ ns, n = k := by
  intro ns
  induction ns with
  | nil => intro k r h; rw [commonCount] at h; cases h; simp
  | cons n ns ih =>
    intro k r h
    rw [commonCount] at h
    split at h
    · cases h
    · rename_i hk
      simp only [ne_eq, Decidable.not_not] at hk
      subst hk
      obtain ⟨h1, h2⟩ := ih _ _ h
      exact ⟨h1, by simp; exact h2⟩

theorem commonCount_ok {ns : List Nat} {r : Option Nat} (h : commonCount ns none = .ok r) :
    (r = none ↔ ns = []) ∧ ∀ k, r = some k → ∀ n ∈ ns, n = k := by
  cases ns with
  | nil => rw [commonCount] at h; cases h; simp
  | cons n ns =>
    rw [commonCount] at h
    obtain ⟨h1, h2⟩ := commonCount_some _ _ _ h
    subst h1
    refine ⟨by simp, ?_⟩
    intro k hk
    cases hk
    simp; exact h2

theorem commonCount_complete {k : Nat} : ∀ (ns : List Nat) (r : Option Nat), (∀ n ∈ ns, n = k) →
    (∀ x, r = some x → x = k) → ∃ r', commonCount ns r = .ok r' := by
  intro ns
  induction ns with
  | nil => intro r _ _; exact ⟨r, rfl⟩
  | cons n ns ih =>
    intro r h hr
    have hn := h n (by simp)
    cases r with
    | none => rw [commonCount]; exact ih _ (fun x hx => h x (by simp [hx])) (by intro x hx; cases hx; exact hn)
    | some x =>
      rw [commonCount, if_neg (by rw [hr x rfl, hn]; simp)]
      exact ih _ (fun x hx => h x (by simp [hx])) (by intro x hx; cases hx; exact hn)

theorem mem_byKey {β : Type} {key : β → Key} {ms : List β} {keys : List Key}
    (hk : KeysOk key ms keys) (m : β) : m ∈ byKey key keys ms ↔ m ∈ ms := by
  unfold byKey
  simp only [List.mem_flatMap, List.mem_filter, decide_eq_true_eq]
  constructor
  · rintro ⟨_, _, h, _⟩; exact h
  · intro h; exact ⟨key m, (hk.2 _).2 ⟨m, h, rfl⟩, h, rfl⟩

/-- Grouping by array type permutes the mappings. -/
theorem byKey_perm {β : Type} {key : β → Key} : ∀ {ms : List β} {keys : List Key},
    KeysOk key ms keys → (byKey key keys ms).Perm ms := by
  intro ms keys hk
  obtain ⟨hn, hall⟩ := hk
  have hall' : ∀ m ∈ ms, key m ∈ keys := fun m hm => (hall _).2 ⟨m, hm, rfl⟩
  clear hall
  unfold byKey
  induction keys generalizing ms with
  | nil =>
    have : ms = [] := by
      cases ms with
      | nil => rfl
      | cons m ms => exact absurd (hall' m (by simp)) (by simp)
    subst this; simp
  | cons k ks ih =>
    rw [List.flatMap_cons]
    rw [List.nodup_cons] at hn
    have h1 := ih (ms := ms.filter (fun m => !decide (key m = k))) hn.2 (by
      intro m hm
      rw [List.mem_filter] at hm
      have := hall' m hm.1
      rcases List.mem_cons.1 this with h | h
      · simp [h] at hm
      · exact h)
    have h2 : ks.flatMap (fun k' => ms.filter (fun m => decide (key m = k'))) =
        ks.flatMap (fun k' => (ms.filter (fun m => !decide (key m = k))).filter
          (fun m => decide (key m = k'))) := by
      rw [List.flatMap_def, List.flatMap_def]
      congr 1
      apply List.map_congr_left
      intro k' hk'
      rw [List.filter_filter]
      apply List.filter_congr
      intro m _
      by_cases hm : key m = k'
      · have : k' ≠ k := fun h => hn.1 (h ▸ hk')
        simp [hm, this]
      · simp [hm]
    rw [h2]
    refine (List.Perm.append_left _ h1).trans ?_
    exact List.filter_append_perm _ _

/-- What a created iterator looks like. -/
theorem create_ok {inKeys outKeys : List Key} {inputs : List (In V)} {inSlots : List Scalar}
    {outputs : List OutSlot} {outSlots : List Scalar} {options : Options} {it : Iter V}
    (hki : KeysOk (fun m => m.1.key) (inputs.zip inSlots) inKeys)
    (h : create inKeys outKeys inputs inSlots outputs outSlots options = .ok it) :
    inputs.length = inSlots.length ∧ outputs.length = outSlots.length ∧
    (∀ m ∈ inputs.zip inSlots, m.1.accepts m.2 = true ∧ m.1.arr.size = it.rowCount) ∧
    (∀ o ∈ outputs.zip outSlots, o.2.ty = o.1.ty) ∧
    (options.rowCount = none → inputs ≠ []) ∧ (∀ k, options.rowCount = some k → k = it.rowCount) ∧
    it = create.mk inKeys outKeys inputs inSlots outputs outSlots options it.rowCount := by
  unfold create at h
  split at h
  · cases h
  · rename_i hl
    simp only [ne_eq, Decidable.not_not] at hl
    split at h
    · cases h
    · rename_i counts hc
      split at h
      · cases h
      · rename_i hol
        simp only [ne_eq, Decidable.not_not] at hol
        split at h
        · cases h
        · rename_i ho
          obtain ⟨c1, _⟩ := addInputs_ok _ _ _ hc
          have ho' := (addOutputs_iff _).1 ho
          have hmem : ∀ m ∈ inputs.zip inSlots,
              m.1.arr.size ∈ inKeys.filterMap (fun k => counts.lookup k) := by
            intro m hm
            rw [List.mem_filterMap]
            exact ⟨m.1.key, (hki.2 _).2 ⟨m, hm, rfl⟩, (c1 m hm).2⟩
          have fin : ∀ r n, commonCount (inKeys.filterMap (fun k => counts.lookup k)) none = .ok r →
              (r = none ∨ r = some n) →
              ∀ m ∈ inputs.zip inSlots, m.1.accepts m.2 = true ∧ m.1.arr.size = n := by
            intro r n hr hrn m hm
            refine ⟨(c1 m hm).1, ?_⟩
            rcases hrn with rfl | rfl
            · have := (commonCount_ok hr).1.1 rfl
              have hmm := hmem m hm
              rw [this] at hmm
              simp at hmm
            · exact (commonCount_ok hr).2 n rfl _ (hmem m hm)
          have hne : ∀ r n, commonCount (inKeys.filterMap (fun k => counts.lookup k)) none = .ok r →
              r = some n → inputs ≠ [] := by
            intro r n hr hrn he
            subst he
            have : inKeys = [] := by
              cases inKeys with
              | nil => rfl
              | cons k ks =>
                obtain ⟨m, hm, _⟩ := (hki.2 k).1 (by simp)
                simp at hm
            subst this
            rw [List.filterMap_nil, commonCount] at hr
            cases hr
            cases hrn
          split at h
          · cases h
          · rename_i hr
            split at h
            · cases h
            · rename_i n hopt
              cases h
              refine ⟨hl, hol, fin _ n hr (Or.inl rfl), ho', ?_, ?_, rfl⟩
              · intro h0; rw [hopt] at h0; cases h0
              · intro k hk; rw [hopt] at hk; cases hk; rfl
          · rename_i n hr
            split at h
            · rename_i hopt
              cases h
              refine ⟨hl, hol, fin _ n hr (Or.inr rfl), ho', fun _ => hne _ n hr rfl, ?_, rfl⟩
              intro k hk; rw [hopt] at hk; cases hk
            · rename_i k hopt
              split at h
              · cases h
              · rename_i hkn
                simp only [ne_eq, Decidable.not_not] at hkn
                cases h
                refine ⟨hl, hol, fin _ n hr (Or.inr rfl), ho', ?_, ?_, rfl⟩
                · intro h0; rw [hopt] at h0; cases h0
                · intro k' hk'; rw [hopt] at hk'; cases hk'; exact hkn

theorem create_complete {inKeys outKeys : List Key} {inputs : List (In V)} {inSlots : List Scalar}
    {outputs : List OutSlot} {outSlots : List Scalar} {options : Options} {n : Nat}
    (hki : KeysOk (fun m => m.1.key) (inputs.zip inSlots) inKeys)
    (h1 : inputs.length = inSlots.length) (h2 : outputs.length = outSlots.length)
    (h3 : ∀ m ∈ inputs.zip inSlots, m.1.accepts m.2 = true ∧ m.1.arr.size = n)
    (h4 : ∀ o ∈ outputs.zip outSlots, o.2.ty = o.1.ty)
    (h5 : options.rowCount = none → inputs ≠ []) (h6 : ∀ k, options.rowCount = some k → k = n) :
    ∃ it, create inKeys outKeys inputs inSlots outputs outSlots options = .ok it := by
  unfold create
  rw [if_neg (by simp [h1])]
  obtain ⟨counts, hc⟩ := addInputs_complete (n := n) (inputs.zip inSlots) [] h3 (by simp)
  obtain ⟨c1, _⟩ := addInputs_ok _ _ _ hc
  rw [hc]
  dsimp only
  rw [if_neg (by simp [h2]), (addOutputs_iff _).2 h4]
  dsimp only
  have hall : ∀ x ∈ inKeys.filterMap (fun k => counts.lookup k), x = n := by
    intro x hx
    obtain ⟨k, hk, hx⟩ := List.mem_filterMap.1 hx
    obtain ⟨m, hm, rfl⟩ := (hki.2 k).1 hk
    rw [(c1 m hm).2] at hx
    cases hx
    exact (h3 m hm).2
  obtain ⟨r, hr⟩ := commonCount_complete (k := n) _ none hall (by simp)
  rw [hr]
  cases r with
  | none =>
    dsimp only
    cases ho : options.rowCount with
    | some k => exact ⟨_, rfl⟩
    | none =>
      exfalso
      have hne := h5 ho
      have hnil := (commonCount_ok hr).1.1 rfl
      cases inputs with
      | nil => exact hne rfl
      | cons a as =>
        cases inSlots with
        | nil => simp at h1
        | cons s ss =>
          have : a.arr.size ∈ inKeys.filterMap (fun k => counts.lookup k) := by
            rw [List.mem_filterMap]
            exact ⟨a.key, (hki.2 _).2 ⟨(a, s), by simp, rfl⟩, (c1 (a, s) (by simp)).2⟩
          rw [hnil] at this
          simp at this
  | some k =>
    dsimp only
    cases ho : options.rowCount with
    | none => exact ⟨_, rfl⟩
    | some j =>
      dsimp only
      have hj := h6 j ho
      have hk : k = n := by
        cases hns : inKeys.filterMap (fun k => counts.lookup k) with
        | nil =>
          have := (commonCount_ok hr).1.2 hns
          cases this
        | cons x xs =>
          have e1 := (commonCount_ok hr).2 k rfl x (by rw [hns]; simp)
          have e2 := hall x (by rw [hns]; simp)
          omega
      rw [if_neg (by rw [hj, hk]; simp)]
      exact ⟨_, rfl⟩

/-! ## The loop -/

theorem block_inv {junk : V} {mem : Mem V} {it : Iter V} {fn : Frame V → Frame V} {K : Nat → Prop}
    {base : Frame V} {st : LoopSt V} {count : Nat}
    (hn : (it.ins.map (fun m => m.2.id)).Nodup)
    (hK : ∀ m ∈ it.ins, ¬ K m.2.id)
    (hin : ∀ m ∈ it.ins, m.1.Valid ∧ m.1.accepts m.2 = true ∧ m.1.arr.size = it.rowCount)
    (hmem : ∀ k, k < it.outs.length → (mem.vals k).length = it.rowCount ∧
      (mem.bits k).length = bitmapSize it.rowCount)
    (hfn : ∀ f t, K t → fn f t = f t)
    (hc : count ≤ st.frames.length) (hr : st.cur + count ≤ it.rowCount)
    (hcalls : st.calls.length = st.cur)
    (hrows : ∀ (i : Nat) f, st.calls[i]? = some f → IsRow it.ins K base i f)
    (hbase : ∀ f ∈ st.frames, ∀ t, K t → f t = base t)
    (houts : OutsInv mem.vals mem.bits it.outs (st.calls.map fn) st.outs) :
    ∃ st', block junk it fn count st = some st' ∧ st'.cur = st.cur + count ∧
      st'.frames.length = st.frames.length ∧ st'.calls.length = st'.cur ∧
      (∀ (i : Nat) f, st'.calls[i]? = some f → IsRow it.ins K base i f) ∧
      (∀ f ∈ st'.frames, ∀ t, K t → f t = base t) ∧
      OutsInv mem.vals mem.bits it.outs (st'.calls.map fn) st'.outs := by
  obtain ⟨loaded, e1, e2, e3⟩ := preload_spec (junk := junk) (cur := st.cur) it.ins
    (st.frames.take count) hn (fun m hm => by
      obtain ⟨q1, q2, q3⟩ := hin m hm
      refine ⟨q1, q2, ?_⟩
      rw [List.length_take]; omega)
  have hll : loaded.length = count := by rw [e2, List.length_take]; omega
  have hlrow : ∀ (i : Nat) f, loaded[i]? = some f → IsRow it.ins K base (st.cur + i) f := by
    intro i f hf
    have hi : i < loaded.length := (List.getElem?_eq_some_iff.1 hf).1
    have hi' : i < (st.frames.take count).length := by omega
    obtain ⟨f', k1, k2, k3⟩ := e3 i (st.frames.take count)[i] (List.getElem?_eq_getElem hi')
    rw [hf] at k1; cases k1
    refine ⟨k3, fun t ht => ?_⟩
    rw [k2 t (fun m hm he => hK m hm (by rw [he]; exact ht))]
    exact hbase _ (List.mem_of_mem_take (List.getElem_mem hi')) t ht
  obtain ⟨outs', g1, g2⟩ := saveOutputs_inv (D := st.calls.map fn) (fs := loaded.map fn) it.outs st.outs
    mem.vals mem.bits (fun k hk => by
      obtain ⟨q1, q2⟩ := hmem k hk
      rw [q1, q2, List.length_map, List.length_map, bitmapSize_eq]; omega) houts
  rw [List.length_map, hcalls] at g1
  refine ⟨⟨st.cur + count, loaded.map fn ++ st.frames.drop count, outs', st.calls ++ loaded⟩, ?_, rfl,
    ?_, ?_, ?_, ?_, ?_⟩
  · unfold block
    rw [e1, Option.bind_some]
    dsimp only
    rw [g1]; rfl
  · simp only [List.length_append, List.length_map, List.length_drop]; omega
  · simp only [List.length_append]; omega
  · intro i f hf
    by_cases hi : i < st.calls.length
    · rw [List.getElem?_append_left hi] at hf
      exact hrows i f hf
    · rw [List.getElem?_append_right (by omega)] at hf
      have := hlrow _ f hf
      rwa [hcalls, show st.cur + (i - st.cur) = i by omega] at this
  · intro f hf t ht
    rcases List.mem_append.1 hf with hf | hf
    · obtain ⟨f0, hf0, rfl⟩ := List.mem_map.1 hf
      obtain ⟨i, hi⟩ := List.getElem?_of_mem hf0
      rw [hfn f0 t ht]
      exact (hlrow i f0 hi).2 t ht
    · exact hbase f (List.mem_of_mem_drop hf) t ht
  · dsimp only
    rw [List.map_append]; exact g2

theorem forEachFrame_inv {junk : V} {mem : Mem V} {it : Iter V} {fn : Frame V → Frame V}
    {K : Nat → Prop} {base : Frame V}
    (hn : (it.ins.map (fun m => m.2.id)).Nodup)
    (hK : ∀ m ∈ it.ins, ¬ K m.2.id)
    (hin : ∀ m ∈ it.ins, m.1.Valid ∧ m.1.accepts m.2 = true ∧ m.1.arr.size = it.rowCount)
    (hmem : ∀ k, k < it.outs.length → (mem.vals k).length = it.rowCount ∧
      (mem.bits k).length = bitmapSize it.rowCount)
    (hfn : ∀ f t, K t → fn f t = f t) (hpos : 0 < it.rowCount → 0 < it.frames) :
    ∀ (fuel offset : Nat) (st : LoopSt V), it.rowCount < min offset it.rowCount + fuel →
    st.cur = min offset it.rowCount → st.frames.length = it.frames → st.calls.length = st.cur →
    (∀ (i : Nat) f, st.calls[i]? = some f → IsRow it.ins K base i f) →
    (∀ f ∈ st.frames, ∀ t, K t → f t = base t) →
    OutsInv mem.vals mem.bits it.outs (st.calls.map fn) st.outs →
    ∃ st', forEachFrame junk it fn fuel offset st = some st' ∧ st'.calls.length = it.rowCount ∧
      (∀ (i : Nat) f, st'.calls[i]? = some f → IsRow it.ins K base i f) ∧
      OutsInv mem.vals mem.bits it.outs (st'.calls.map fn) st'.outs := by
  intro fuel
  induction fuel with
  | zero =>
    intro offset st hf hc hl hcl hr hb ho
    omega
  | succ fuel ih =>
    intro offset st hf hc hl hcl hr hb ho
    rw [forEachFrame]
    by_cases hlt : offset < it.rowCount
    · rw [if_pos hlt]
      have hfp := hpos (by omega)
      obtain ⟨st1, e1, e2, e3, e4, e5, e6, e7⟩ := block_inv (junk := junk) hn hK hin hmem hfn
        (count := min it.frames (it.rowCount - offset)) (by omega) (by omega) hcl hr hb ho
      rw [e1, Option.bind_some]
      exact ih _ st1 (by omega) (by omega) (by omega) e4 e5 e6 e7
    · rw [if_neg hlt]
      exact ⟨st, rfl, by omega, hr, ho⟩

end Verif.Frames
