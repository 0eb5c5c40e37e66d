import Verif.Frames.IterSpec
import Verif.Arr.ArrayLemmas
import Verif.Dense.BitmapProps

/-! Helper lemmas: copying a block of rows to the frames. -/

namespace Verif.Frames
open Verif.Bits Verif.Bitmap Verif.Dense Verif.Arr

variable {V : Type}

theorem set_other {f : Frame V} {s t : Nat} {c : Bool × V} (h : t ≠ s) : f.set s c t = f t := by
  simp [Frame.set, h]

theorem set_same {f : Frame V} {s : Nat} {c : Bool × V} : f.set s c s = c := by simp [Frame.set]

theorem setAt_eq {fs : List (Frame V)} {i : Int} {s : Nat} {c : Bool × V} (h0 : 0 ≤ i)
    (h1 : i < fs.length) :
    ∃ f, fs[i.toNat]? = some f ∧ setAt fs i s c = some (fs.set i.toNat (f.set s c)) := by
  have hi : i.toNat < fs.length := by omega
  refine ⟨fs[i.toNat], by simp [hi], ?_⟩
  unfold setAt
  simp [h0, hi]

theorem setAll_spec (s : Nat) : ∀ (ws : List (Int × (Bool × V))) (fs : List (Frame V)),
    (∀ w ∈ ws, 0 ≤ w.1 ∧ w.1 < fs.length) →
    ∃ fs', setAll s ws fs = some fs' ∧ fs'.length = fs.length ∧
      ∀ (i : Nat) f, fs[i]? = some f → ∃ f', fs'[i]? = some f' ∧ (∀ t, t ≠ s → f' t = f t) ∧
        ((∃ w ∈ ws, w.1 = (i : Int) ∧ f' s = w.2) ∨ ((∀ w ∈ ws, w.1 ≠ (i : Int)) ∧ f' s = f s)) := by
  intro ws
  induction ws with
  | nil =>
    intro fs _
    exact ⟨fs, rfl, rfl, fun i f hf => ⟨f, hf, fun _ _ => rfl, Or.inr ⟨by simp, rfl⟩⟩⟩
  | cons w ws ih =>
    intro fs h
    obtain ⟨h0, h1⟩ := h w (by simp)
    obtain ⟨f0, g1, g2⟩ := setAt_eq (s := s) (c := w.2) h0 h1
    obtain ⟨fs', e1, e2, e3⟩ := ih (fs.set w.1.toNat (f0.set s w.2)) (fun w' hw' => by
      rw [List.length_set]; exact h w' (by simp [hw']))
    refine ⟨fs', by rw [setAll, g2]; exact e1, by rw [e2, List.length_set], ?_⟩
    intro i f hf
    by_cases hi : i = w.1.toNat
    · subst hi
      rw [g1] at hf; cases hf
      obtain ⟨f', k1, k2, k3⟩ := e3 w.1.toNat (f0.set s w.2) (by
        rw [List.getElem?_set_self]; omega)
      refine ⟨f', k1, fun t ht => by rw [k2 t ht, set_other ht], Or.inl ?_⟩
      rcases k3 with ⟨w', m1, m2, m3⟩ | ⟨_, m2⟩
      · exact ⟨w', by simp [m1], m2, m3⟩
      · exact ⟨w, by simp, by omega, by rw [m2, set_same]⟩
    · obtain ⟨f', k1, k2, k3⟩ := e3 i f (by
        rw [List.getElem?_set_ne (by omega)]; exact hf)
      refine ⟨f', k1, k2, ?_⟩
      rcases k3 with ⟨w', m1, m2, m3⟩ | ⟨m1, m2⟩
      · exact Or.inl ⟨w', by simp [m1], m2, m3⟩
      · refine Or.inr ⟨?_, m2⟩
        intro w' hw'
        rcases List.mem_cons.1 hw' with rfl | hw'
        · omega
        · exact m1 w' hw'

/-- The effect of copying a block: slot `s` of frame `i` shows `val (cur + i)`, nothing else
changes. -/
def Copied (fs fs' : List (Frame V)) (s : Nat) (opt : Bool) (cur : Nat) (val : Nat → Option V) :
    Prop :=
  fs'.length = fs.length ∧ ∀ (i : Nat) f, fs[i]? = some f → ∃ f', fs'[i]? = some f' ∧
    (∀ t, t ≠ s → f' t = f t) ∧ look opt (f' s) = val (cur + i)

theorem setAll_range {s cur : Nat} {opt : Bool} {val : Nat → Option V} {fs : List (Frame V)}
    {g : Nat → Bool × V} (h : ∀ i, i < fs.length → look opt (g i) = val (cur + i)) :
    ∃ fs', setAll s ((List.range fs.length).map (fun (i : Nat) => ((i : Int), g i))) fs = some fs' ∧
      Copied fs fs' s opt cur val := by
  obtain ⟨fs', e1, e2, e3⟩ := setAll_spec s
    ((List.range fs.length).map (fun (i : Nat) => ((i : Int), g i))) fs (by
      intro w hw
      obtain ⟨i, hi, rfl⟩ := List.mem_map.1 hw
      have := List.mem_range.1 hi
      dsimp only; omega)
  refine ⟨fs', e1, e2, ?_⟩
  intro i f hf
  obtain ⟨f', k1, k2, k3⟩ := e3 i f hf
  have hi : i < fs.length := (List.getElem?_eq_some_iff.1 hf).1
  refine ⟨f', k1, k2, ?_⟩
  rcases k3 with ⟨w, m1, m2, m3⟩ | ⟨m1, _⟩
  · obtain ⟨j, _, rfl⟩ := List.mem_map.1 m1
    dsimp only at m2 m3
    have : j = i := by omega
    subst this
    rw [m3]; exact h j hi
  · exact absurd rfl (m1 ((i : Int), g i) (List.mem_map.2 ⟨i, List.mem_range.2 hi, rfl⟩))

theorem copyFull_spec {values : List V} {start s cur : Nat} {opt : Bool} {val : Nat → Option V}
    {fs : List (Frame V)} (hlen : start + fs.length ≤ values.length)
    (h : ∀ i, i < fs.length → values[start + i]? = val (cur + i)) :
    ∃ fs', copyFull values start s fs = some fs' ∧ Copied fs fs' s opt cur val := by
  by_cases hn : fs.length = 0
  · refine ⟨fs, ?_, rfl, ?_⟩
    · unfold copyFull; rw [hn]; rfl
    · intro i f hf
      have := (List.getElem?_eq_some_iff.1 hf).1
      omega
  · have d : V := values[start]'(by omega)
    unfold copyFull
    rw [mapM_some (g := fun (i : Nat) => ((i : Int), (true, values.getD (start + i) d)))]
    · refine setAll_range (g := fun i => (true, values.getD (start + i) d)) (opt := opt) ?_
      intro i hi
      rw [← h i hi]
      have : start + i < values.length := by omega
      simp [look, this]
    · intro i hi
      have := List.mem_range.1 hi
      have : start + i < values.length := by omega
      simp [this]

theorem copyBits_spec {bm : List Word} {values : List V} {first start s cur : Nat}
    {val : Nat → Option V} {fs : List (Frame V)} (hlen : start + fs.length ≤ values.length)
    (hb : first + fs.length ≤ 32 * bm.length)
    (h : ∀ i, i < fs.length →
      (if bitAt bm (first + i) = true then values[start + i]? else none) = val (cur + i)) :
    ∃ fs', copyBits bm values first start s fs = some fs' ∧ Copied fs fs' s true cur val := by
  by_cases hn : fs.length = 0
  · refine ⟨fs, ?_, rfl, ?_⟩
    · unfold copyBits; rw [iterate_by_groups _ _ _ hb, hn]; rfl
    · intro i f hf
      have := (List.getElem?_eq_some_iff.1 hf).1
      omega
  · have d : V := values[start]'(by omega)
    unfold copyBits
    rw [iterate_by_groups _ _ _ hb, Option.bind_some,
      mapM_some (g := fun (p : Nat × Bool) => ((p.1 : Int), (p.2, values.getD (start + p.1) d)))]
    · rw [List.map_map, Option.bind_some]
      refine setAll_range (g := fun i => (bitAt bm (first + i), values.getD (start + i) d)) ?_
      intro i hi
      rw [← h i hi]
      have : start + i < values.length := by omega
      simp [look, this]
    · intro p hp
      obtain ⟨i, hi, rfl⟩ := List.mem_map.1 hp
      have := List.mem_range.1 hi
      have : start + i < values.length := by omega
      simp [this]

theorem valid_bits {a : DArr V} (hv : a.Valid) (hb : a.bitmap ≠ []) :
    a.size + a.off ≤ 32 * a.bitmap.length := by
  rcases hv.2 with h | h
  · exact absurd h hb
  · rw [h, bitmapSize_eq]; omega

theorem copyDense_spec {a : DArr V} (hv : a.Valid) {slot : Scalar} {cur : Nat}
    {fs : List (Frame V)} (h : cur + fs.length ≤ a.size) :
    ∃ fs', copyDense a slot cur fs = some fs' ∧
      Copied fs fs' slot.id slot.opt cur (fun i => if slot.opt then Dense.elem a i else a.values[i]?) := by
  unfold copyDense
  have hlen : cur + fs.length ≤ a.values.length := h
  by_cases ho : slot.opt = false
  · rw [if_pos ho]
    exact copyFull_spec hlen (fun i hi => by simp [ho])
  · rw [if_neg ho]
    have ho' : slot.opt = true := by simpa using ho
    by_cases hb : a.bitmap = []
    · rw [if_pos hb]
      exact copyFull_spec hlen (fun i hi => by simp [ho', Dense.elem, hb])
    · rw [if_neg hb, ho']
      have := valid_bits hv hb
      refine copyBits_spec hlen (by omega) (fun i hi => ?_)
      simp only [Dense.elem, hb, false_or, if_true]
      rw [show cur + a.off + i = a.off + (cur + i) by omega]

theorem look_missCell (junk : V) (m : Option V) : look true (missCell junk m) = m := by
  cases m <;> simp [missCell, look]

/-- The writes of the sparse branch. -/
theorem sparseWrites_spec {a : Arr V} (hv : a.Valid) (hd : a.data.values.length = a.flt.ids.length)
    {cur fromOff count : Nat} (h : fromOff + count ≤ a.flt.ids.length) :
    ∃ ws, sparseWrites a cur fromOff count = some ws ∧ ws.length = count ∧
      ∀ i, i < count → ∃ w x, ws[i]? = some w ∧ a.flt.zids[fromOff + i]? = some x ∧
        w.1 = x - cur ∧ look true w.2 = Dense.elem a.data (fromOff + i) := by
  by_cases hn : count = 0
  · subst hn
    refine ⟨[], ?_, rfl, by omega⟩
    unfold sparseWrites
    by_cases hb : a.data.bitmap = []
    · rw [if_pos hb]; rfl
    · rw [if_neg hb]
      have := valid_bits hv.1 hb
      have hs : a.data.size = a.data.values.length := rfl
      rw [iterate_by_groups _ _ _ (by omega)]; rfl
  have d : V := a.data.values[fromOff]'(by omega)
  have hz : ∀ i, i < count → ∃ x, a.flt.ids[fromOff + i]? = some x ∧
      a.flt.zids[fromOff + i]? = some (x - a.flt.off) := by
    intro i hi
    have hi' : fromOff + i < a.flt.ids.length := by omega
    exact ⟨a.flt.ids[fromOff + i], by simp [hi'], by simp [Filter.zids, hi']⟩
  unfold sparseWrites
  by_cases hb : a.data.bitmap = []
  · rw [if_pos hb, mapM_some (g := fun (i : Nat) => (a.flt.ids.getD (fromOff + i) 0 - a.flt.off - (cur : Int),
      (true, a.data.values.getD (fromOff + i) d)))]
    · refine ⟨_, rfl, by simp, ?_⟩
      intro i hi
      obtain ⟨x, h1, h2⟩ := hz i hi
      refine ⟨(a.flt.ids.getD (fromOff + i) 0 - a.flt.off - (cur : Int),
        (true, a.data.values.getD (fromOff + i) d)), x - a.flt.off, by simp [hi], h2, ?_, ?_⟩
      · simp [h1]
      · have : fromOff + i < a.data.values.length := by omega
        simp [look, Dense.elem, hb, this]
    · intro i hi
      obtain ⟨x, h1, h2⟩ := hz i (List.mem_range.1 hi)
      have : fromOff + i < a.data.values.length := by have := List.mem_range.1 hi; omega
      simp [h1, this]
  · rw [if_neg hb]
    have hbits := valid_bits hv.1 hb
    have hs : a.data.size = a.data.values.length := rfl
    rw [iterate_by_groups _ _ _ (by omega), Option.bind_some,
      mapM_some (g := fun (p : Nat × Bool) => (a.flt.ids.getD (fromOff + p.1) 0 - a.flt.off - (cur : Int),
      (p.2, a.data.values.getD (fromOff + p.1) d)))]
    · refine ⟨_, rfl, by simp, ?_⟩
      intro i hi
      obtain ⟨x, h1, h2⟩ := hz i hi
      refine ⟨(a.flt.ids.getD (fromOff + i) 0 - a.flt.off - (cur : Int),
        (bitAt a.data.bitmap (fromOff + a.data.off + i), a.data.values.getD (fromOff + i) d)),
        x - a.flt.off, by simp [hi], h2, ?_, ?_⟩
      · simp [h1]
      · have : fromOff + i < a.data.values.length := by omega
        rw [show fromOff + a.data.off + i = a.data.off + (fromOff + i) by omega]
        simp [look, Dense.elem, hb, this]
    · intro p hp
      obtain ⟨i, hi, rfl⟩ := List.mem_map.1 hp
      obtain ⟨x, h1, h2⟩ := hz i (List.mem_range.1 hi)
      have : fromOff + i < a.data.values.length := by have := List.mem_range.1 hi; omega
      simp [h1, this]

theorem ids_get {f : Filter} {o : Nat} {x : Int} (h : f.zids[o]? = some x) :
    f.ids[o]? = some (x + f.off) := by
  unfold Filter.zids at h
  rw [List.getElem?_map] at h
  cases hi : f.ids[o]? with
  | none => simp [hi] at h
  | some y => simp [hi] at h; subst h; simp

theorem ids_inc {f : Filter} (h : Inc f.zids) : Inc f.ids := by
  unfold Inc Filter.zids at h
  rw [List.pairwise_map] at h
  exact h.imp (fun h => by omega)

theorem copySparse_spec {junk : V} {a : Arr V} (hv : a.Valid) {s cur : Nat} {fs : List (Frame V)}
    (h : cur + fs.length ≤ a.size) :
    ∃ fs', copySparse junk a s cur fs = some fs' ∧ Copied fs fs' s true cur a.elem := by
  unfold copySparse
  by_cases ht : a.flt.typ = .full
  · have hf := valid_full hv ht
    have hlen : cur + fs.length ≤ a.data.values.length := by omega
    by_cases hb : a.data.bitmap = []
    · rw [if_pos ⟨ht, hb⟩]
      exact copyFull_spec hlen (fun i hi => by simp [Arr.elem, ht, Dense.elem, hb])
    · rw [if_neg (fun h => hb h.2), if_pos ht]
      have := valid_bits hv.1 hb
      have hs : a.data.size = a.data.values.length := rfl
      refine copyBits_spec hlen (by omega) (fun i hi => ?_)
      simp only [Arr.elem, ht, Dense.elem, hb, false_or]
      rw [show cur + a.data.off + i = a.data.off + (cur + i) by omega]
  · rw [if_neg (fun h => ht h.1), if_neg ht]
    have hd : a.data.values.length = a.flt.ids.length := by
      cases hte : a.flt.typ with
      | full => exact absurd hte ht
      | partial' => exact valid_partial hv hte
      | empty =>
        have h1 := valid_empty hv hte
        have h2 := hv.2.1
        unfold Filter.Valid at h2
        rw [hte] at h2
        rw [h1, h2.1]; rfl
    have hinc : Inc a.flt.zids := by
      cases hte : a.flt.typ with
      | full => exact absurd hte ht
      | partial' => exact hv.2.1.inc hte
      | empty =>
        have h2 := hv.2.1
        unfold Filter.Valid at h2
        rw [hte] at h2
        simp [Filter.zids, h2.1]
    have hel : ∀ i : Nat, (∀ o : Nat, a.flt.zids[o]? = some (i : Int) → a.elem i = Dense.elem a.data o) ∧
        ((i : Int) ∉ a.flt.zids → a.elem i = a.miss) := by
      intro i
      cases hte : a.flt.typ with
      | full => exact absurd hte ht
      | partial' =>
        refine ⟨fun o ho => ?_, fun hno => ?_⟩
        · have := (idxOf?_inc hinc).2 ho
          simp [Arr.elem, hte, this]
        · have := idxOf?_none.2 hno
          simp [Arr.elem, hte, this]
      | empty =>
        have h2 := hv.2.1
        unfold Filter.Valid at h2
        rw [hte] at h2
        refine ⟨fun o ho => ?_, fun _ => by simp [Arr.elem, hte]⟩
        simp [Filter.zids, h2.1] at ho
    dsimp only
    generalize hfs1 : fs.map (fun f => f.set s (missCell junk a.miss)) = fs1
    have hl1 : fs1.length = fs.length := by rw [← hfs1]; simp
    generalize hA : lb a.flt.ids ((cur : Int) + a.flt.off) = A
    generalize hB : lb a.flt.ids ((cur : Int) + (fs1.length : Int) + a.flt.off) = B
    have hBl : B ≤ a.flt.ids.length := by rw [← hB]; exact lb_le _ _
    have hAl : A ≤ a.flt.ids.length := by rw [← hA]; exact lb_le _ _
    have hcA : ∀ (o : Nat) x, a.flt.zids[o]? = some x → (x < cur ↔ o < A) := by
      intro o x ho
      rw [← hA, ← lb_spec (ids_inc hinc) (ids_get ho)]; omega
    have hcB : ∀ (o : Nat) x, a.flt.zids[o]? = some x → (x < (cur : Int) + fs1.length ↔ o < B) := by
      intro o x ho
      rw [← hB, ← lb_spec (ids_inc hinc) (ids_get ho)]; omega
    obtain ⟨ws, e1, e2, e3⟩ := sparseWrites_spec hv hd (cur := cur) (fromOff := A) (count := B - A)
      (by omega)
    rw [e1, Option.bind_some]
    have hws : ∀ w ∈ ws, ∃ (o : Nat) (x : Int), A ≤ o ∧ o < B ∧ a.flt.zids[o]? = some x ∧ w.1 = x - cur ∧
        look true w.2 = Dense.elem a.data o := by
      intro w hw
      obtain ⟨i, hi, rfl⟩ := List.mem_iff_getElem.1 hw
      obtain ⟨w', x, k1, k2, k3, k4⟩ := e3 i (by omega)
      have : ws[i] = w' := by simpa [hi] using k1
      exact ⟨A + i, x, by omega, by omega, k2, by rw [this]; exact k3, by rw [this]; exact k4⟩
    obtain ⟨fs', g1, g2, g3⟩ := setAll_spec s ws fs1 (by
      intro w hw
      obtain ⟨o, x, q1, q2, q3, q4, _⟩ := hws w hw
      have r1 := hcA o x q3
      have r2 := hcB o x q3
      omega)
    refine ⟨fs', g1, by rw [g2, hl1], ?_⟩
    intro i f hf
    have hi : i < fs.length := (List.getElem?_eq_some_iff.1 hf).1
    obtain ⟨f', k1, k2, k3⟩ := g3 i (f.set s (missCell junk a.miss)) (by rw [← hfs1]; simp [hf])
    refine ⟨f', k1, fun t ht => by rw [k2 t ht, set_other ht], ?_⟩
    rcases k3 with ⟨w, m1, m2, m3⟩ | ⟨m1, m2⟩
    · obtain ⟨o, x, q1, q2, q3, q4, q5⟩ := hws w m1
      have hx : x = ((cur + i : Nat) : Int) := by omega
      subst hx
      rw [m3, q5, (hel (cur + i)).1 o q3]
    · rw [m2, set_same, look_missCell, (hel (cur + i)).2]
      intro hmem
      obtain ⟨o, ho⟩ := List.getElem?_of_mem hmem
      have r1 := hcA o _ ho
      have r2 := hcB o _ ho
      obtain ⟨w, x, p1, p2, p3, p4⟩ := e3 (o - A) (by omega)
      rw [show A + (o - A) = o by omega, ho] at p2
      cases p2
      exact m1 w (List.mem_of_getElem? p1) (by omega)

theorem copyIn_spec {junk : V} {a : In V} (hv : a.Valid) {slot : Scalar} (hacc : a.accepts slot = true)
    {cur : Nat} {fs : List (Frame V)} (h : cur + fs.length ≤ a.arr.size) :
    ∃ fs', copyIn junk a slot cur fs = some fs' ∧
      Copied fs fs' slot.id slot.opt cur (a.rowVal slot.opt) := by
  obtain ⟨ty, arr⟩ := a
  cases arr with
  | dense d => exact copyDense_spec hv h
  | sparse x =>
    have ho : slot.opt = true := by
      simp only [In.accepts, Bool.and_eq_true] at hacc; exact hacc.2
    rw [ho]
    exact copySparse_spec hv h

/-- `PreloadFrames` loads one row per frame. -/
theorem preload_spec {junk : V} {cur : Nat} : ∀ (ms : List (In V × Scalar)) (fs : List (Frame V)),
    (ms.map (fun m => m.2.id)).Nodup →
    (∀ m ∈ ms, m.1.Valid ∧ m.1.accepts m.2 = true ∧ cur + fs.length ≤ m.1.arr.size) →
    ∃ fs', preload junk cur ms fs = some fs' ∧ fs'.length = fs.length ∧
      ∀ (i : Nat) f, fs[i]? = some f → ∃ f', fs'[i]? = some f' ∧
        (∀ t, (∀ m ∈ ms, m.2.id ≠ t) → f' t = f t) ∧
        ∀ m ∈ ms, look m.2.opt (f' m.2.id) = m.1.rowVal m.2.opt (cur + i) := by
  intro ms
  induction ms with
  | nil =>
    intro fs _ _
    exact ⟨fs, rfl, rfl, fun i f hf => ⟨f, hf, fun _ _ => rfl, by simp⟩⟩
  | cons m ms ih =>
    intro fs hn hm
    obtain ⟨hm1, hm2, hm3⟩ := hm m (by simp)
    obtain ⟨fs1, e1, e2, e3⟩ := copyIn_spec (junk := junk) hm1 hm2 hm3
    rw [List.map_cons, List.nodup_cons] at hn
    obtain ⟨fs2, g1, g2, g3⟩ := ih fs1 hn.2 (fun m' hm' => by
      rw [e2]; exact hm m' (by simp [hm']))
    refine ⟨fs2, by rw [preload, e1]; exact g1, by rw [g2, e2], ?_⟩
    intro i f hf
    obtain ⟨f1, k1, k2, k3⟩ := e3 i f hf
    obtain ⟨f2, q1, q2, q3⟩ := g3 i f1 k1
    have hne : ∀ m' ∈ ms, m'.2.id ≠ m.2.id := fun m' hm' he =>
      hn.1 (List.mem_map.2 ⟨m', hm', he⟩)
    refine ⟨f2, q1, ?_, ?_⟩
    · intro t ht
      rw [q2 t (fun m' hm' => ht m' (by simp [hm'])), k2 t (fun he => ht m (by simp) he.symm)]
    · intro m' hm'
      rcases List.mem_cons.1 hm' with rfl | hm'
      · rw [q2 _ hne]; exact k3
      · exact q3 m' hm'

end Verif.Frames
