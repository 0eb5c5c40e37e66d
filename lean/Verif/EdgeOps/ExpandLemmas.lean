import Verif.EdgeOps.SizesLemmas

/-! `array.expand`. -/

namespace Verif.EdgeOps
open Verif.Bits Verif.Bitmap Verif.Dense Verif.Edge

variable {α : Type}

theorem copyRange_spec {old new : List α} {lo hi : Int} {i : Nat} {x : α} (hx : old[i]? = some x)
    (h1 : 0 ≤ lo) (h2 : lo ≤ hi) (h3 : hi ≤ new.length) :
    ∃ r, copyRange old new lo hi i = some r ∧ r.length = new.length ∧
      ∀ c : Nat, r[c]? = if lo ≤ c ∧ (c : Int) < hi then some x else new[c]? := by
  obtain ⟨r, e1, e2, e3⟩ := fillN_spec (x := x) (hi - lo).toNat lo.toNat new (by omega)
  refine ⟨r, ?_, e2, ?_⟩
  · unfold copyRange
    rw [hx]
    simp only [Option.bind_eq_bind, Option.bind_some]
    rw [if_pos ⟨h1, h2⟩, e1]
  · intro c
    rw [e3]
    by_cases hc : lo ≤ c ∧ (c : Int) < hi
    · rw [if_pos hc, if_pos (by omega)]
    · rw [if_neg hc, if_neg (by omega)]

theorem expandFull_spec {a : DArr α} {sp : List Int} (hsp : SP sp) {m : Int}
    (hm : sp.getLast? = some m) (hl : a.values.length + 1 = sp.length) :
    ∀ (n i : Nat) (vals : List α), i + n = a.values.length → (vals.length : Int) = m →
    (∀ c p, p < i → SRel sp c p → vals[c]? = a.values[p]?) →
    ∃ r, expandFull a sp n i vals = some r ∧ r.length = vals.length ∧
      ∀ c p, SRel sp c p → r[c]? = a.values[p]? := by
  intro n
  induction n with
  | zero =>
    intro i vals hi hv h
    refine ⟨vals, rfl, rfl, ?_⟩
    intro c p hr
    refine h c p ?_ hr
    obtain ⟨x, y, h1, h2, _⟩ := hr
    have := (List.getElem?_eq_some_iff.1 h2).1
    omega
  | succ n ih =>
    intro i vals hi hv h
    obtain ⟨lo, hlo⟩ : ∃ lo, sp[i]? = some lo := ⟨_, List.getElem?_eq_getElem (by omega)⟩
    obtain ⟨hi', hhi⟩ : ∃ hi', sp[i + 1]? = some hi' := ⟨_, List.getElem?_eq_getElem (by omega)⟩
    obtain ⟨x, hx⟩ : ∃ x, a.values[i]? = some x := ⟨_, List.getElem?_eq_getElem (by omega)⟩
    rw [expandFull, hlo, hhi]
    simp only [Option.bind_eq_bind, Option.bind_some]
    obtain ⟨r, e1, e2, e3⟩ := copyRange_spec (new := vals) hx (hsp.nonneg hlo)
      (hsp.mono (Nat.le_succ i) hlo hhi)
      (by rw [hv]; exact le_last hsp hm _ (List.mem_of_getElem? hhi))
    rw [e1]
    simp only [Option.bind_some]
    obtain ⟨r', g1, g2, g3⟩ := ih (i + 1) r (by omega) (by rw [e2]; exact hv) (by
      intro c p hp hr
      rw [e3]
      by_cases hpi : p = i
      · subst hpi
        obtain ⟨x1, x2, y1, y2, y3, y4⟩ := hr
        rw [hlo] at y1; rw [hhi] at y2
        simp only [Option.some.injEq] at y1 y2
        rw [if_pos (by omega), hx]
      · rw [if_neg, h c p (by omega) hr]
        rintro ⟨z1, z2⟩
        exact hpi (srel_unique hsp hr ⟨lo, hi', hlo, hhi, z1, z2⟩))
    exact ⟨r', g1, by rw [g2, e2], g3⟩

theorem expandBits_spec {a : DArr α} (hv : a.Valid) {sp : List Int} (hsp : SP sp) {m : Nat}
    (hm : sp.getLast? = some (m : Int)) (hl : a.values.length + 1 = sp.length) :
    ∀ (n i : Nat) (vals : List α) (bits : List Word), i + n = a.values.length → vals.length = m →
    bits.length = bitmapSize m →
    (∀ c p, p < i → SRel sp c p → (if bitAt bits c then vals[c]? else none) = elem a p) →
    (∀ c p, i ≤ p → SRel sp c p → bitAt bits c = false) →
    ∃ r, expandBits a sp n i vals bits = some r ∧ r.1.length = m ∧ r.2.length = bitmapSize m ∧
      ∀ c p, SRel sp c p → (if bitAt r.2 c then r.1[c]? else none) = elem a p := by
  intro n
  have hsz := bitmapSize_eq m
  induction n with
  | zero =>
    intro i vals bits hi hvl hb h _
    refine ⟨(vals, bits), rfl, hvl, hb, ?_⟩
    intro c p hr
    refine h c p ?_ hr
    obtain ⟨x, y, h1, h2, _⟩ := hr
    have := (List.getElem?_eq_some_iff.1 h2).1
    omega
  | succ n ih =>
    intro i vals bits hi hvl hb h h'
    obtain ⟨lo, hlo⟩ : ∃ lo, sp[i]? = some lo := ⟨_, List.getElem?_eq_getElem (by omega)⟩
    obtain ⟨hi', hhi⟩ : ∃ hi', sp[i + 1]? = some hi' := ⟨_, List.getElem?_eq_getElem (by omega)⟩
    obtain ⟨x, hx⟩ : ∃ x, a.values[i]? = some x := ⟨_, List.getElem?_eq_getElem (by omega)⟩
    have h0 := hsp.nonneg hlo
    have h1 := hsp.mono (Nat.le_succ i) hlo hhi
    have h2 := le_last hsp hm _ (List.mem_of_getElem? hhi)
    have hin : ∀ c p, SRel sp c p → p = i → lo ≤ c ∧ (c : Int) < hi' := by
      rintro c p ⟨x1, x2, y1, y2, y3, y4⟩ rfl
      rw [hlo] at y1; rw [hhi] at y2
      simp only [Option.some.injEq] at y1 y2
      omega
    have hout : ∀ c p, SRel sp c p → p ≠ i → ¬ (lo ≤ c ∧ (c : Int) < hi') := by
      rintro c p hr hpi ⟨z1, z2⟩
      exact hpi (srel_unique hsp hr ⟨lo, hi', hlo, hhi, z1, z2⟩)
    rw [expandBits, present_eq hv (by omega)]
    simp only [Option.bind_eq_bind, Option.bind_some]
    cases hp : pres a i with
    | false =>
      simp only [Bool.false_eq_true, if_false]
      apply ih (i + 1) vals bits (by omega) hvl hb
      · intro c p hpl hr
        by_cases hpi : p = i
        · rw [h' c p (by omega) hr, hpi, elem_eq, hp]
          rfl
        · exact h c p (by omega) hr
      · intro c p hpl hr
        exact h' c p (by omega) hr
    | true =>
      simp only [if_true]
      rw [hlo, hhi]
      simp only [Option.bind_some]
      obtain ⟨r, e1, e2, e3⟩ := copyRange_spec (new := vals) hx h0 h1 (by omega)
      rw [e1]
      simp only [Option.bind_some]
      obtain ⟨bs, f1, f2, f3⟩ := setBitsInRange_spec (ws := bits) (start := lo.toNat)
        (stop := hi'.toNat) (by omega) (by omega)
      rw [f1]
      simp only [Option.bind_some]
      apply ih (i + 1) r bs (by omega) (by omega) (by omega)
      · intro c p hpl hr
        rw [e3, f3]
        by_cases hpi : p = i
        · have := hin c p hr hpi
          rw [if_pos this, decide_eq_true (by omega), Bool.or_true, if_pos rfl, hpi, elem_eq, hp, hx]
          rfl
        · have := hout c p hr hpi
          rw [if_neg this, decide_eq_false (by omega), Bool.or_false]
          exact h c p (by omega) hr
      · intro c p hpl hr
        have := hout c p hr (by omega)
        rw [f3, decide_eq_false (by omega), Bool.or_false]
        exact h' c p (by omega) hr

/-! ## Mappings -/

/-- The callback copies a value. -/
def copied (a : DArr α) (x : Nat × Bool × Int) : Bool := x.2.1 && pres a x.2.2.toNat

/-- Invariant of `AlmostFullBuilder` after the ids `done` were missed. -/
def AFInv (n : Nat) (s : AlmostFull) (done : List Nat) : Prop :=
  s.bitCount = n ∧
  (s.bitmap = none ∧ done = [] ∨ ∃ bm, s.bitmap = some bm ∧ done ≠ [] ∧
    bm.length = bitmapSize n ∧ ∀ i, bitAt bm i = decide (i < n ∧ i ∉ done))

theorem afinv_add {n : Nat} {s : AlmostFull} {done : List Nat} (h : AFInv n s done) {id : Nat}
    (hid : id < n) : ∃ s', s.addMissed id = some s' ∧ AFInv n s' (done ++ [id]) := by
  obtain ⟨h1, h2⟩ := h
  obtain ⟨s', e1, e2⟩ := almostFull_addAll [id] done s h1 (by simpa using hid) h2
  have hbc : ∀ s', s.addMissed id = some s' → s'.bitCount = s.bitCount := by
    intro s' h
    unfold AlmostFull.addMissed at h
    cases hb : s.bitmap with
    | none =>
      rw [hb] at h
      simp only [Option.bind_eq_bind, Option.bind_eq_some_iff, Option.some.injEq] at h
      obtain ⟨_, _, _, _, rfl⟩ := h
      rfl
    | some bm =>
      rw [hb] at h
      simp only [Option.bind_eq_bind, Option.bind_eq_some_iff, Option.some.injEq] at h
      obtain ⟨_, _, _, _, rfl⟩ := h
      rfl
  have e1' : s.addMissed id = some s' := by
    unfold AlmostFull.addAll at e1
    cases hs : s.addMissed id with
    | none => rw [hs] at e1; simp at e1
    | some t => rw [hs] at e1; simpa [AlmostFull.addAll] using e1
  exact ⟨s', e1', by rw [hbc s' e1']; exact h1, e2⟩

theorem expandFold_spec {a : DArr α} (hv : a.Valid) {n : Nat} : ∀ (l : List (Nat × Bool × Int))
    (vals : List α) (s : AlmostFull) (done : List Nat), vals.length = n → AFInv n s done →
    (∀ x ∈ l, x.1 < n) → (l.map Prod.fst).Nodup →
    (∀ x ∈ l, x.2.1 = true → 0 ≤ x.2.2 ∧ x.2.2 < (a.values.length : Int)) →
    ∃ r, l.foldlM (expandStep a) (vals, s) = some r ∧ r.1.length = n ∧
      AFInv n r.2 (done ++ (l.filter (fun x => !copied a x)).map Prod.fst) ∧
      (∀ c, c ∉ l.map Prod.fst → r.1[c]? = vals[c]?) ∧
      ∀ x ∈ l, copied a x = true → r.1[x.1]? = a.values[x.2.2.toNat]? := by
  intro l
  induction l with
  | nil =>
    intro vals s done hl hs _ _ _
    exact ⟨(vals, s), rfl, hl, by simpa using hs, fun _ _ => rfl, by simp⟩
  | cons x l ih =>
    intro vals s done hl hs hn hd hx
    rw [List.map_cons, List.nodup_cons] at hd
    have hxn := hn x (by simp)
    rw [List.foldlM_cons]
    have hcopy : copyCond a x = some (copied a x) := by
      unfold copyCond copied
      cases hb : x.2.1 with
      | false => rfl
      | true =>
        obtain ⟨z1, z2⟩ := hx x (by simp) hb
        rw [if_pos rfl, if_neg (by omega), present_eq hv (by omega)]
        rfl
    cases hc : copied a x with
    | false =>
      obtain ⟨s', f1, f2⟩ := afinv_add hs hxn
      have : expandStep a (vals, s) x = some (vals, s') := by
        unfold expandStep
        rw [hcopy, hc]
        simp only [Option.bind_eq_bind, Option.bind_some, Bool.false_eq_true, if_false]
        rw [f1]
        rfl
      rw [this]
      simp only [Option.bind_eq_bind, Option.bind_some]
      obtain ⟨r, e1, e2, e3, e4, e5⟩ := ih vals s' (done ++ [x.1]) hl f2
        (fun y hy => hn y (by simp [hy])) hd.2 (fun y hy => hx y (by simp [hy]))
      refine ⟨r, e1, e2, ?_, ?_, ?_⟩
      · rw [List.filter_cons_of_pos (by simp [hc]), List.map_cons]
        rw [List.append_assoc] at e3
        exact e3
      · intro c hcm
        rw [List.map_cons, List.mem_cons, not_or] at hcm
        exact e4 c hcm.2
      · intro y hy hyc
        rcases List.mem_cons.1 hy with rfl | hy
        · rw [hc] at hyc; simp at hyc
        · exact e5 y hy hyc
    | true =>
      have hb : x.2.1 = true := by
        unfold copied at hc; exact (Bool.and_eq_true_iff.1 hc).1
      obtain ⟨z1, z2⟩ := hx x (by simp) hb
      obtain ⟨v, hvx⟩ : ∃ v, a.values[x.2.2.toNat]? = some v := ⟨_, List.getElem?_eq_getElem (by omega)⟩
      have : expandStep a (vals, s) x = some (vals.set x.1 v, s) := by
        unfold expandStep
        rw [hcopy, hc]
        simp only [Option.bind_eq_bind, Option.bind_some, if_true]
        rw [hvx]
        simp only [Option.bind_some]
        unfold wrV
        rw [if_pos (by omega)]
        rfl
      rw [this]
      simp only [Option.bind_eq_bind, Option.bind_some]
      obtain ⟨r, e1, e2, e3, e4, e5⟩ := ih (vals.set x.1 v) s done (by rw [List.length_set]; exact hl) hs
        (fun y hy => hn y (by simp [hy])) hd.2 (fun y hy => hx y (by simp [hy]))
      refine ⟨r, e1, e2, ?_, ?_, ?_⟩
      · rw [List.filter_cons_of_neg (by simp [hc])]
        exact e3
      · intro c hcm
        rw [List.map_cons, List.mem_cons, not_or] at hcm
        rw [e4 c hcm.2, List.getElem?_set_ne (Ne.symm hcm.1)]
      · intro y hy hyc
        rcases List.mem_cons.1 hy with rfl | hy
        · rw [e4 _ hd.1, List.getElem?_set_self (by omega), hvx]
        · exact e5 y hy hyc

/-! ## Both kinds -/

theorem nodup_map_inj {β γ : Type} {f : β → γ} : ∀ {l : List β}, (l.map f).Nodup → ∀ {x y : β},
    x ∈ l → y ∈ l → f x = f y → x = y := by
  intro l
  induction l with
  | nil => intro _ x y hx; simp at hx
  | cons z l ih =>
    intro h x y hx hy hxy
    rw [List.map_cons, List.nodup_cons] at h
    rcases List.mem_cons.1 hx with rfl | hx'
    · rcases List.mem_cons.1 hy with rfl | hy'
      · rfl
      · exact absurd (List.mem_map.2 ⟨y, hy', hxy.symm⟩) h.1
    · rcases List.mem_cons.1 hy with rfl | hy'
      · exact absurd (List.mem_map.2 ⟨x, hx', hxy⟩) h.1
      · exact ih h.2 hx' hy' hxy

theorem expand_spec (mem : Nat → α) {a : DArr α} (hv : a.Valid) {e : Edge} (hw : WF e)
    (hs : e.parentSize = a.size) :
    ∃ r, expand mem a e = some (.ok r) ∧ r.Valid ∧ (r.size : Int) = e.childSize ∧
      (∀ c p, Rel e c p → elem r c = elem a p) ∧
      ∀ c, (∀ p, ¬ Rel e c p) → elem r c = none := by
  have hcs := (wf_sizes hw).2
  have hsz' : a.size = a.values.length := rfl
  unfold expand
  rw [if_neg (by simpa using hs)]
  cases ht : e.typ with
  | splitPoints =>
    obtain ⟨w1, w2, w3, w4, w5⟩ := (wf_split_iff ht).1 hw
    obtain ⟨m, hm⟩ : ∃ m : Nat, e.childSize = m := ⟨e.childSize.toNat, by omega⟩
    rw [hm] at w5
    dsimp only
    rw [w5]
    simp only [Option.bind_eq_bind, Option.bind_some]
    rw [if_neg (by omega), Int.toNat_natCast]
    have hlen : a.values.length + 1 = e.values.values.length := by omega
    have hnone : ∀ c, (∀ p, ¬ Rel e c p) → m ≤ c := by
      intro c hc
      by_contra hlt
      obtain ⟨p, hp⟩ := srel_exists w3 w5 (c := c) (by omega)
      exact hc p ((rel_split_iff ht w2 c p).2 hp)
    by_cases hb : a.bitmap = []
    · rw [if_pos hb]
      obtain ⟨r, e1, e2, e3⟩ := expandFull_spec w3 w5 hlen a.size 0 ((List.range m).map mem)
        (by rw [hsz']; omega) (by simp) (by intro c p hp; omega)
      rw [e1]
      refine ⟨⟨r, [], 0⟩, rfl, ⟨by show 0 < 32; decide, Or.inl rfl⟩, ?_, ?_, ?_⟩
      · show (r.length : Int) = _
        rw [e2, hm]; simp
      · intro c p hr
        rw [rel_split_iff ht w2] at hr
        rw [elem_eq, elem_eq]
        simp only [pres, hb, decide_true, Bool.true_or, if_true]
        exact e3 c p hr
      · intro c hc
        have := hnone c hc
        rw [elem_eq]
        dsimp only
        rw [List.getElem?_eq_none (by rw [e2]; simpa using this)]
        split <;> rfl
    · rw [if_neg hb]
      have hz : ∀ i, bitAt (List.replicate (bitmapSize m) 0) i = false := by
        intro i
        unfold bitAt wd
        rw [List.getElem?_replicate]
        split <;> simp
      obtain ⟨r, e1, e2, e3, e4⟩ := expandBits_spec hv w3 w5 hlen a.size 0 ((List.range m).map mem)
        (List.replicate (bitmapSize m) 0) (by rw [hsz']; omega) (by simp) (by simp)
        (by intro c p hp; omega) (by intro c p _ _; exact hz c)
      rw [e1]
      have hval : (⟨r.1, r.2, 0⟩ : DArr α).Valid :=
        ⟨by show 0 < 32; decide, Or.inr (by show r.2.length = bitmapSize (r.1.length + 0); rw [e2, e3]; rfl)⟩
      refine ⟨⟨r.1, r.2, 0⟩, rfl, hval, ?_, ?_, ?_⟩
      · show (r.1.length : Int) = _
        rw [e2, hm]
      · intro c p hr
        rw [rel_split_iff ht w2] at hr
        rw [← e4 c p hr, elem_eq]
        have hne : r.2 ≠ [] := by
          intro h0
          rw [h0] at e3
          have := bitmapSize_eq m
          have hc := srel_lt w3 w5 hr
          simp at e3
          omega
        simp only [pres, hne, decide_false, Bool.false_or, Nat.zero_add]
      · intro c hc
        have := hnone c hc
        rw [elem_eq]
        dsimp only
        rw [List.getElem?_eq_none (by omega)]
        split <;> rfl
  | mapping =>
    obtain ⟨w1, w2, w3, w4⟩ := (wf_map_iff ht).1 hw
    dsimp only
    rw [if_neg (by omega), forEach_visits w1]
    simp only [Option.bind_eq_bind, Option.bind_some]
    have hcn : e.childSize.toNat = e.values.values.length := by omega
    rw [hcn]
    generalize hn : e.values.values.length = n
    obtain ⟨r, e1, e2, ⟨_, e3⟩, e4, e5⟩ := expandFold_spec hv (n := n) (visits e.values) ((List.range n).map mem)
      ⟨n, none⟩ [] (by simp) ⟨rfl, Or.inl ⟨rfl, rfl⟩⟩
      (by
        intro x hx
        have : x.1 ∈ (visits e.values).map Prod.fst := List.mem_map.2 ⟨x, hx, rfl⟩
        rw [visits_fst, List.mem_range, hn] at this
        exact this)
      (by rw [visits_fst]; exact List.nodup_range)
      (by
        rintro ⟨c, b, v⟩ hx hb
        dsimp only at hb ⊢
        subst hb
        have := w4 c v ((visits_mem _ _ _).1 hx)
        omega)
    rw [List.nil_append] at e3
    rw [e1]
    -- the missed ids are those without a present parent value
    have hvis : ∀ c, c < n → ∃ x ∈ visits e.values, x.1 = c := by
      intro c hc
      have : c ∈ (visits e.values).map Prod.fst := by rw [visits_fst, List.mem_range, hn]; exact hc
      rw [List.mem_map] at this
      exact this
    have huniq : ∀ x ∈ visits e.values, ∀ y ∈ visits e.values, x.1 = y.1 → x = y := by
      intro x hx y hy hxy
      have hnd : ((visits e.values).map Prod.fst).Nodup := by rw [visits_fst]; exact List.nodup_range
      exact nodup_map_inj hnd hx hy hxy
    have hpres : ∀ c, c < n → ∃ x ∈ visits e.values, x.1 = c ∧
        elem (⟨r.1, r.2.build, 0⟩ : DArr α) c = if copied a x then r.1[c]? else none := by
      intro c hc
      obtain ⟨x, hx, hxc⟩ := hvis c hc
      refine ⟨x, hx, hxc, ?_⟩
      rw [elem_eq]
      dsimp only
      have : pres (⟨r.1, r.2.build, 0⟩ : DArr α) c = copied a x := by
        unfold pres AlmostFull.build
        dsimp only
        rcases e3 with ⟨h1, h2⟩ | ⟨bm, h1, h2, h3, h4⟩
        · rw [h1]
          simp only [Option.getD_none, decide_true, Bool.true_or]
          rw [List.map_eq_nil_iff, List.filter_eq_nil_iff] at h2
          have := h2 x hx
          simpa using this
        · rw [h1]
          simp only [Option.getD_some]
          have hne : bm ≠ [] := by
            intro h0
            rw [h0] at h3
            have := bitmapSize_eq n
            simp at h3
            omega
          rw [decide_eq_false hne, Bool.false_or, h4, Nat.zero_add]
          rw [Bool.eq_iff_iff, decide_eq_true_iff]
          constructor
          · rintro ⟨_, hnm⟩
            by_contra hco
            exact hnm (List.mem_map.2 ⟨x, List.mem_filter.2 ⟨hx, by simpa using hco⟩, hxc⟩)
          · intro hco
            refine ⟨hc, ?_⟩
            intro hm
            rw [List.mem_map] at hm
            obtain ⟨y, hy, hyc⟩ := hm
            rw [List.mem_filter] at hy
            have := huniq x hx y hy.1 (by rw [hxc, hyc])
            subst this
            simp [hco] at hy
      rw [this]
    refine ⟨⟨r.1, r.2.build, 0⟩, rfl, ⟨by show 0 < 32; decide, ?_⟩, ?_, ?_, ?_⟩
    · show r.2.build = [] ∨ r.2.build.length = bitmapSize (r.1.length + 0)
      unfold AlmostFull.build
      rcases e3 with ⟨h1, h2⟩ | ⟨bm, h1, h2, h3, h4⟩
      · rw [h1]; exact Or.inl rfl
      · rw [h1]; right; rw [e2]; exact h3
    · show (r.1.length : Int) = _
      rw [e2, w3, hn]
    · intro c p hr
      rw [rel_map_iff ht] at hr
      have hx := (visits_mem _ _ _).2 hr
      have hc : c < n := by
        have : c ∈ (visits e.values).map Prod.fst := List.mem_map.2 ⟨_, hx, rfl⟩
        rw [visits_fst, List.mem_range, hn] at this
        exact this
      obtain ⟨y, hy, hyc, hel⟩ := hpres c hc
      have := huniq y hy _ hx hyc
      subst this
      rw [hel]
      have hcp : copied a (c, true, (p : Int)) = pres a p := by simp [copied]
      rw [hcp, elem_eq]
      cases hpp : pres a p with
      | false => rfl
      | true =>
        rw [if_pos rfl, if_pos rfl]
        have := e5 _ hx (by rw [hcp, hpp])
        simpa using this
    · intro c hnr
      by_cases hc : c < n
      · obtain ⟨⟨i, b, v⟩, hy, hyc, hel⟩ := hpres c hc
        dsimp only at hyc
        subst hyc
        rw [hel]
        cases b with
        | false => rfl
        | true =>
          exfalso
          have he := (visits_mem _ _ _).1 hy
          have := w4 i v he
          apply hnr v.toNat
          rw [rel_map_iff ht, he, Int.toNat_of_nonneg this.1]
      · rw [elem_eq]
        dsimp only
        rw [List.getElem?_eq_none (by omega)]
        split <;> rfl

end Verif.EdgeOps
