import Verif.Arr.PointwiseSpec
import Verif.Arr.ViewLemmas
import Verif.Dense.OpsLemmas

/-!
# Lemmas about pointwise operations on arrays
-/

namespace Verif.Arr
open Verif.Bits Verif.Bitmap Verif.Dense

variable {V R E : Type}

theorem optionalFn_eq (fn : List (Option V) → Except E (Option R)) (row : List (Bool × Option V)) :
    optionalFn fn (row.map (·.1)) (row.map (·.2)) = applyRow fn row := by
  unfold optionalFn applyRow
  have : ((List.zipWith (fun o (v : Option V) => o || v.isSome) (row.map (·.1)) (row.map (·.2))).all id = true) ↔
      (∀ x ∈ row, x.1 = true ∨ x.2 ≠ none) := by
    induction row with
    | nil => simp
    | cons x xs ih =>
      simp only [List.map_cons, List.zipWith_cons_cons, List.all_cons, Bool.and_eq_true, ih,
        List.forall_mem_cons, id]
      apply and_congr_left'
      cases x.2 <;> simp
  by_cases h : ∀ x ∈ row, x.1 = true ∨ x.2 ≠ none
  · rw [if_pos h, if_pos (this.2 h)]
  · rw [if_neg h, if_neg (fun h' => h (this.1 h'))]

theorem rowRes_eq (fn : List (Option V) → Except E (Option R)) (args : List (Dense.Arg V)) (i : Nat) :
    rowRes fn args i = applyRow fn (args.map (fun a => (a.optional, Dense.elem a.arr i))) := by
  unfold rowRes applyRow
  rw [List.map_map]
  have : (args.all (fun a => a.optional || (Dense.elem a.arr i).isSome) = true) ↔
      (∀ x ∈ args.map (fun a => (a.optional, Dense.elem a.arr i)), x.1 = true ∨ x.2 ≠ none) := by
    rw [List.all_eq_true]
    simp [Option.isSome_iff_ne_none]
  by_cases h : args.all (fun a => a.optional || (Dense.elem a.arr i).isSome) = true
  · rw [if_pos h, if_pos (this.1 h)]; rfl
  · rw [if_neg h, if_neg (fun h' => h (this.2 h'))]

/-! ## The dense operations meet the requirement -/

theorem mapM_ok {α β ε : Type} {f : α → Except ε β} : ∀ {l : List α} {r : List β}, l.mapM f = .ok r →
    r.length = l.length ∧ ∀ (i : Nat) (x : α), l[i]? = some x → ∃ y, r[i]? = some y ∧ f x = .ok y := by
  intro l
  induction l with
  | nil =>
    intro r h
    have : r = [] := by simpa [pure, Except.pure] using h.symm
    subst this; simp
  | cons a as ih =>
    intro r h
    rw [List.mapM_cons] at h
    cases ha : f a with
    | error e => rw [ha] at h; simp [bind, Except.bind] at h
    | ok y =>
      rw [ha] at h
      cases has : as.mapM f with
      | error e => rw [has] at h; simp [bind, Except.bind] at h
      | ok ys =>
        rw [has] at h
        have hr : r = y :: ys := by simpa [bind, Except.bind, pure, Except.pure] using h.symm
        subst hr
        obtain ⟨h1, h2⟩ := ih has
        refine ⟨by simp [h1], ?_⟩
        intro i x hx
        cases i with
        | zero => simp at hx; subst hx; exact ⟨y, by simp, ha⟩
        | succ i => simpa using h2 i x (by simpa using hx)

theorem mapM_error {α β ε : Type} {f : α → Except ε β} {e : ε} : ∀ {l : List α}, l.mapM f = .error e →
    ∃ x ∈ l, f x = .error e := by
  intro l
  induction l with
  | nil => intro h; simp [pure, Except.pure] at h
  | cons a as ih =>
    intro h
    rw [List.mapM_cons] at h
    cases ha : f a with
    | error e' =>
      rw [ha] at h
      have : e' = e := by simpa [bind, Except.bind] using h
      subst this
      exact ⟨a, by simp, ha⟩
    | ok y =>
      rw [ha] at h
      cases has : as.mapM f with
      | error e' =>
        rw [has] at h
        have : e' = e := by simpa [bind, Except.bind] using h
        subst this
        obtain ⟨x, hx, hf⟩ := ih has
        exact ⟨x, by simp [hx], hf⟩
      | ok ys => rw [has] at h; simp [bind, Except.bind, pure, Except.pure] at h

theorem universal_ok (rmem : Nat → R) (fn : List (Option V) → Except E (Option R)) (skip : Bool)
    (hskip : skip = false → ∀ x, ∃ o, fn x = .ok o) {opts : List Bool} (hne : opts ≠ []) :
    DenseOpOk opts fn (fun args => universalOp true fn skip args
      ((List.range ((args.head?.map (fun a => a.arr.size)).getD 0)).map rmem)) := by
  intro args n hopt hargs
  have hs : (args.head?.map (fun a => a.arr.size)).getD 0 = n := by
    cases args with
    | nil => exact absurd hopt.symm hne
    | cons a as => simpa [DArr.size] using (hargs a (by simp)).2
  have key := universalOp_spec (ao := true) (fn := fn) (skip := skip) (args := args) (N := n)
    (fun a ha => ⟨(hargs a ha).1, Or.inl rfl, (hargs a ha).2⟩) hskip
    ((List.range n).map rmem) (by simp)
  beta_reduce
  rw [hs]
  cases hm : (List.range n).mapM (rowRes fn args) with
  | error e =>
    rw [hm] at key
    refine ⟨_, key, by simp, ?_⟩
    intro e' he
    have : e = e' := by simpa using he
    subst this
    obtain ⟨i, hi, hf⟩ := mapM_error hm
    rw [rowRes_eq] at hf
    exact ⟨i, by simpa using hi, hf⟩
  | ok l =>
    rw [hm] at key
    obtain ⟨r, h1, h2, _, h4⟩ := key
    refine ⟨_, h1, ?_, by simp⟩
    intro d hd
    have : r = d := by simpa using hd
    subst this
    obtain ⟨hl, hg⟩ := mapM_ok hm
    have hlen : r.values.length = n := by
      rw [← elems_length, h4, hl, List.length_range]
    refine ⟨h2, hlen, ?_⟩
    intro i hi
    obtain ⟨y, hy, hf⟩ := hg i i (by simp [hi])
    rw [rowRes_eq] at hf
    rw [hf, elem_of_elems h4 hy]

/-! ## Rows -/

/-- Number of stored elements. -/
def flen (n : Nat) (f : Filter) : Nat := if f.typ = .full then n else f.ids.length

/-- `d` holds the elements of `p` with an id in `ids`. -/
def Rep (n : Nat) (ids : Filter) (p : PArg V) (d : Dense.Arg V) : Prop :=
  d.optional = p.optional ∧ d.arr.Valid ∧ d.arr.values.length = flen n ids ∧
  ∀ i, i < n → ∀ o, ids.idToOffset i = some o → Dense.elem d.arr o = p.arr.elem i

theorem row_of_rep {n : Nat} {ids : Filter} {args : List (PArg V)} {dargs : List (Dense.Arg V)}
    (h : List.Forall₂ (Rep n ids) args dargs) {i o : Nat} (hi : i < n) (ho : ids.idToOffset i = some o) :
    dargs.map (fun a => (a.optional, Dense.elem a.arr o)) = rowAt args i := by
  induction h with
  | nil => rfl
  | cons h1 _ ih =>
    simp only [rowAt, List.map_cons] at ih ⊢
    rw [ih, h1.1, h1.2.2.2 i hi o ho]

theorem offset_surj {n : Nat} {f : Filter} (hf : f.Valid n) {o : Nat} (ho : o < flen n f) :
    ∃ i, i < n ∧ f.idToOffset i = some o := by
  unfold flen at ho
  cases ht : f.typ with
  | empty =>
    unfold Filter.Valid at hf
    rw [ht] at hf ho
    rw [hf.1] at ho
    simp at ho
  | full =>
    rw [ht] at ho
    exact ⟨o, by simpa using ho, by simp [Filter.idToOffset, ht]⟩
  | partial' =>
    rw [ht] at ho
    have ho' : o < f.zids.length := by rw [zids_length]; simpa using ho
    have hb := (fvalid_partial hf ht).2.2.2 _ (List.getElem_mem ho')
    refine ⟨(f.zids[o]).toNat, by omega, ?_⟩
    rw [idToOffset_iff hf ht, List.getElem?_eq_getElem ho']
    congr 1
    omega

theorem offset_lt_flen {n : Nat} {f : Filter} (hf : f.Valid n) {i o : Nat} (hi : i < n)
    (h : f.idToOffset i = some o) : o < flen n f := by
  unfold flen
  cases ht : f.typ with
  | empty => simp [Filter.idToOffset, ht] at h
  | full => simp [Filter.idToOffset, ht] at h; simp; omega
  | partial' =>
    rw [idToOffset_iff hf ht] at h
    rw [← zids_length]
    simpa using (List.getElem?_eq_some_iff.1 h).1

/-- The property of a result. -/
def PointRes (fn : List (Option V) → Except E (Option R)) (args : List (PArg V)) (n : Nat)
    (res : Except (PErr E) (Arr R)) : Prop :=
  (∀ r, res = .ok r → r.Valid ∧ r.size = n ∧ ∀ i, i < n → applyRow fn (rowAt args i) = .ok (r.elem i)) ∧
  (∀ e, res = .error e → ∃ e', e = .fn e' ∧
    ((∃ i, i < n ∧ applyRow fn (rowAt args i) = .error e') ∨ applyRow fn (missRow args) = .error e'))

theorem finish {fn : List (Option V) → Except E (Option R)} {args : List (PArg V)} {n : Nat}
    {ids : Filter} (hids : ids.Valid n) {res : Except E (DArr R)} {mres : Except E (Option R)}
    (hm : mres = applyRow fn (missRow args))
    (hok : ∀ d, res = .ok d → d.Valid ∧ d.values.length = flen n ids ∧ ∀ i, i < n → ∀ o,
      ids.idToOffset i = some o → applyRow fn (rowAt args i) = .ok (Dense.elem d o))
    (herr : ∀ e, res = .error e → ∃ i, i < n ∧ applyRow fn (rowAt args i) = .error e)
    (hmiss : ∀ i, i < n → ids.idToOffset i = none →
      applyRow fn (rowAt args i) = applyRow fn (missRow args)) :
    PointRes fn args n (match res with
      | .error e => .error (.fn e)
      | .ok data =>
        match mres with
        | .error e => .error (.fn e)
        | .ok v => .ok (.make n ids data v)) := by
  cases res with
  | error e =>
    refine ⟨by simp, ?_⟩
    intro e' he
    have : PErr.fn e = e' := by simpa using he
    subst this
    exact ⟨e, rfl, Or.inl (herr e rfl)⟩
  | ok d =>
    cases mres with
    | error e =>
      refine ⟨by simp, ?_⟩
      intro e' he
      have : PErr.fn e = e' := by simpa using he
      subst this
      exact ⟨e, rfl, Or.inr hm.symm⟩
    | ok v =>
      refine ⟨?_, by simp⟩
      intro r hr
      have : Arr.make n ids d v = r := by simpa using hr
      subst this
      obtain ⟨h1, h2, h3⟩ := hok d rfl
      have hv : (Arr.make n ids d v).Valid := make_valid v hids h1 h2
      refine ⟨hv, rfl, ?_⟩
      intro i hi
      rw [elem_eq_offset hv]
      show _ = Except.ok (match ids.idToOffset i with
        | some o => Dense.elem d o
        | none => if ids.typ = FType.full then none else v)
      cases ho : ids.idToOffset i with
      | some o => exact h3 i hi o ho
      | none =>
        have ht : ids.typ ≠ .full := by
          intro ht; simp [Filter.idToOffset, ht] at ho
        dsimp only
        rw [if_neg ht, hmiss i hi ho, ← hm]

theorem withIdsAll_spec {m : PMem V} (hm : m.Ok) {ids : Filter} {n : Nat} (hids : ids.Valid n) :
    ∀ (args : List (PArg V)) (k : Nat), (∀ p ∈ args, p.arr.Valid ∧ p.arr.size = n) →
      ∃ dargs, withIdsAll m ids k args = some dargs ∧ List.Forall₂ (Rep n ids) args dargs := by
  intro args
  induction args with
  | nil => intro k _; exact ⟨[], rfl, .nil⟩
  | cons p ps ih =>
    intro k h
    obtain ⟨hv, hs⟩ := h p (by simp)
    obtain ⟨r, e1, e2, e3, e4, _, e6⟩ := withIds_spec (m.mem k) (m.bmem k) (hm.2.2 k) hv
      (ids := ids) (by rw [hs]; exact hids) p.arr.miss
    obtain ⟨ds, f1, f2⟩ := ih (k + 1) (fun q hq => h q (by simp [hq]))
    refine ⟨⟨p.optional, r.data⟩ :: ds, by simp [withIdsAll, e1, f1], .cons ⟨rfl, e2.1, ?_, ?_⟩ f2⟩
    · by_cases h0 : 0 < p.arr.size
      · have hf := e4 h0
        have := e2.2.2
        unfold flen
        cases ht : ids.typ with
        | empty =>
          rw [hf, ht] at this
          unfold Filter.Valid at hids
          rw [ht] at hids
          simp [hids.1, show r.data.values = [] from this]
        | partial' => rw [hf, ht] at this; simpa using this
        | full => rw [hf, ht] at this; simp; omega
      · have hn : n = 0 := by omega
        subst hn
        have hz : flen 0 ids = 0 := by
          unfold flen
          cases ht : ids.typ with
          | empty =>
            unfold Filter.Valid at hids
            rw [ht] at hids
            simp [hids.1]
          | partial' => have := (fvalid_partial hids ht).2.1; omega
          | full => simp
        rw [hz]
        have hfr := e2.2.1
        cases ht : r.flt.typ with
        | empty => simp [valid_empty e2 ht]
        | partial' => have := (fvalid_partial hfr ht).2.1; omega
        | full => have := (valid_full e2 ht).1; dsimp only; omega
    · intro i hi o ho
      have h0 : 0 < p.arr.size := by omega
      have hh : ids.Has i := by rw [has_iff hids, ho]; rfl
      rw [← (e6 i (by omega)).1 hh]
      exact (elem_some e2 (by rw [e4 h0]; exact ho)).symm

theorem sameFilter_spec {pe : Nat → List Int → List Int → Bool} (hpe : ∀ k, PtrEq (pe k)) {n : Nat}
    {f : Filter} (hf : f.Valid n) : ∀ (ps : List (PArg V)) (k : Nat),
    (∀ p ∈ ps, p.arr.flt.Valid n) → sameFilter pe f k ps = true → ∀ p ∈ ps, p.arr.flt = f := by
  intro ps
  induction ps with
  | nil => simp
  | cons p ps ih =>
    intro k h hs
    simp only [sameFilter, Bool.and_eq_true] at hs
    intro q hq
    rcases List.mem_cons.1 hq with rfl | hq
    · exact (isSame_spec (hpe k) hf (h q (by simp)) hs.1).symm
    · exact ih (k + 1) (fun q hq => h q (by simp [hq])) hs.2 q hq

theorem applyRow_none {fn : List (Option V) → Except E (Option R)} {row : List (Bool × Option V)}
    (h : ∃ x ∈ row, x.1 = false ∧ x.2 = none) : applyRow fn row = .ok none := by
  unfold applyRow
  rw [if_neg]
  intro hall
  obtain ⟨x, hx, h1, h2⟩ := h
  rcases hall x hx with h | h
  · rw [h1] at h; simp at h
  · exact h h2

/-- The filter of the result covers every row that is not like the missing row. -/
theorem resultFilter_spec {m : PMem V} (hm : m.Ok) {p : PArg V} {ps : List (PArg V)} {n : Nat}
    (h : ∀ q ∈ p :: ps, q.arr.Valid ∧ q.arr.size = n) (fn : List (Option V) → Except E (Option R)) :
    ∃ ids, resultFilter m n p ps = some ids ∧ ids.Valid n ∧
      ∀ i, i < n → ids.idToOffset i = none →
        applyRow fn (rowAt (p :: ps) i) = applyRow fn (missRow (p :: ps)) := by
  unfold resultFilter
  by_cases hany : (p :: ps).any canIntersect = true
  · rw [if_pos hany]
    generalize hsel : (fun q : PArg V => if canIntersect q then q.arr.flt else Filter.fullF) = sel
    have hselv : ∀ q ∈ p :: ps, (sel q).Valid n := by
      intro q hq
      rw [← hsel]
      beta_reduce
      split
      · have := (h q hq).1.2.1; rwa [(h q hq).2] at this
      · exact ⟨rfl, rfl⟩
    obtain ⟨h1, h2, _⟩ := intersect_spec (n := n) (ps.map sel) (sel p) (hselv p (by simp))
      (by intro g hg; obtain ⟨q, hq, rfl⟩ := List.mem_map.1 hg; exact hselv q (by simp [hq]))
    refine ⟨_, rfl, h1, ?_⟩
    intro i hi ho
    have hno : ¬ (intersect (sel p) (ps.map sel)).Has i := by rw [has_iff h1, ho]; simp
    have : ∃ q ∈ p :: ps, ¬ (sel q).Has i := by
      by_contra hc
      push Not at hc
      refine hno (h2 i ?_)
      intro g hg
      have : g ∈ (p :: ps).map sel := by simpa using hg
      obtain ⟨q, hq, rfl⟩ := List.mem_map.1 this
      exact hc q hq
    obtain ⟨q, hq, hn⟩ := this
    rw [← hsel] at hn
    beta_reduce at hn
    by_cases hc : canIntersect q = true
    · rw [if_pos hc] at hn
      have hem := elem_miss (h q hq).1 hn
      simp only [canIntersect, Bool.and_eq_true, Bool.not_eq_true'] at hc
      have hms : q.arr.miss = none := by
        have hs := (h q hq).2
        have hc2 := hc.2
        simp only [Arr.hasMissing] at hc2
        have hty : q.arr.flt.typ ≠ .full := by
          intro ht; exact hn (by unfold Filter.Has; rw [ht]; trivial)
        cases hmm : q.arr.miss with
        | none => rfl
        | some v =>
          rw [hmm] at hc2
          have hsz : 0 < q.arr.size := by omega
          simp [hty, hsz] at hc2
      rw [applyRow_none, applyRow_none]
      · exact ⟨(q.optional, q.arr.miss), List.mem_map.2 ⟨q, hq, rfl⟩, hc.1, hms⟩
      · exact ⟨(q.optional, q.arr.elem i), List.mem_map.2 ⟨q, hq, rfl⟩, hc.1, by rw [hem, hms]⟩
    · rw [if_neg hc] at hn
      exact absurd (show Filter.fullF.Has i from trivial) hn
  · rw [if_neg hany]
    have hfv : ∀ q ∈ p :: ps, q.arr.flt.Valid n := by
      intro q hq; have := (h q hq).1.2.1; rwa [(h q hq).2] at this
    obtain ⟨r, e1, e2, e3⟩ := merge_spec hm.2.1 (n := n) (ps.map (fun q => q.arr.flt)) p.arr.flt
      (hfv p (by simp))
      (by intro g hg; obtain ⟨q, hq, rfl⟩ := List.mem_map.1 hg; exact hfv q (by simp [hq]))
    refine ⟨r, e1, e2, ?_⟩
    intro i hi ho
    have hno : ¬ r.Has i := by rw [has_iff e2, ho]; simp
    congr 1
    apply List.map_congr_left
    intro q hq
    rw [elem_miss (h q hq).1]
    intro hh
    refine hno (e3 i hi ⟨q.arr.flt, ?_, hh⟩)
    have : q.arr.flt ∈ (p :: ps).map (fun q => q.arr.flt) := List.mem_map.2 ⟨q, hq, rfl⟩
    simpa using this

theorem dop_rows {fn : List (Option V) → Except E (Option R)}
    {dop : List (Dense.Arg V) → Option (Except E (DArr R))} {n : Nat}
    {ids : Filter} (hids : ids.Valid n) {args : List (PArg V)} {dargs : List (Dense.Arg V)}
    (hd : DenseOpOk (args.map (·.optional)) fn dop) (hrep : List.Forall₂ (Rep n ids) args dargs) :
    ∃ res, dop dargs = some res ∧
      (∀ d, res = .ok d → d.Valid ∧ d.values.length = flen n ids ∧ ∀ i, i < n → ∀ o,
        ids.idToOffset i = some o → applyRow fn (rowAt args i) = .ok (Dense.elem d o)) ∧
      (∀ e, res = .error e → ∃ i, i < n ∧ applyRow fn (rowAt args i) = .error e) := by
  have hopt : dargs.map (·.optional) = args.map (·.optional) := by
    clear hd
    induction hrep with
    | nil => rfl
    | cons h1 _ ih => simp [h1.1, ih]
  have hall : ∀ a ∈ dargs, a.arr.Valid ∧ a.arr.values.length = flen n ids := by
    clear hd hopt
    induction hrep with
    | nil => simp
    | cons h1 _ ih =>
      intro a ha
      rcases List.mem_cons.1 ha with rfl | ha
      · exact ⟨h1.2.1, h1.2.2.1⟩
      · exact ih a ha
  obtain ⟨res, h1, h2, h3⟩ := hd dargs (flen n ids) hopt hall
  refine ⟨res, h1, ?_, ?_⟩
  · intro d hdd
    obtain ⟨g1, g2, g3⟩ := h2 d hdd
    refine ⟨g1, g2, ?_⟩
    intro i hi o ho
    rw [← row_of_rep hrep hi ho]
    exact g3 o (offset_lt_flen hids hi ho)
  · intro e he
    obtain ⟨o, ho, hf⟩ := h3 e he
    obtain ⟨i, hi, hio⟩ := offset_surj hids ho
    exact ⟨i, hi, by rw [← row_of_rep hrep hi hio]; exact hf⟩

theorem pointwiseOp_spec {m : PMem V} (hm : m.Ok) {fn : List (Option V) → Except E (Option R)}
    {dop : List (Dense.Arg V) → Option (Except E (DArr R))} {pfn : List (Option V) → Except E (Option R)} {p : PArg V}
    {ps : List (PArg V)} {n : Nat} (hd : DenseOpOk ((p :: ps).map (·.optional)) fn dop)
    (hpfn : pfn ((p :: ps).map (fun q => q.arr.miss)) = applyRow fn (missRow (p :: ps)))
    (h : ∀ q ∈ p :: ps, q.arr.Valid ∧ q.arr.size = n) :
    ∃ res, pointwiseOp m dop pfn p ps = some res ∧ PointRes fn (p :: ps) n res := by
  have hpn : p.arr.size = n := (h p (by simp)).2
  unfold pointwiseOp
  rw [if_neg (by
    rw [not_not, List.all_eq_true]
    intro q hq
    simp [hpn, (h q (by simp [hq])).2])]
  by_cases ham : (p :: ps).any (fun q => !q.optional && q.arr.isAllMissing) = true
  · rw [if_pos ham]
    refine ⟨_, rfl, ?_, by simp⟩
    intro r hr
    have : Arr.ofConst p.arr.size none = r := by simpa using hr
    subst this
    refine ⟨ofConst_valid _ _, hpn, ?_⟩
    intro i hi
    rw [ofConst_elem]
    obtain ⟨q, hq, hc⟩ := List.any_eq_true.1 ham
    simp only [Bool.and_eq_true, Bool.not_eq_true', Arr.isAllMissing, Arr.isConst, decide_eq_true_eq,
      Option.isNone_iff_eq_none] at hc
    refine applyRow_none ⟨(q.optional, q.arr.elem i), List.mem_map.2 ⟨q, hq, rfl⟩, hc.1, ?_⟩
    rw [elem_miss (h q hq).1, hc.2.2]
    unfold Filter.Has; rw [hc.2.1]; exact id
  · rw [if_neg ham]
    have hfv : ∀ q ∈ p :: ps, q.arr.flt.Valid n := by
      intro q hq; have := (h q hq).1.2.1; rwa [(h q hq).2] at this
    have key : ∃ ids res, pointwiseData m dop p ps = some (ids, res) ∧ ids.Valid n ∧
        (∀ d, res = .ok d → d.Valid ∧ d.values.length = flen n ids ∧ ∀ i, i < n → ∀ o,
          ids.idToOffset i = some o → applyRow fn (rowAt (p :: ps) i) = .ok (Dense.elem d o)) ∧
        (∀ e, res = .error e → ∃ i, i < n ∧ applyRow fn (rowAt (p :: ps) i) = .error e) ∧
        (∀ i, i < n → ids.idToOffset i = none →
          applyRow fn (rowAt (p :: ps) i) = applyRow fn (missRow (p :: ps))) := by
      unfold pointwiseData
      by_cases hsf : sameFilter m.peSame p.arr.flt 0 ps = true
      · rw [if_pos hsf]
        have hsame := sameFilter_spec hm.1 (hfv p (by simp)) ps 0
          (fun q hq => hfv q (by simp [hq])) hsf
        have hsame' : ∀ q ∈ p :: ps, q.arr.flt = p.arr.flt := by
          intro q hq
          rcases List.mem_cons.1 hq with rfl | hq
          · rfl
          · exact hsame q hq
        have hmiss : ∀ i, i < n → p.arr.flt.idToOffset i = none →
            applyRow fn (rowAt (p :: ps) i) = applyRow fn (missRow (p :: ps)) := by
          intro i hi ho
          congr 1
          apply List.map_congr_left
          intro q hq
          rw [elem_miss (h q hq).1]
          rw [has_iff (h q hq).1.2.1, hsame' q hq, ho]
          simp
        by_cases ht : p.arr.flt.typ = .empty
        · rw [if_neg (by simpa using ht)]
          refine ⟨_, _, rfl, hfv p (by simp), ?_, by simp, hmiss⟩
          intro d hdd
          have : (⟨[], [], 0⟩ : DArr R) = d := by simpa using hdd
          subst this
          have hp := hfv p (by simp)
          unfold Filter.Valid at hp
          rw [ht] at hp
          refine ⟨emptyD_valid, by simp [flen, ht, hp.1], ?_⟩
          intro i hi o ho
          simp [Filter.idToOffset, ht] at ho
        · rw [if_pos ht]
          have hrep : List.Forall₂ (Rep n p.arr.flt) (p :: ps)
              ((p :: ps).map (fun q => (⟨q.optional, q.arr.data⟩ : Dense.Arg V))) := by
            rw [List.forall₂_map_right_iff]
            apply List.forall₂_same.2
            intro q hq
            refine ⟨rfl, (h q hq).1.1, ?_, ?_⟩
            · have := (h q hq).1.2.2
              have hs := hsame' q hq
              unfold flen
              rw [hs] at this
              cases htt : p.arr.flt.typ with
              | empty => exact absurd htt ht
              | partial' => rw [htt] at this; simpa [hs] using this
              | full => rw [htt] at this; simp [this.1, (h q hq).2]
            · intro i hi o ho
              exact (elem_some (h q hq).1 (by rw [hsame' q hq]; exact ho)).symm
          obtain ⟨res, r1, r2, r3⟩ := dop_rows (hfv p (by simp)) hd hrep
          refine ⟨p.arr.flt, res, by rw [r1]; rfl, hfv p (by simp), r2, r3, hmiss⟩
      · rw [if_neg hsf, hpn]
        obtain ⟨ids, e1, e2, e3⟩ := resultFilter_spec hm h fn
        obtain ⟨dargs, f1, f2⟩ := withIdsAll_spec hm e2 (p :: ps) 0 h
        obtain ⟨res, r1, r2, r3⟩ := dop_rows e2 hd f2
        exact ⟨ids, res, by rw [e1]; simp [f1, r1], e2, r2, r3, e3⟩
    obtain ⟨ids, res, k1, k2, k3, k4, k5⟩ := key
    rw [k1, hpn]
    generalize pfn ((p :: ps).map (fun q => q.arr.miss)) = mres at hpfn ⊢
    have := finish (res := res) k2 hpfn k3 k4 k5
    cases res with
    | error e => exact ⟨_, rfl, this⟩
    | ok d => cases mres with
      | error e => exact ⟨_, rfl, this⟩
      | ok v => exact ⟨_, rfl, this⟩

/-! ## core.presence_or -/

theorem orFn_row {x y : Option V} :
    applyRow (E := E) orFn [(true, x), (true, y)] = .ok (orElem x y) := by
  cases x <;> simp [applyRow, orFn, orElem]

theorem aPresenceOrConst_spec {a : Arr V} (hv : a.Valid) (v : V) :
    ∃ r, aPresenceOrConst a v = some r ∧ r.Valid ∧ r.size = a.size ∧
      ∀ i, i < a.size → r.elem i = orElem (a.elem i) (some v) := by
  have key : ∀ d : DArr V, d.Valid → d.values.length = a.data.values.length →
      (∀ o, o < d.values.length → Dense.elem d o = orElem (Dense.elem a.data o) (some v)) →
      (Arr.make a.size a.flt d (some (a.miss.getD v))).Valid ∧
      ∀ i, i < a.size → (Arr.make a.size a.flt d (some (a.miss.getD v))).elem i =
        orElem (a.elem i) (some v) := by
    intro d h1 h2 h3
    have hvr : (Arr.make a.size a.flt d (some (a.miss.getD v))).Valid := by
      refine make_valid _ hv.2.1 h1 ?_
      rw [h2]
      have := hv.2.2
      cases ht : a.flt.typ with
      | empty =>
        rw [ht] at this
        have hf := hv.2.1
        unfold Filter.Valid at hf
        rw [ht] at hf
        simp [hf.1, show a.data.values = [] from this]
      | partial' => rw [ht] at this; simpa using this
      | full => rw [ht] at this; simp [this.1]
    refine ⟨hvr, ?_⟩
    intro i hi
    cases ho : a.flt.idToOffset i with
    | some o =>
      rw [elem_some hvr (i := i) (o := o) ho, elem_some hv ho]
      exact h3 o (by rw [h2]; exact offset_lt hv hi ho)
    | none =>
      have hn : ¬ a.flt.Has i := by rw [has_iff hv.2.1, ho]; simp
      rw [elem_miss hvr (i := i) hn, elem_miss hv hn]
      have ht : a.flt.typ ≠ .full := by
        intro ht; simp [Filter.idToOffset, ht] at ho
      show (if a.flt.typ = FType.full then none else some (a.miss.getD v)) = _
      rw [if_neg ht]
      cases a.miss <;> rfl
  unfold aPresenceOrConst
  by_cases hb : a.data.bitmap = []
  · rw [if_pos hb]
    obtain ⟨k1, k2⟩ := key a.data hv.1 rfl (by
      intro o ho
      simp only [Dense.elem, hb, if_true]
      rw [List.getElem?_eq_getElem ho]
      simp [orElem])
    exact ⟨_, rfl, k1, rfl, k2⟩
  · rw [if_neg hb, forEach_visits hv.1]
    obtain ⟨k1, k2⟩ := key ⟨(visits a.data).map (fun c => if c.2.1 then c.2.2 else v), [], 0⟩
      ⟨by simp, Or.inl rfl⟩ (by simp [visits]) (by
      intro o ho
      have ho' : o < a.data.values.length := by simpa [visits] using ho
      rw [elem_eq a.data]
      simp only [Dense.elem, true_or, if_true, visits, List.getElem?_map, List.getElem?_zipWith,
        List.getElem?_range ho', List.getElem?_eq_getElem ho', Option.map_some]
      cases pres a.data o <;> simp [orElem])
    exact ⟨_, rfl, k1, rfl, k2⟩

theorem aPresenceOr_spec {m : PMem V} (hm : m.Ok) (rmem : Nat → V) {a b : Arr V} (ha : a.Valid)
    (hb : b.Valid) (hs : a.size = b.size) :
    ∃ r, aPresenceOr (E := E) m rmem a b = some (.ok r) ∧ r.Valid ∧ r.size = a.size ∧
      ∀ i, i < a.size → r.elem i = orElem (a.elem i) (b.elem i) := by
  unfold aPresenceOr
  rw [if_neg (by simpa using hs)]
  have allMiss : ∀ c : Arr V, c.isAllMissing = true → ∀ i, c.elem i = none := by
    intro c hc i
    simp only [Arr.isAllMissing, Arr.isConst, Bool.and_eq_true, decide_eq_true_eq,
      Option.isNone_iff_eq_none] at hc
    unfold Arr.elem
    rw [hc.1, hc.2]
  by_cases h1 : a.isAllMissing = true
  · rw [if_pos h1]
    refine ⟨b, rfl, hb, hs.symm, ?_⟩
    intro i _
    rw [allMiss a h1]
    rfl
  · rw [if_neg h1]
    by_cases h2 : (a.isConst || a.isFullForm || b.isAllMissing) = true
    · rw [if_pos h2]
      refine ⟨a, rfl, ha, rfl, ?_⟩
      intro i hi
      simp only [Bool.or_eq_true] at h2
      rcases h2 with (h2 | h2) | h2
      · simp only [Arr.isConst, decide_eq_true_eq] at h2
        simp only [Arr.isAllMissing, Arr.isConst, h2, decide_true, Bool.true_and,
          Option.isNone_iff_eq_none] at h1
        unfold Arr.elem
        rw [h2]
        cases hmm : a.miss with
        | none => exact absurd hmm h1
        | some v => rfl
      · simp only [Arr.isFullForm, Bool.and_eq_true, decide_eq_true_eq, List.isEmpty_iff] at h2
        have hl := (valid_full ha h2.1).1
        have : a.elem i = some (a.data.values[i]'(by omega)) := by
          unfold Arr.elem
          rw [h2.1]
          simp only [Dense.elem, h2.2, true_or, if_true]
          exact List.getElem?_eq_getElem (by omega)
        rw [this]
        rfl
      · rw [allMiss b h2]
        cases a.elem i <;> rfl
    · rw [if_neg h2]
      simp only [Bool.or_eq_true, not_or] at h2
      by_cases h3 : b.isConst = true
      · rw [if_pos h3]
        have h4 := h2.2
        simp only [Arr.isAllMissing, h3, Bool.true_and, Option.isNone_iff_eq_none] at h4
        cases hmm : b.miss with
        | none => exact absurd hmm h4
        | some v =>
          obtain ⟨r, e1, e2, e3, e4⟩ := aPresenceOrConst_spec ha v
          refine ⟨r, by simp [e1], e2, e3, ?_⟩
          intro i hi
          rw [e4 i hi]
          simp only [Arr.isConst, decide_eq_true_eq] at h3
          unfold Arr.elem
          rw [h3, hmm]
      · rw [if_neg h3]
        obtain ⟨res, e1, e2, e3⟩ := pointwiseOp_spec (E := E) hm (fn := orFn)
          (pfn := orFn) (p := ⟨true, a⟩) (ps := [⟨true, b⟩]) (n := a.size)
          (universal_ok rmem orFn false (by
            intro _ x
            unfold orFn
            split <;> exact ⟨_, rfl⟩) (by simp))
          (by simp only [missRow, List.map_cons, List.map_nil]
              rw [orFn_row]
              cases a.miss <;> simp [orFn, orElem])
          (by simp [ha, hb, hs])
        rw [e1]
        cases res with
        | error e =>
          obtain ⟨e', _, h | h⟩ := e3 e rfl
          · obtain ⟨i, _, hf⟩ := h
            simp only [rowAt, List.map_cons, List.map_nil] at hf
            rw [orFn_row] at hf
            simp at hf
          · simp only [missRow, List.map_cons, List.map_nil] at h
            rw [orFn_row] at h
            simp at h
        | ok r =>
          obtain ⟨g1, g2, g3⟩ := e2 r rfl
          refine ⟨r, rfl, g1, g2, ?_⟩
          intro i hi
          have := g3 i hi
          simp only [rowAt, List.map_cons, List.map_nil] at this
          rw [orFn_row] at this
          exact (Except.ok.inj this).symm

end Verif.Arr
