import Verif.ArrEdge.ArrEdgeSpec
import Verif.Codec.EdgeCodecLemmas

/-!
# Lemmas on array edges: reduction to edges of dense arrays
-/

namespace Verif.ArrEdge
open Verif.Bits Verif.Dense Verif.Arr Verif.Codec

theorem elems_data {a : Arr Int} (hv : a.Valid) (h : 0 < a.size → a.flt.typ = .full) : elems a.data = a.elems := by
  rcases Nat.eq_zero_or_pos a.size with h0 | h0
  · have h1 : a.elems = [] := List.length_eq_zero_iff.1 (by rw [aelems_length, h0])
    have h2 : a.data.values.length = 0 := by
      cases ht : a.flt.typ with
      | full => rw [(valid_full hv ht).1, h0]
      | empty => rw [valid_empty hv ht]; rfl
      | partial' => have := (fvalid_partial hv.2.1 ht).2.1; omega
    rw [h1]
    exact List.length_eq_zero_iff.1 (by rw [elems_length, h2])
  · exact (elems_of_full_arr hv (h h0)).symm

theorem rel_iff {d : Edge.Edge} {e : AEdge} (ht : d.typ = e.typ) (he : elems d.values = e.values.elems) (c p : Nat) :
    Edge.Rel d c p ↔ e.Rel c p := by
  have key : ∀ (i : Nat) (v : Int), elem d.values i = some v ↔ e.values.elems[i]? = some (some v) := by
    intro i v
    rw [← he, elems_get?]
    by_cases hi : i < d.values.values.length
    · rw [if_pos hi]; simp
    · rw [if_neg hi, elem_ge (by omega)]; simp
  unfold Edge.Rel AEdge.Rel
  rw [ht]
  cases e.typ with
  | mapping => exact key c p
  | splitPoints => simp only [key]

/-- `d` is the dense form of `e`. -/
structure Dn (d : Edge.Edge) (e : AEdge) : Prop where
  typ : d.typ = e.typ
  ps : d.parentSize = e.parentSize
  cs : d.childSize = e.childSize
  rows : elems d.values = e.values.elems

theorem Dn.rel {d : Edge.Edge} {e : AEdge} (h : Dn d e) (c p : Nat) : Edge.Rel d c p ↔ e.Rel c p := rel_iff h.typ h.rows c p

theorem Dn.wf {d : Edge.Edge} {e : AEdge} (h : Dn d e) (hd : d.values.Valid) (he : e.WF) : Edge.WF d := by
  obtain ⟨_, ps, cs, v⟩ := d
  obtain ⟨typ, _, _, a⟩ := e
  obtain ⟨h1, h2, h3, h4⟩ := h
  dsimp only at h1 h2 h3 h4
  subst h1 h2 h3
  refine ⟨hd, ?_⟩
  have := he.2
  dsimp only at this ⊢
  rw [h4]
  exact this

theorem toDense_spec (env : Env) (hpe : PtrEq env.pe) {e : AEdge} (h : e.WF) :
    ∃ d, toDenseArrayEdge env e = some d ∧ Edge.WF d ∧ Dn d e := by
  obtain ⟨r, h1, h2, h3, h4⟩ := to_dense_form env.mem env.bmem hpe h.1
  have hsz : r.size = e.values.size := by rw [← aelems_length, h3, aelems_length]
  have hdn : Dn ⟨e.typ, e.parentSize, e.childSize, r.data⟩ e :=
    ⟨rfl, rfl, rfl, by rw [elems_data h2 (fun h0 => h4 (by omega)), h3]⟩
  refine ⟨_, ?_, hdn.wf h2.1 h, hdn⟩
  unfold toDenseArrayEdge
  rw [h1]
  rfl

theorem fromDense_dn (d : Edge.Edge) : Dn d (fromDenseArrayEdge d) := ⟨rfl, rfl, rfl, rfl⟩

theorem fromDense_wf {d : Edge.Edge} (h : Edge.WF d) : (fromDenseArrayEdge d).WF :=
  ⟨ofDense_valid h.1, h.2⟩

theorem fromDense_rel (d : Edge.Edge) (c p : Nat) : (fromDenseArrayEdge d).Rel c p ↔ Edge.Rel d c p :=
  ((fromDense_dn d).rel c p).symm

theorem toMapping_spec (env : Env) (hpe : PtrEq env.pe) {e : AEdge} (h : e.WF) :
    ∃ r, toMappingEdge env e = some r ∧ r.typ = .mapping ∧ r.WF ∧ Same r e := by
  unfold toMappingEdge
  cases ht : e.typ with
  | mapping => exact ⟨e, rfl, ht, h, rfl, rfl, fun _ _ => Iff.rfl⟩
  | splitPoints =>
    obtain ⟨d, h1, h2, h3⟩ := toDense_spec env hpe h
    obtain ⟨r, h4, h5, h6, h7, h8, h9⟩ := Edge.to_mapping_same_relation env.mem d h2
    simp only [h1, h4, Option.bind_eq_bind, Option.bind_some]
    exact ⟨_, rfl, h5, fromDense_wf h6, by rw [← h3.ps, ← h7]; rfl, by rw [← h3.cs, ← h8]; rfl,
      fun c p => (fromDense_rel r c p).trans ((h9 c p).trans (h3.rel c p))⟩

theorem totalMono_iff {d : Edge.Edge} {e : AEdge} (h : Dn d e) : Edge.TotalMono d ↔ TotalMono e := by
  unfold Edge.TotalMono TotalMono
  simp only [h.rel, h.cs]

theorem toSplit_spec (env : Env) (hpe : PtrEq env.pe) {e : AEdge} (h : e.WF) :
    (TotalMono e → ∃ r, toSplitPointsEdge env e = some (.ok r) ∧ r.typ = .splitPoints ∧ r.WF ∧ Same r e) ∧
    (¬ TotalMono e → ∃ m, toSplitPointsEdge env e = some (.error m)) := by
  obtain ⟨d, h1, h2, h3⟩ := toDense_spec env hpe h
  obtain ⟨hA, hB⟩ := Edge.to_split_points_same_relation env.mem d h2
  rw [totalMono_iff h3] at hA hB
  unfold toSplitPointsEdge
  by_cases ht : e.typ = .splitPoints
  · rw [if_pos ht]
    refine ⟨fun _ => ⟨e, rfl, ht, h, rfl, rfl, fun _ _ => Iff.rfl⟩, fun hm => ?_⟩
    obtain ⟨m, hm'⟩ := hB hm
    unfold Edge.toSplitPointsEdge at hm'
    rw [if_pos (by rw [h3.typ, ht])] at hm'
    simp at hm'
  · rw [if_neg ht]
    simp only [h1, Option.bind_eq_bind, Option.bind_some]
    refine ⟨fun hm => ?_, fun hm => ?_⟩
    · obtain ⟨r, h4, h5, h6, h7, h8, h9⟩ := hA hm
      simp only [h4, Option.bind_some]
      exact ⟨_, rfl, h5, fromDense_wf h6, by rw [← h3.ps, ← h7]; rfl, by rw [← h3.cs, ← h8]; rfl,
        fun c p => (fromDense_rel r c p).trans ((h9 c p).trans (h3.rel c p))⟩
    · obtain ⟨m, hm'⟩ := hB hm
      simp only [hm', Option.bind_some]
      exact ⟨m, rfl⟩

/-! ## Composition -/

theorem relComp_iff : ∀ {ds : List Edge.Edge} {es : List AEdge}, List.Forall₂ Dn ds es → ∀ c p,
    Edge.RelComp ds c p ↔ RelComp es c p := by
  intro ds es h
  induction h with
  | nil => intro c p; rfl
  | cons hd _ ih =>
    intro c p
    unfold Edge.RelComp RelComp
    simp only [ih, hd.rel]

theorem compatible_iff : ∀ {ds : List Edge.Edge} {es : List AEdge}, List.Forall₂ Dn ds es →
    (Edge.Compatible ds ↔ Compatible es) := by
  intro ds es h
  induction h with
  | nil => exact Iff.rfl
  | cons hd ht ih =>
    cases ht with
    | nil => exact Iff.rfl
    | cons hd' ht' =>
      unfold Edge.Compatible Compatible
      rw [ih, hd.cs, hd'.ps]

theorem convert_spec (env : Env) (hpe : PtrEq env.pe) : ∀ {es : List AEdge}, (∀ e ∈ es, e.WF) →
    ∃ ds, es.mapM (toDenseArrayEdge env) = some ds ∧ List.Forall₂ Dn ds es ∧ ∀ d ∈ ds, Edge.WF d
  | [], _ => ⟨[], rfl, .nil, by simp⟩
  | e :: es, h => by
    obtain ⟨d, h1, h2, h3⟩ := toDense_spec env hpe (h e (by simp))
    obtain ⟨ds, h4, h5, h6⟩ := convert_spec env hpe (es := es) (fun x hx => h x (by simp [hx]))
    refine ⟨d :: ds, ?_, .cons h3 h5, ?_⟩
    · rw [List.mapM_cons, h1, h4]; rfl
    · intro x hx
      rcases List.mem_cons.1 hx with rfl | hx
      · exact h2
      · exact h6 x hx

theorem forall₂_types {ds : List Edge.Edge} {es : List AEdge} (h : List.Forall₂ Dn ds es) :
    (∀ d ∈ ds, d.typ = .splitPoints) ↔ ∀ e ∈ es, e.typ = .splitPoints := by
  induction h with
  | nil => simp
  | cons hd _ ih => simp only [List.forall_mem_cons, ih, hd.typ]

theorem forall₂_last {ds : List Edge.Edge} {es : List AEdge} (h : List.Forall₂ Dn ds es) (h1 : ds ≠ []) (h2 : es ≠ []) :
    (ds.getLast h1).childSize = (es.getLast h2).childSize := by
  induction h with
  | nil => exact absurd rfl h1
  | cons hd ht ih =>
    cases ht with
    | nil => exact hd.cs
    | cons hd' ht' =>
      exact ih (by simp) (by simp)

theorem compose_spec (env : Env) (hpe : PtrEq env.pe) (e : AEdge) (es : List AEdge) (hw : ∀ x ∈ e :: es, x.WF) :
    (Compatible (e :: es) → ∃ r, composeEdges env (e :: es) = some (.ok r) ∧ r.WF ∧
      r.parentSize = e.parentSize ∧ r.childSize = ((e :: es).getLast (by simp)).childSize ∧
      (∀ c p, r.Rel c p ↔ RelComp (e :: es) c p) ∧
      (r.typ = .splitPoints ↔ ∀ x ∈ e :: es, x.typ = .splitPoints)) ∧
    (¬ Compatible (e :: es) → ∃ m, composeEdges env (e :: es) = some (.error m)) := by
  obtain ⟨ds, h1, h2, h3⟩ := convert_spec env hpe hw
  match ds, h2 with
  | d :: ds, h2 =>
    obtain ⟨hA, hB⟩ := Edge.compose_edges_composes env.mem d ds h3
    rw [compatible_iff h2] at hA hB
    unfold composeEdges
    rw [h1]
    simp only [Option.bind_eq_bind, Option.bind_some]
    refine ⟨fun hc => ?_, fun hc => ?_⟩
    · obtain ⟨r, h4, h5, h6, h7, h8, h9⟩ := hA hc
      simp only [h4, Option.bind_some]
      have hd : Dn d e := by cases h2 with | cons hd _ => exact hd
      refine ⟨_, rfl, fromDense_wf h5, by rw [← hd.ps, ← h6]; rfl, ?_, ?_, ?_⟩
      · rw [← forall₂_last h2 (by simp) (by simp), ← h7]; rfl
      · intro c p
        rw [fromDense_rel, h8, relComp_iff h2]
      · rw [← forall₂_types h2, ← h9]; rfl
    · obtain ⟨m, hm⟩ := hB hc
      simp only [hm, Option.bind_some]
      exact ⟨m, rfl⟩

/-! ## Equivalence -/

theorem arraysEq_spec (env : Env) {pe1 pe2 : List Int → List Int → Bool} (hpe : PtrEq env.pe) (h1 : PtrEq pe1) (h2 : PtrEq pe2)
    {a b : Arr Int} (ha : a.Valid) (hb : b.Valid) :
    ∃ r, arraysEq env pe1 pe2 a b = some r ∧ (r = true ↔ a.elems = b.elems ∧ (a.size = 0 → a.miss = b.miss)) := by
  obtain ⟨r, e1, e2⟩ := equivalent_arr_spec env.mem env.bmem hpe h1 h2 ha hb
  refine ⟨r, e1, ?_⟩
  rw [e2]
  constructor
  · rintro ⟨h3, h4, h5⟩
    exact ⟨aelems_ext h3 h4, h5⟩
  · rintro ⟨h3, h5⟩
    have hs : a.size = b.size := by rw [← aelems_length a, h3, aelems_length]
    refine ⟨hs, fun i hi => ?_, h5⟩
    have := congrArg (fun l => l[i]?) h3
    simp only [Arr.elems, List.getElem?_map, List.getElem?_range hi, List.getElem?_range (show i < b.size by omega)] at this
    simpa using this

/-- Edges of one type relate the same rows iff their values have the same rows. -/
theorem same_iff_rows (env : Env) (hpe : PtrEq env.pe) {a b : AEdge} (ha : a.WF) (hb : b.WF) (ht : a.typ = b.typ)
    (hp : a.parentSize = b.parentSize) (hc : a.childSize = b.childSize) :
    a.values.elems = b.values.elems ↔ ∀ c p, a.Rel c p ↔ b.Rel c p := by
  obtain ⟨da, _, w1, n1⟩ := toDense_spec env hpe ha
  obtain ⟨db, _, w2, n2⟩ := toDense_spec env hpe hb
  obtain ⟨r, h1, h2⟩ := Edge.is_equivalent_iff_same_relation env.mem da db w1 w2
  unfold Edge.isEquivalentTo at h1
  rw [if_neg (by rw [n1.ps, n2.ps, n1.cs, n2.cs]; simp [hp, hc]), if_pos (by rw [n1.typ, n2.typ, ht])] at h1
  rw [Edge.arraysEq_spec w1.1 w2.1] at h1
  have h1 := Option.some.inj h1
  subst h1
  rw [decide_eq_true_iff, n1.rows, n2.rows] at h2
  simp only [n1.rel, n2.rel, n1.ps, n2.ps, n1.cs, n2.cs, hp, hc, true_and] at h2
  exact h2

theorem split_size {e : AEdge} (h : e.WF) (ht : e.typ = .splitPoints) : 0 < e.values.size := by
  have := h.2
  rw [ht] at this
  obtain ⟨⟨sp, h1, h2, _⟩, _⟩ := this
  rw [← aelems_length, h1, List.length_map]
  rcases sp with _ | ⟨x, sp⟩
  · simp at h2
  · simp

theorem totalMono_same {a b : AEdge} (h : Same a b) (hb : TotalMono b) : TotalMono a := by
  obtain ⟨_, h2, h3⟩ := h
  unfold TotalMono
  simp only [h2, h3]
  exact hb

theorem split_totalMono (env : Env) (hpe : PtrEq env.pe) {e : AEdge} (h : e.WF) (ht : e.typ = .splitPoints) : TotalMono e := by
  apply Classical.byContradiction
  intro hm
  obtain ⟨m, h1⟩ := (toSplit_spec env hpe h).2 hm
  unfold toSplitPointsEdge at h1
  rw [if_pos ht] at h1
  simp at h1

theorem same_symm {a b : AEdge} (h : Same a b) : Same b a := ⟨h.1.symm, h.2.1.symm, fun c p => (h.2.2 c p).symm⟩

theorem same_trans {a b c : AEdge} (h : Same a b) (h' : Same b c) : Same a c :=
  ⟨h.1.trans h'.1, h.2.1.trans h'.2.1, fun x y => (h.2.2 x y).trans (h'.2.2 x y)⟩

theorem isEquivalentTo_spec (env : Env) {pe1 pe2 : List Int → List Int → Bool} (hpe : PtrEq env.pe) (hp1 : PtrEq pe1)
    (hp2 : PtrEq pe2) {a b : AEdge} (ha : a.WF) (hb : b.WF) :
    ∃ r, isEquivalentTo env pe1 pe2 a b = some r ∧ (r = true ↔ Same a b ∧
      (a.typ = b.typ → a.values.size = 0 → a.values.miss = b.values.miss)) := by
  unfold isEquivalentTo
  by_cases hs : a.parentSize ≠ b.parentSize ∨ a.childSize ≠ b.childSize
  · rw [if_pos hs]
    refine ⟨false, rfl, ?_⟩
    simp only [Bool.false_eq_true, false_iff]
    rintro ⟨⟨h1, h2, _⟩, _⟩
    rcases hs with hs | hs
    · exact hs h1
    · exact hs h2
  · rw [if_neg hs]
    have hps : a.parentSize = b.parentSize := Classical.byContradiction fun h => hs (Or.inl h)
    have hcs : a.childSize = b.childSize := Classical.byContradiction fun h => hs (Or.inr h)
    by_cases ht : a.typ = b.typ
    · rw [if_pos ht]
      obtain ⟨r, h1, h2⟩ := arraysEq_spec env hpe hp1 hp2 ha.1 hb.1
      refine ⟨r, h1, ?_⟩
      rw [h2, same_iff_rows env hpe ha hb ht hps hcs]
      constructor
      · rintro ⟨h3, h4⟩
        exact ⟨⟨hps, hcs, h3⟩, fun _ => h4⟩
      · rintro ⟨⟨_, _, h3⟩, h4⟩
        exact ⟨h3, h4 ht⟩
    · rw [if_neg ht]
      have hmono : Same a b → TotalMono a ∧ TotalMono b := by
        intro h
        cases hta : a.typ with
        | splitPoints =>
          have := split_totalMono env hpe ha hta
          exact ⟨this, totalMono_same (same_symm h) this⟩
        | mapping =>
          have hb' : b.typ = .splitPoints := by
            cases htb : b.typ with
            | mapping => exact absurd (hta.trans htb.symm) ht
            | splitPoints => rfl
          have := split_totalMono env hpe hb hb'
          exact ⟨totalMono_same h this, this⟩
      by_cases hma : TotalMono a
      · obtain ⟨a', x1, x2, x3, x4⟩ := (toSplit_spec env hpe ha).1 hma
        simp only [x1, Option.bind_eq_bind, Option.bind_some]
        by_cases hmb : TotalMono b
        · obtain ⟨b', y1, y2, y3, y4⟩ := (toSplit_spec env hpe hb).1 hmb
          simp only [y1, Option.bind_some]
          obtain ⟨r, h1, h2⟩ := arraysEq_spec env hpe hp1 hp2 x3.1 y3.1
          refine ⟨r, h1, ?_⟩
          have hpos := split_size x3 x2
          rw [h2, same_iff_rows env hpe x3 y3 (by rw [x2, y2]) (by rw [x4.1, y4.1, hps]) (by rw [x4.2.1, y4.2.1, hcs])]
          constructor
          · rintro ⟨h3, _⟩
            refine ⟨⟨hps, hcs, fun c p => ?_⟩, fun h => absurd h ht⟩
            rw [← x4.2.2, h3, y4.2.2]
          · rintro ⟨h3, _⟩
            refine ⟨fun c p => ?_, fun h => by omega⟩
            rw [x4.2.2, h3.2.2, y4.2.2]
        · obtain ⟨m, hm⟩ := (toSplit_spec env hpe hb).2 hmb
          simp only [hm, Option.bind_some]
          exact ⟨false, rfl, by simp only [Bool.false_eq_true, false_iff]; rintro ⟨h, _⟩; exact hmb (hmono h).2⟩
      · obtain ⟨m, hm⟩ := (toSplit_spec env hpe ha).2 hma
        simp only [hm, Option.bind_eq_bind, Option.bind_some]
        exact ⟨false, rfl, by simp only [Bool.false_eq_true, false_iff]; rintro ⟨h, _⟩; exact hma (hmono h).1⟩

theorem splitSize_spec {e : AEdge} (h : e.WF) (ht : e.typ = .splitPoints) (hf : e.values.flt.typ = .full) {i : Nat}
    (hi : (i : Int) < e.parentSize) :
    ∃ n, splitSize e i = some n ∧ 0 ≤ n ∧ ∃ s : Int, 0 ≤ s ∧ s + n ≤ e.childSize ∧ ∀ c : Nat, e.Rel c i ↔ s ≤ c ∧ (c : Int) < s + n := by
  have h2 := h.2
  rw [ht] at h2
  obtain ⟨⟨sp, h3, h4, h5⟩, h6, h7⟩ := h2
  have hd := elems_of_full_arr h.1 hf
  rw [h3] at hd
  have hv : e.values.data.values = sp := (Edge.full_elems hd.symm)
  rw [h3, List.length_map] at h6
  have hl : i + 1 < sp.length := by omega
  unfold splitSize
  rw [hv, List.getElem?_eq_getElem hl, List.getElem?_eq_getElem (show i < sp.length by omega)]
  have hle : sp[i] ≤ sp[i + 1] := List.pairwise_iff_getElem.1 h5 i (i + 1) (by omega) hl (by omega)
  have h0 : 0 ≤ sp[i] := by
    have hz : sp[0]'(by omega) = 0 := by
      rcases sp with _ | ⟨x, sp⟩
      · simp at hl
      · simpa using h4
    rcases Nat.eq_zero_or_pos i with h | h
    · subst h; omega
    · have := List.pairwise_iff_getElem.1 h5 0 i (by omega) (by omega) h
      omega
  have hlast : sp[i + 1] ≤ e.childSize := by
    rw [h3, List.getLast?_map] at h7
    have h8 : sp.getLast? = some e.childSize := by
      cases hx : sp.getLast? with
      | none => rw [hx] at h7; simp at h7
      | some x => rw [hx] at h7; simpa using h7
    rw [List.getLast?_eq_getElem?, List.getElem?_eq_getElem (show sp.length - 1 < sp.length by omega)] at h8
    have h8 := Option.some.inj h8
    rcases Nat.lt_or_ge (i + 1) (sp.length - 1) with h | h
    · have := List.pairwise_iff_getElem.1 h5 (i + 1) (sp.length - 1) (by omega) (by omega) h
      omega
    · have : i + 1 = sp.length - 1 := by omega
      simp only [this]
      omega
  refine ⟨sp[i + 1] - sp[i], rfl, by omega, sp[i], h0, by omega, ?_⟩
  intro c
  unfold AEdge.Rel
  rw [ht]
  dsimp only
  rw [h3]
  simp only [List.getElem?_map, List.getElem?_eq_getElem hl, List.getElem?_eq_getElem (show i < sp.length by omega), Option.map_some,
    Option.some.injEq]
  constructor
  · rintro ⟨a, b, rfl, rfl, h8, h9⟩
    omega
  · rintro ⟨h8, h9⟩
    exact ⟨_, _, rfl, rfl, h8, by omega⟩

end Verif.ArrEdge
