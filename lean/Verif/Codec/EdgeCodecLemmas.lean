import Verif.Codec.ArrayCodecLemmas

/-!
# Lemmas on the codecs of edges
-/

namespace Verif.Codec
open Verif.Bits Verif.Bitmap Verif.Dense Verif.Arr

/-! ## Construction of array edges -/

theorem elems_of_full_arr {α : Type} {a : Arr α} (hv : a.Valid) (ht : a.flt.typ = .full) : a.elems = elems a.data := by
  unfold Arr.elems elems
  rw [(valid_full hv ht).1]
  apply List.map_congr_left
  intro i _
  unfold Arr.elem
  rw [ht]

theorem arrayFromSplitPoints_spec (env : Env) (hpe : PtrEq env.pe) {a : Arr Int} (hv : a.Valid) :
    (Edge.SplitOk a.elems → ∃ e, arrayFromSplitPoints env a = some (.ok e) ∧ e.typ = .splitPoints ∧
      e.values.elems = a.elems ∧ e.WF) ∧
    (¬ Edge.SplitOk a.elems → ∃ m, arrayFromSplitPoints env a = some (.error m)) := by
  obtain ⟨r, h1, h2, h3, h4⟩ := to_dense_form env.mem env.bmem hpe hv
  have hsz : r.size = a.size := by rw [← aelems_length, h3, aelems_length]
  unfold arrayFromSplitPoints
  rw [h1]
  simp only [Option.bind_eq_bind, Option.bind_some]
  by_cases h0 : r.size = 0
  · rw [if_pos h0]
    refine ⟨fun ⟨sp, hs, hh, _⟩ => ?_, fun _ => ⟨_, rfl⟩⟩
    have hl : a.elems.length = 0 := by rw [aelems_length]; omega
    rw [hs, List.length_map] at hl
    rw [List.length_eq_zero_iff.1 hl] at hh
    exact absurd hh (by simp)
  · rw [if_neg h0]
    have ht := h4 (by omega)
    have hd : r.data.size = r.size := (valid_full h2 ht).1
    have he : a.elems = elems r.data := by rw [← h3, elems_of_full_arr h2 ht]
    rw [if_neg (by omega)]
    obtain ⟨⟨b, hb1, hb2⟩, _⟩ := presence_queries r.data h2.1
    obtain ⟨hA, hB⟩ := Edge.fromSplitPoints_spec h2.1
    rw [he]
    unfold Edge.fromSplitPoints at hA hB
    rw [hb1] at hA hB ⊢
    simp only [Option.bind_eq_bind, Option.bind_some] at hA hB ⊢
    cases b with
    | false =>
      refine ⟨fun h => ?_, fun _ => ⟨_, rfl⟩⟩
      obtain ⟨e, he', _⟩ := hA h
      simp at he'
    | true =>
      simp only [Bool.not_true, Bool.false_eq_true, if_false] at hA hB ⊢
      rw [if_neg (by omega)] at hA hB
      have hpos : 0 < r.data.values.length := by show 0 < r.data.size; omega
      rw [List.getElem?_eq_getElem hpos] at hA hB ⊢
      simp only [Option.bind_some] at hA hB ⊢
      by_cases hf : r.data.values[0] ≠ 0
      · rw [if_pos hf] at hA hB ⊢
        refine ⟨fun h => ?_, fun _ => ⟨_, rfl⟩⟩
        obtain ⟨e, he', _⟩ := hA h
        simp at he'
      · rw [if_neg hf] at hA hB ⊢
        cases hl : r.data.values.getLast? with
        | none =>
          rw [List.getLast?_eq_none_iff] at hl
          rw [hl] at hpos
          exact absurd hpos (by simp)
        | some c =>
          rw [hl] at hA hB
          simp only [Option.bind_some] at hA hB ⊢
          by_cases hs : Edge.isSorted r.data.values = true
          · rw [hs] at hA hB ⊢
            simp only [Bool.not_true, Bool.false_eq_true, if_false] at hA hB ⊢
            refine ⟨fun h => ?_, fun h => ?_⟩
            · obtain ⟨e, he', _, _, hw⟩ := hA h
              simp only [Option.some.injEq, Except.ok.injEq] at he'
              subst he'
              refine ⟨_, rfl, rfl, by rw [h3, he], h2, ?_⟩
              have hrd : r.elems = elems r.data := by rw [h3, he]
              show Edge.SplitOk r.elems ∧ _ ∧ r.elems.getLast? = some (some c)
              rw [hrd]
              refine ⟨hw.2.1, ?_, hw.2.2.2⟩
              show (r.size : Int) - 1 + 1 = ((elems r.data).length : Int)
              rw [← hrd, aelems_length]
              omega
            · obtain ⟨m, hm⟩ := hB h
              simp at hm
          · rw [Bool.eq_false_iff.2 hs] at hA hB ⊢
            refine ⟨fun h => ?_, fun _ => ⟨_, rfl⟩⟩
            obtain ⟨e, he', _⟩ := hA h
            simp at he'

theorem arrayMappingStep_fold : ∀ (xs : List (Int × Option Int)) (m : Int) (n : Bool),
    ((xs.foldl arrayMappingStep (m, n)).2 = true ↔ n = true ∨ ∃ x ∈ xs, ∃ v, x.2 = some v ∧ v < 0) ∧
    (∀ k : Int, k ≤ (xs.foldl arrayMappingStep (m, n)).1 ↔ k ≤ m ∨ ∃ x ∈ xs, ∃ v, x.2 = some v ∧ k ≤ v) := by
  intro xs
  induction xs with
  | nil => intro m n; simp
  | cons x xs ih =>
    intro m n
    obtain ⟨i, o⟩ := x
    cases o with
    | none =>
      rw [List.foldl_cons]
      obtain ⟨h1, h2⟩ := ih m n
      refine ⟨?_, fun k => ?_⟩
      · show ((xs.foldl arrayMappingStep (m, n)).2 = true) ↔ _
        rw [h1]; simp
      · show (k ≤ (xs.foldl arrayMappingStep (m, n)).1) ↔ _
        rw [h2]; simp
    | some v =>
      rw [List.foldl_cons]
      obtain ⟨h1, h2⟩ := ih (max m v) (n || decide (v < 0))
      refine ⟨?_, fun k => ?_⟩
      · show ((xs.foldl arrayMappingStep (max m v, n || decide (v < 0))).2 = true) ↔ _
        rw [h1, Bool.or_eq_true, decide_eq_true_iff, or_assoc]
        simp
      · show (k ≤ (xs.foldl arrayMappingStep (max m v, n || decide (v < 0))).1) ↔ _
        rw [h2]
        have : k ≤ max m v ↔ k ≤ m ∨ k ≤ v := by omega
        rw [this, or_assoc]
        simp

theorem arrayFromMapping_spec {a : Arr Int} (hv : a.Valid) (n : Int) :
    (0 ≤ n ∧ Edge.MapOk a.elems n → ∃ e, arrayFromMapping a n = some (.ok e) ∧ e.typ = .mapping ∧
      e.values = a ∧ e.parentSize = n ∧ e.WF) ∧
    (¬ (0 ≤ n ∧ Edge.MapOk a.elems n) → ∃ m, arrayFromMapping a n = some (.error m)) := by
  unfold arrayFromMapping
  by_cases hn : n < 0
  · rw [if_pos hn]
    exact ⟨fun h => by omega, fun _ => ⟨_, rfl⟩⟩
  · rw [if_neg hn]
    obtain ⟨calls, h1, h2⟩ := forEachPresent_arr_spec hv
    rw [h1]
    simp only [Option.bind_eq_bind, Option.bind_some, h2]
    obtain ⟨h3, h4⟩ := arrayMappingStep_fold
      (((List.range a.size).map (fun (i : Nat) => ((i : Int), a.elem i))).filter (fun p => p.2.isSome)) (-1) false
    have hmem : ∀ P : Int → Prop, (∃ x ∈ ((List.range a.size).map (fun (i : Nat) => ((i : Int), a.elem i))).filter
        (fun p => p.2.isSome), ∃ v, x.2 = some v ∧ P v) ↔ ∃ v, some v ∈ a.elems ∧ P v := by
      intro P
      constructor
      · rintro ⟨x, hx, v, hxv, hp⟩
        rw [List.mem_filter, List.mem_map] at hx
        obtain ⟨⟨i, hi, rfl⟩, _⟩ := hx
        exact ⟨v, by unfold Arr.elems; exact List.mem_map.2 ⟨i, hi, hxv⟩, hp⟩
      · rintro ⟨v, hv', hp⟩
        unfold Arr.elems at hv'
        obtain ⟨i, hi, hiv⟩ := List.mem_map.1 hv'
        exact ⟨((i : Int), a.elem i), by rw [List.mem_filter]; exact ⟨List.mem_map.2 ⟨i, hi, rfl⟩, by simp [hiv]⟩, v, hiv, hp⟩
    rw [hmem (fun v => v < 0)] at h3
    have h4' : ∀ k : Int, _ := fun k => (h4 k).trans (or_congr Iff.rfl (hmem (fun v => k ≤ v)))
    have hok : Edge.MapOk a.elems n ↔ ¬ (∃ v, some v ∈ a.elems ∧ v < 0) ∧ ¬ (∃ v, some v ∈ a.elems ∧ n ≤ v) := by
      unfold Edge.MapOk
      constructor
      · intro h
        exact ⟨fun ⟨v, h5, h6⟩ => by have := h v h5; omega, fun ⟨v, h5, h6⟩ => by have := h v h5; omega⟩
      · rintro ⟨h5, h6⟩ v hv'
        constructor
        · apply Int.not_lt.1
          exact fun h => h5 ⟨v, hv', h⟩
        · apply Int.not_le.1
          exact fun h => h6 ⟨v, hv', h⟩
    generalize List.foldl arrayMappingStep _ _ = s at h3 h4'
    obtain ⟨mx, ng⟩ := s
    dsimp only at h3 h4' ⊢
    cases ng with
    | true =>
      refine ⟨fun h => ?_, fun _ => ⟨_, rfl⟩⟩
      have := (h3.1 rfl)
      rcases this with h5 | h5
      · exact absurd h5 (by simp)
      · exact absurd h5 (hok.1 h.2).1
    | false =>
      have hng : ¬ ∃ v, some v ∈ a.elems ∧ v < 0 := fun h => by simpa using h3.2 (Or.inr h)
      simp only [Bool.false_eq_true, if_false]
      by_cases hm : mx ≥ n
      · rw [if_pos hm]
        refine ⟨fun h => ?_, fun _ => ⟨_, rfl⟩⟩
        rcases (h4' n).1 hm with h5 | h5
        · omega
        · exact absurd h5 (hok.1 h.2).2
      · rw [if_neg hm]
        have hmo : Edge.MapOk a.elems n := hok.2 ⟨hng, fun h => hm ((h4' n).2 (Or.inr h))⟩
        refine ⟨fun _ => ⟨_, rfl, rfl, rfl, rfl, hv, Int.not_lt.1 hn, ?_, hmo⟩, fun h => absurd ⟨by omega, hmo⟩ h⟩
        show (a.size : Int) = a.elems.length
        rw [aelems_length]

/-! ## Decoding of edges -/

theorem decodeDenseEdge_ok {m : EMsg} {d : DArr Int} (hd : d.Valid) (h : m.OkDense (elems d)) :
    ∃ e, decodeDenseEdge m [.dense d] = some (.ok e) ∧ Edge.WF e ∧ e.values = d ∧
      m = encodeEdge e.typ e.parentSize := by
  obtain ⟨et, ps⟩ := m
  rcases h with ⟨rfl, n, rfl, h0, hm⟩ | ⟨h1, h2, hs⟩
  · obtain ⟨e, h1, h2, h3, h4, h5⟩ := (Edge.fromMapping_spec hd n).1 ⟨h0, hm⟩
    exact ⟨e, h1, h5, h3, by rw [h2, h4]; rfl⟩
  · dsimp only at h1 h2
    subst h1 h2
    obtain ⟨e, h1, h2, h3, h4⟩ := (Edge.fromSplitPoints_spec hd).1 hs
    exact ⟨e, h1, h4, h3, by rw [h2]; rfl⟩

theorem decodeDenseEdge_error {m : EMsg} {inputs : List (TV Int)} (hin : InputsOk inputs)
    (h : ¬ ∃ d, inputs = [.dense d] ∧ m.OkDense (elems d)) : ∃ e, decodeDenseEdge m inputs = some (.error e) := by
  obtain ⟨et, ps⟩ := m
  match inputs, hin, h with
  | [], _, _ => exact ⟨_, rfl⟩
  | .dense _ :: _ :: _, _, _ => exact ⟨_, rfl⟩
  | .opt _ :: _ :: _, _, _ => exact ⟨_, rfl⟩
  | .other :: _ :: _, _, _ => exact ⟨_, rfl⟩
  | [.opt _], _, _ => exact ⟨_, rfl⟩
  | [.other], _, _ => exact ⟨_, rfl⟩
  | [.dense d], hin, h =>
    have hd := hin d (by simp)
    cases et with
    | none => exact ⟨_, rfl⟩
    | some t =>
      cases t with
      | unspecified => exact ⟨_, rfl⟩
      | mapping =>
        cases ps with
        | none => exact ⟨_, rfl⟩
        | some n => exact (Edge.fromMapping_spec hd n).2 (fun hc => h ⟨d, rfl, Or.inl ⟨rfl, n, rfl, hc⟩⟩)
      | splitPoints =>
        cases ps with
        | some _ => exact ⟨_, rfl⟩
        | none => exact (Edge.fromSplitPoints_spec hd).2 (fun hc => h ⟨d, rfl, Or.inr ⟨rfl, rfl, hc⟩⟩)

theorem decodeArrayEdge_ok (env : Env) (hpe : PtrEq env.pe) {m : EMsg} {a : Arr Int} (ha : a.Valid) (h : m.OkArray a.elems) :
    ∃ e, decodeArrayEdge env m [.array a] = some (.ok e) ∧ e.WF ∧ e.values.elems = a.elems ∧
      m.edgeType = (encodeEdge e.typ e.parentSize).edgeType ∧
      (e.typ = .mapping → m.parentSize = some e.parentSize) := by
  obtain ⟨et, ps⟩ := m
  rcases h with ⟨rfl, n, rfl, h0, hm⟩ | ⟨h1, hs⟩
  · obtain ⟨e, h1, h2, h3, h4, h5⟩ := (arrayFromMapping_spec ha n).1 ⟨h0, hm⟩
    refine ⟨e, ?_, h5, by rw [h3], by rw [h2]; rfl, fun _ => by rw [h4]⟩
    show (if n < 0 then _ else arrayFromMapping a n) = _
    rw [if_neg (by omega), h1]
  · dsimp only at h1
    subst h1
    obtain ⟨e, h1, h2, h3, h4⟩ := (arrayFromSplitPoints_spec env hpe ha).1 hs
    exact ⟨e, h1, h4, h3, by rw [h2]; rfl, fun h => by rw [h2] at h; exact absurd h (by simp)⟩

theorem decodeArrayEdge_error (env : Env) (hpe : PtrEq env.pe) {m : EMsg} {inputs : List AV}
    (hin : ∀ a, AV.array a ∈ inputs → a.Valid)
    (h : ¬ ∃ a, inputs = [.array a] ∧ m.OkArray a.elems) : ∃ e, decodeArrayEdge env m inputs = some (.error e) := by
  obtain ⟨et, ps⟩ := m
  cases et with
  | none => exact ⟨_, rfl⟩
  | some t =>
    cases t with
    | unspecified => exact ⟨_, rfl⟩
    | mapping =>
      match inputs, hin, h with
      | [], _, _ => exact ⟨_, rfl⟩
      | .array _ :: _ :: _, _, _ => exact ⟨_, rfl⟩
      | .other :: _ :: _, _, _ => exact ⟨_, rfl⟩
      | [.other], _, _ => exact ⟨_, rfl⟩
      | [.array a], hin, h =>
        cases ps with
        | none => exact ⟨_, rfl⟩
        | some n =>
          show ∃ e, (if n < 0 then _ else arrayFromMapping a n) = some (.error e)
          by_cases hn : n < 0
          · rw [if_pos hn]; exact ⟨_, rfl⟩
          · rw [if_neg hn]
            exact (arrayFromMapping_spec (hin a (by simp)) n).2 (fun hc => h ⟨a, rfl, Or.inl ⟨rfl, n, rfl, hc⟩⟩)
    | splitPoints =>
      match inputs, hin, h with
      | [], _, _ => exact ⟨_, rfl⟩
      | .array _ :: _ :: _, _, _ => exact ⟨_, rfl⟩
      | .other :: _ :: _, _, _ => exact ⟨_, rfl⟩
      | [.other], _, _ => exact ⟨_, rfl⟩
      | [.array a], hin, h =>
        exact (arrayFromSplitPoints_spec env hpe (hin a (by simp))).2 (fun hc => h ⟨a, rfl, Or.inr ⟨rfl, hc⟩⟩)

/-! ## Round trips -/

theorem edge_okDense {e : Edge.Edge} (h : Edge.WF e) {rows : List (Option Int)} (hr : rows = elems e.values) :
    (encodeEdge e.typ e.parentSize).OkDense rows := by
  obtain ⟨typ, ps, cs, d⟩ := e
  subst hr
  cases typ with
  | mapping => exact Or.inl ⟨rfl, ps, rfl, h.2.1, h.2.2.2⟩
  | splitPoints => exact Or.inr ⟨rfl, rfl, h.2.1⟩

theorem edge_okArray {e : AEdge} (h : e.WF) {rows : List (Option Int)} (hr : rows = e.values.elems) :
    (encodeEdge e.typ e.parentSize).OkArray rows := by
  obtain ⟨typ, ps, cs, d⟩ := e
  subst hr
  cases typ with
  | mapping => exact Or.inl ⟨rfl, ps, rfl, h.2.1, h.2.2.2⟩
  | splitPoints => exact Or.inr ⟨rfl, h.2.1⟩

theorem encodeEdge_inj {t t' : Edge.EType} {n n' : Int} (h : encodeEdge t n = encodeEdge t' n') :
    t = t' ∧ (t = .mapping → n = n') := by
  cases t <;> cases t' <;> simp_all [encodeEdge]

/-- A well-formed edge is determined by its type, its rows and, for a mapping, the number of parents. -/
theorem edge_sizes {e e' : Edge.Edge} (h : Edge.WF e) (h' : Edge.WF e') (ht : e'.typ = e.typ)
    (hp : e.typ = .mapping → e'.parentSize = e.parentSize) (hr : elems e'.values = elems e.values) :
    e'.parentSize = e.parentSize ∧ e'.childSize = e.childSize := by
  obtain ⟨typ, ps, cs, d⟩ := e
  obtain ⟨typ', ps', cs', d'⟩ := e'
  dsimp only at ht hp hr
  subst ht
  cases typ' with
  | mapping =>
    refine ⟨hp rfl, ?_⟩
    have h1 := h.2.2.1
    have h2 := h'.2.2.1
    dsimp only at h1 h2 ⊢
    rw [h1, h2, hr]
  | splitPoints =>
    have h1 := h.2.2
    have h2 := h'.2.2
    dsimp only at h1 h2 ⊢
    rw [hr] at h2
    refine ⟨by omega, ?_⟩
    have := h1.2.symm.trans h2.2
    simpa using this.symm

theorem aedge_sizes {e e' : AEdge} (h : e.WF) (h' : e'.WF) (ht : e'.typ = e.typ)
    (hp : e.typ = .mapping → e'.parentSize = e.parentSize) (hr : e'.values.elems = e.values.elems) :
    e'.parentSize = e.parentSize ∧ e'.childSize = e.childSize := by
  obtain ⟨typ, ps, cs, d⟩ := e
  obtain ⟨typ', ps', cs', d'⟩ := e'
  dsimp only at ht hp hr
  subst ht
  cases typ' with
  | mapping =>
    refine ⟨hp rfl, ?_⟩
    have h1 := h.2.2.1
    have h2 := h'.2.2.1
    dsimp only at h1 h2 ⊢
    rw [h1, h2, hr]
  | splitPoints =>
    have h1 := h.2.2
    have h2 := h'.2.2
    dsimp only at h1 h2 ⊢
    rw [hr] at h2
    refine ⟨by omega, ?_⟩
    have := h1.2.symm.trans h2.2
    simpa using this.symm

theorem rel_of_elems {e e' : Edge.Edge} (ht : e'.typ = e.typ) (hr : elems e'.values = elems e.values) (c p : Nat) :
    Edge.Rel e' c p ↔ Edge.Rel e c p := by
  unfold Edge.Rel
  rw [ht]
  simp only [elem_of_elems_eq hr]

theorem arel_of_elems {e e' : AEdge} (ht : e'.typ = e.typ) (hr : e'.values.elems = e.values.elems) (c p : Nat) :
    e'.Rel c p ↔ e.Rel c p := by
  unfold AEdge.Rel
  rw [ht, hr]

end Verif.Codec
