import Verif.Codec.ArrayCodecSpec
import Verif.Codec.DenseCodecLemmas
import Verif.Arr.ArrayProps
import Verif.Arr.BuildLemmas
import Verif.Edge.EdgeProps

/-!
# Lemmas on the codecs of arrays and edges
-/

namespace Verif.Codec
open Verif.Bits Verif.Bitmap Verif.Dense Verif.Arr

variable {α : Type}

theorem send_dense (mem : Nat → α) {d : DArr α} (hv : d.Valid) (hn : (d.size : Int) + 32 ≤ Edge.maxI64) :
    ∃ d', send mem (.dense d) = some (.dense d') ∧ d'.Valid ∧ elems d' = elems d := by
  obtain ⟨ws, h1, h2⟩ := encodeDense_spec hv hn
  have hs : (⟨some (d.size : Int), ws, (elems d).filterMap id⟩ : DMsg α).Says (elems d) := by
    have := packs_says h2
    rwa [elems_length] at this
  obtain ⟨a, h3, h4, h5⟩ := decodeDense_ok mem (Or.inr (fun n hn' => by
    simp only [Option.some.injEq] at hn'; omega)) hs
  refine ⟨a, ?_, h4, h5⟩
  simp only [send, h1, h3]

theorem elem_of_elems_eq {d d' : DArr α} (h : elems d' = elems d) (i : Nat) : elem d' i = elem d i := by
  have hl : d'.values.length = d.values.length := by rw [← elems_length, h, elems_length]
  by_cases hi : i < d.values.length
  · apply elem_of_elems h
    rw [elems_get?, if_pos hi]
  · rw [elem_ge (by omega), elem_ge (by omega)]

theorem size_of_elems_eq {d d' : DArr α} (h : elems d' = elems d) : d'.size = d.size := by
  show d'.values.length = d.values.length
  rw [← elems_length, h, elems_length]

/-! ## Decoding -/

theorem adjacentGe_false : ∀ {l : List Int}, adjacentGe l = false ↔ l.Pairwise (· < ·)
  | [] => by simp [adjacentGe]
  | [x] => by simp [adjacentGe]
  | x :: y :: t => by
    have ih := adjacentGe_false (l := y :: t)
    unfold adjacentGe
    rw [Bool.or_eq_false_iff, ih, decide_eq_false_iff_not]
    constructor
    · rintro ⟨h1, h2⟩
      rw [List.pairwise_cons]
      refine ⟨?_, h2⟩
      intro z hz
      rcases List.mem_cons.1 hz with rfl | hz
      · omega
      · have := (List.pairwise_cons.1 h2).1 z hz
        omega
    · intro h
      rw [List.pairwise_cons] at h
      have := h.1 y List.mem_cons_self
      exact ⟨by omega, h.2⟩

theorem decodeIds_spec (k n : Nat) (ids : List Int) :
    (ids.length = k ∧ ids.Pairwise (· < ·) ∧ (∀ x ∈ ids, 0 ≤ x ∧ x < n) → decodeIds k n ids = some (.ok ids)) ∧
    (¬ (ids.length = k ∧ ids.Pairwise (· < ·) ∧ (∀ x ∈ ids, 0 ≤ x ∧ x < n)) → ∃ e, decodeIds k n ids = some (.error e)) := by
  unfold decodeIds
  by_cases hl : ids.length = k
  · rw [if_neg (by simpa using hl)]
    by_cases he : ids = []
    · rw [if_neg (by simpa using he)]
      refine ⟨fun _ => rfl, fun h => ?_⟩
      exact absurd ⟨hl, by rw [he]; exact List.Pairwise.nil, by rw [he]; simp⟩ h
    · rw [if_pos he]
      have hpos : 0 < ids.length := List.length_pos_iff.2 he
      cases hadj : adjacentGe ids with
      | true =>
        rw [if_pos rfl]
        refine ⟨fun h => ?_, fun _ => ⟨_, rfl⟩⟩
        have := adjacentGe_false.2 h.2.1
        rw [hadj] at this
        exact absurd this (by simp)
      | false =>
        rw [if_neg (by simp)]
        have hinc := adjacentGe_false.1 hadj
        rw [List.getElem?_eq_getElem hpos, List.getElem?_eq_getElem (show k - 1 < ids.length by omega)]
        simp only [Option.bind_eq_bind, Option.bind_some]
        have hall : (∀ x ∈ ids, 0 ≤ x ∧ x < (n : Int)) ↔ 0 ≤ ids[0] ∧ ids[k - 1]'(by omega) < n := by
          constructor
          · intro h
            exact ⟨(h _ (List.getElem_mem _)).1, (h _ (List.getElem_mem _)).2⟩
          · rintro ⟨h1, h2⟩ x hx
            obtain ⟨i, hi, rfl⟩ := List.mem_iff_getElem.1 hx
            have h3 : ids[0] ≤ ids[i] := by
              rcases Nat.eq_zero_or_pos i with h0 | h0
              · subst h0; omega
              · have := (List.pairwise_iff_getElem.1 hinc) 0 i hpos hi h0; omega
            have h4 : ids[i] ≤ ids[k - 1]'(by omega) := by
              rcases Nat.lt_or_ge i (k - 1) with h0 | h0
              · have := (List.pairwise_iff_getElem.1 hinc) i (k - 1) hi (by omega) h0; omega
              · have : i = k - 1 := by omega
                subst this; omega
            omega
        by_cases h0 : ids[0] < 0
        · rw [if_pos h0]
          refine ⟨fun h => ?_, fun _ => ⟨_, rfl⟩⟩
          have := (hall.1 h.2.2).1
          omega
        · rw [if_neg h0]
          by_cases h1 : ids[k - 1]'(by omega) ≥ n
          · rw [if_pos h1]
            refine ⟨fun h => ?_, fun _ => ⟨_, rfl⟩⟩
            have := (hall.1 h.2.2).2
            omega
          · rw [if_neg h1]
            refine ⟨fun _ => rfl, fun h => ?_⟩
            exact absurd ⟨hl, hinc, hall.2 ⟨by omega, by omega⟩⟩ h
  · rw [if_pos hl]
    exact ⟨fun h => absurd h.1 hl, fun _ => ⟨_, rfl⟩⟩

theorem make_elems {n : Nat} {ids : List Int} {d : DArr α} {miss : Option α} (hd : d.Valid) (hl : ids.length = d.size)
    (hi : ids.Pairwise (· < ·)) (hr : ∀ x ∈ ids, 0 ≤ x ∧ x < n) :
    (Arr.make n (mkFilter n ids 0) d miss).Valid ∧
    (Arr.make n (mkFilter n ids 0) d miss).elems = (List.range n).map fun (i : Nat) => match ids.idxOf? (i : Int) with
      | some o => elem d o
      | none => miss := by
  obtain ⟨h1, _, h3, h4⟩ := make_spec (n := n) (off := 0) hi (fun x hx => by have := hr x hx; omega) hd hl.symm miss
  refine ⟨h1, ?_⟩
  unfold Arr.elems
  apply List.map_congr_left
  intro i hi'
  have hin : i < n := List.mem_range.1 hi'
  cases ho : ids.idxOf? (i : Int) with
  | some o =>
    dsimp only
    apply h3
    rw [Int.add_zero]
    exact (idxOf?_inc hi).1 ho
  | none =>
    dsimp only
    apply h4 i hin
    rw [Int.add_zero]
    exact idxOf?_none.1 ho

theorem decodeArray_ok {m : AMsg} {inputs : List (TV α)} {rows : List (Option α)} (hin : InputsOk inputs) (h : m.Says inputs rows) :
    ∃ a, decodeArray m inputs = some (.ok a) ∧ a.Valid ∧ a.elems = rows := by
  cases h with
  | empty => exact ⟨_, rfl, ofConst_valid _ _, rfl⟩
  | dense d h =>
    have hd := hin d (by simp)
    unfold decodeArray decodeSize
    dsimp only
    rw [if_neg (by omega)]
    dsimp only
    rw [Int.toNat_natCast, if_neg (by omega)]
    rw [if_neg (by omega), if_pos rfl, if_neg (by simp), if_neg (by simp)]
    refine ⟨_, rfl, ofDense_valid hd, ?_⟩
    rfl
  | sparse n ids d miss h hl hi hr =>
    have hd := hin d (by simp)
    unfold decodeArray decodeSize
    dsimp only
    rw [if_neg (by omega)]
    dsimp only
    rw [Int.toNat_natCast, if_neg (by omega)]
    rw [if_neg (by omega), if_neg (by omega), if_neg (by simp), (decodeIds_spec d.size n ids).1 ⟨hl, hi, hr⟩]
    obtain ⟨h1, h2⟩ := make_elems (miss := miss) hd hl hi hr
    exact ⟨_, rfl, h1, h2⟩

theorem decodeArray_error {m : AMsg} {inputs : List (TV α)} (h : ¬ ∃ rows, m.Says inputs rows) :
    ∃ e, decodeArray m inputs = some (.error e) := by
  obtain ⟨size, ids⟩ := m
  unfold decodeArray decodeSize
  cases size with
  | none => exact ⟨_, rfl⟩
  | some n =>
    dsimp only
    by_cases hneg : n < 0
    · rw [if_pos hneg]; exact ⟨_, rfl⟩
    · rw [if_neg hneg]
      obtain ⟨n, rfl⟩ : ∃ k : Nat, n = k := ⟨n.toNat, by omega⟩
      dsimp only
      rw [Int.toNat_natCast]
      by_cases h0 : n = 0
      · subst h0
        rw [if_pos rfl]
        by_cases hi : inputs.length ≠ 0
        · rw [if_pos hi]; exact ⟨_, rfl⟩
        · rw [if_neg hi]
          by_cases hids : ids ≠ []
          · rw [if_pos hids]; exact ⟨_, rfl⟩
          · have e1 : inputs = [] := List.length_eq_zero_iff.1 (by omega)
            have e2 : ids = [] := by simpa using hids
            subst e1 e2
            exact absurd ⟨_, AMsg.Says.empty⟩ h
      · rw [if_neg h0]
        match inputs, h with
        | [], _ => exact ⟨_, rfl⟩
        | .opt _ :: _, _ => exact ⟨_, rfl⟩
        | .other :: _, _ => exact ⟨_, rfl⟩
        | .dense d :: rest, h =>
          dsimp only
          by_cases h1 : d.size > n
          · rw [if_pos h1]; exact ⟨_, rfl⟩
          · rw [if_neg h1]
            by_cases h2 : d.size = n
            · rw [if_pos h2]
              by_cases h3 : rest ≠ []
              · rw [if_pos h3]; exact ⟨_, rfl⟩
              · rw [if_neg h3]
                by_cases h4 : ids ≠ []
                · rw [if_pos h4]; exact ⟨_, rfl⟩
                · have e1 : rest = [] := by simpa using h3
                  have e2 : ids = [] := by simpa using h4
                  subst e1 e2 h2
                  exact absurd ⟨_, AMsg.Says.dense d (by omega)⟩ h
            · rw [if_neg h2]
              match rest, h with
              | [], _ => exact ⟨_, rfl⟩
              | .dense _ :: _, _ => exact ⟨_, rfl⟩
              | .other :: _, _ => exact ⟨_, rfl⟩
              | .opt miss :: rest, h =>
                dsimp only
                by_cases h3 : rest ≠ []
                · rw [if_pos h3]; exact ⟨_, rfl⟩
                · rw [if_neg h3]
                  have e1 : rest = [] := by simpa using h3
                  subst e1
                  obtain ⟨e, he⟩ := (decodeIds_spec d.size n ids).2 (fun hc =>
                    h ⟨_, AMsg.Says.sparse n ids d miss (by omega) hc.1 hc.2.1 hc.2.2⟩)
                  rw [he]
                  exact ⟨e, rfl⟩

/-! ## Round trip -/

theorem encodeArray_cases {a : Arr α} (hv : a.Valid) :
    (a.size = 0 ∧ encodeArray a = (⟨some 0, []⟩, [])) ∨
    (0 < a.size ∧ a.flt.typ = .full ∧ a.data.size = a.size ∧ encodeArray a = (⟨some (a.size : Int), []⟩, [.dense a.data])) ∨
    (0 < a.size ∧ a.flt.typ ≠ .full ∧ a.data.size < a.size ∧ a.flt.zids.length = a.data.size ∧ a.flt.zids.Pairwise (· < ·) ∧
      (∀ x ∈ a.flt.zids, 0 ≤ x ∧ x < a.size) ∧
      encodeArray a = (⟨some (a.size : Int), a.flt.zids⟩, [.dense a.data, .opt a.miss])) := by
  unfold encodeArray
  rcases Nat.eq_zero_or_pos a.size with h0 | h0
  · left
    refine ⟨h0, ?_⟩
    rw [if_neg (by omega), h0]
    rfl
  · right
    rw [if_pos h0]
    cases ht : a.flt.typ with
    | full =>
      left
      have := (valid_full hv ht).1
      refine ⟨h0, rfl, this, ?_⟩
      rw [if_pos (show a.data.size = a.size from this)]
    | empty =>
      right
      have h1 := valid_empty hv ht
      have h2 : a.flt.ids = [] := by
        have := hv.2.1
        unfold Filter.Valid at this
        rw [ht] at this
        exact this.1
      have hs : a.data.size = 0 := by unfold DArr.size; rw [h1]; rfl
      have hz : a.flt.zids = [] := by unfold Filter.zids; rw [h2]; rfl
      refine ⟨h0, by simp, by omega, by rw [hz, hs]; rfl, by rw [hz]; exact List.Pairwise.nil, by rw [hz]; simp, ?_⟩
      rw [if_neg (by omega)]
      rfl
    | partial' =>
      right
      have h1 := valid_partial hv ht
      have h2 := hv.2.1
      unfold Filter.Valid at h2
      rw [ht] at h2
      have hs : a.data.size = a.flt.ids.length := h1
      refine ⟨h0, by simp, by have := h2.2.1; omega, by rw [zids_length, hs], h2.2.2.1, h2.2.2.2, ?_⟩
      rw [if_neg (by have := h2.2.1; omega)]
      rfl

theorem encodeArray_says {a : Arr α} (hv : a.Valid) :
    (encodeArray a).1.Says (encodeArray a).2 a.elems ∧ InputsOk (encodeArray a).2 := by
  rcases encodeArray_cases hv with ⟨h0, he⟩ | ⟨h0, ht, hs, he⟩ | ⟨h0, ht, hs, hl, hi, hr, he⟩
  · rw [he]
    refine ⟨?_, by intro d hd; simp at hd⟩
    have : a.elems = [] := List.length_eq_zero_iff.1 (by rw [aelems_length, h0])
    rw [this]
    exact AMsg.Says.empty
  · rw [he]
    refine ⟨?_, by intro d hd; simp at hd; rw [hd]; exact hv.1⟩
    have : a.elems = elems a.data := by
      unfold Arr.elems elems
      rw [show a.data.values.length = a.size from hs]
      apply List.map_congr_left
      intro i _
      unfold Arr.elem
      rw [ht]
    rw [this, ← hs]
    exact AMsg.Says.dense a.data (by omega)
  · rw [he]
    refine ⟨?_, by intro d hd; simp at hd; rw [hd]; exact hv.1⟩
    have : a.elems = (List.range a.size).map fun (i : Nat) => match a.flt.zids.idxOf? (i : Int) with
        | some o => elem a.data o
        | none => a.miss := by
      unfold Arr.elems
      apply List.map_congr_left
      intro i _
      unfold Arr.elem
      cases ht' : a.flt.typ with
      | full => exact absurd ht' ht
      | partial' => rfl
      | empty =>
        have : a.flt.zids = [] := by
          have := hv.2.1
          unfold Filter.Valid at this
          rw [ht'] at this
          unfold Filter.zids; rw [this.1]; rfl
        rw [this]
        rfl
    rw [this]
    exact AMsg.Says.sparse a.size a.flt.zids a.data a.miss hs hl hi hr

/-- The input values after they are encoded and decoded. -/
theorem send_says (mem : Nat → α) {m : AMsg} {inputs : List (TV α)} {rows : List (Option α)} (h : m.Says inputs rows)
    (hin : InputsOk inputs) (hn : ∀ d, TV.dense d ∈ inputs → (d.size : Int) + 32 ≤ Edge.maxI64) :
    ∃ inputs', inputs.mapM (send mem) = some inputs' ∧ InputsOk inputs' ∧ m.Says inputs' rows := by
  cases h with
  | empty => exact ⟨[], rfl, hin, AMsg.Says.empty⟩
  | dense d h =>
    obtain ⟨d', h1, h2, h3⟩ := send_dense mem (hin d (by simp)) (hn d (by simp))
    refine ⟨[.dense d'], ?_, ?_, ?_⟩
    · rw [List.mapM_cons, h1]; rfl
    · intro x hx; simp at hx; rw [hx]; exact h2
    · rw [← h3, ← size_of_elems_eq h3]
      exact AMsg.Says.dense d' (by rw [size_of_elems_eq h3]; exact h)
  | sparse n ids d miss h hl hi hr =>
    obtain ⟨d', h1, h2, h3⟩ := send_dense mem (hin d (by simp)) (hn d (by simp))
    refine ⟨[.dense d', .opt miss], ?_, ?_, ?_⟩
    · rw [List.mapM_cons, h1]; rfl
    · intro x hx; simp at hx; rw [hx]; exact h2
    · have := AMsg.Says.sparse n ids d' miss (by rw [size_of_elems_eq h3]; exact h) (by rw [size_of_elems_eq h3]; exact hl) hi hr
      simp only [elem_of_elems_eq h3] at this
      exact this

theorem inputs_size {a : Arr α} (hv : a.Valid) {d : DArr α} (hd : TV.dense d ∈ (encodeArray a).2) : d = a.data := by
  rcases encodeArray_cases hv with ⟨_, he⟩ | ⟨_, _, _, he⟩ | ⟨_, _, _, _, _, _, he⟩ <;> rw [he] at hd <;> simp at hd <;> exact hd

theorem sendArray_spec (mem : Nat → α) {a : Arr α} (hv : a.Valid) (hn : (a.data.size : Int) + 32 ≤ Edge.maxI64) :
    ∃ b, sendArray mem a = some b ∧ b.Valid ∧ b.elems = a.elems := by
  obtain ⟨h1, h2⟩ := encodeArray_says hv
  obtain ⟨inputs, h3, h4, h5⟩ := send_says mem h1 h2 (fun d hd => by rw [inputs_size hv hd]; exact hn)
  obtain ⟨b, h6, h7, h8⟩ := decodeArray_ok h4 h5
  refine ⟨b, ?_, h7, h8⟩
  unfold sendArray
  rw [h3]
  dsimp only
  rw [h6]

/-! ## Fingerprints -/

theorem sendArray_fingerprint (mem : Nat → α) {a : Arr α} (hv : a.Valid) (hn : (a.data.size : Int) + 32 ≤ Edge.maxI64)
    (h0 : 0 < a.size) (ho : a.flt.off = 0) :
    ∃ b, sendArray mem a = some b ∧ b.fingerprintTokens = a.fingerprintTokens := by
  obtain ⟨d', h1, h2, h3⟩ := send_dense mem hv.1 hn
  have hs := size_of_elems_eq h3
  rcases encodeArray_cases hv with ⟨h0', _⟩ | ⟨_, ht, hs', he⟩ | ⟨_, ht, hs', hl, hi, hr, he⟩
  · omega
  · have hm : a.miss = none := (valid_full hv ht).2
    refine ⟨Arr.ofDense d', ?_, ?_⟩
    · unfold sendArray
      rw [he]
      dsimp only
      rw [List.mapM_cons, h1]
      have := AMsg.Says.dense d' (by omega)
      show (match decodeArray ⟨some (a.size : Int), []⟩ [TV.dense d'] with
        | some (.ok b) => some b
        | _ => none) = _
      unfold decodeArray decodeSize
      dsimp only
      rw [if_neg (by omega)]
      dsimp only
      rw [Int.toNat_natCast, if_neg (by omega), if_neg (by omega), if_pos (by omega), if_neg (by simp), if_neg (by simp)]
    · rw [fingerprint_arr_eq (ofDense_valid h2), fingerprint_arr_eq hv]
      have hsv : d'.values.length = a.data.values.length := hs
      have e1 : (Arr.ofDense d').size = a.size := by show d'.size = a.size; omega
      have e2 : (Arr.ofDense d').data = d' := rfl
      have e3 : (Arr.ofDense d').miss = none := rfl
      have e4 : (Arr.ofDense d').flt.typ = .full := rfl
      rw [e1, e2, e3, e4, hm, ht, h3, hsv]
      rfl
  · have hz : a.flt.zids = a.flt.ids := by
      unfold Filter.zids
      rw [ho]
      simp
    have hflt : mkFilter a.size a.flt.zids 0 = a.flt := by
      rw [hz] at hl ⊢
      unfold mkFilter
      cases ht' : a.flt.typ with
      | full => exact absurd ht' ht
      | empty =>
        have := hv.2.1
        unfold Filter.Valid at this
        rw [ht'] at this
        rw [if_pos this.1]
        rcases hf : a.flt with ⟨t, i, o⟩
        rw [hf] at ht' this ho
        dsimp only at ht' this ho ⊢
        rw [ht', ho]
      | partial' =>
        have := hv.2.1
        unfold Filter.Valid at this
        rw [ht'] at this
        rw [if_neg this.1, if_neg (by have := this.2.1; omega)]
        rcases hf : a.flt with ⟨t, i, o⟩
        rw [hf] at ht' this ho
        dsimp only at ht' this ho ⊢
        rw [ht', ho]
    have hb : sendArray mem a = some (Arr.make a.size a.flt d' a.miss) := by
      unfold sendArray
      rw [he]
      dsimp only
      rw [List.mapM_cons, h1]
      show (match decodeArray ⟨some (a.size : Int), a.flt.zids⟩ [TV.dense d', TV.opt a.miss] with
        | some (.ok b) => some b
        | _ => none) = _
      unfold decodeArray decodeSize
      dsimp only
      rw [if_neg (by omega)]
      dsimp only
      rw [Int.toNat_natCast, if_neg (by omega), if_neg (by omega), if_neg (by omega), if_neg (by simp),
        (decodeIds_spec d'.size a.size a.flt.zids).1 ⟨by omega, hi, hr⟩]
      simp only [Option.bind_eq_bind, Option.bind_some]
      rw [hflt]
    refine ⟨_, hb, ?_⟩
    have hbv : (Arr.make a.size a.flt d' a.miss).Valid := by
      have := (make_elems (miss := a.miss) h2 (by omega) hi hr).1
      rwa [hflt] at this
    rw [fingerprint_arr_eq hbv, fingerprint_arr_eq hv]
    have hsv : d'.values.length = a.data.values.length := hs
    simp only [Arr.make, h3, hsv, if_neg ht]

end Verif.Codec
