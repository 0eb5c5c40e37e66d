import Verif.Codec.EdgeCodecLemmas

/-!
# C111, C112: serialization of arrays and edges
-/

namespace Verif.Codec
open Verif.Bits Verif.Bitmap Verif.Dense Verif.Arr

variable {α : Type}

/-! ## C111: arrays -/

/-- C111: decoding what an array and its input values are encoded to gives an array with the same rows. -/
theorem array_round_trip (mem : Nat → α) {a : Arr α} (hv : a.Valid) (hn : (a.data.size : Int) + 32 ≤ Edge.maxI64) :
    ∃ b, sendArray mem a = some b ∧ b.Valid ∧ b.elems = a.elems := sendArray_spec mem hv hn

/-- A slice: rows 1 and 3 of four are stored, with ids from 100; others are 7. -/
def sliced : Arr Nat := ⟨4, ⟨.partial', [101, 103], 100⟩, ⟨[5, 6], [0b01], 0⟩, some 7⟩

theorem sliced_valid : sliced.Valid := ⟨⟨by decide, Or.inr (by decide)⟩, by
  refine ⟨by decide, by decide, by decide, ?_⟩
  intro x hx
  have : x = 1 ∨ x = 3 := by simpa [sliced, Filter.zids] using hx
  show 0 ≤ x ∧ x < 4
  omega, rfl⟩

example : ∃ b, sendArray (fun _ => 0) sliced = some b ∧ b.elems = [some 7, some 5, some 7, none] := by
  obtain ⟨b, h1, _, h2⟩ := array_round_trip (fun _ => 0) sliced_valid (by decide)
  exact ⟨b, h1, by rw [h2]; decide +kernel⟩

/-- C111: the fingerprint is kept if the array is not empty and the ids do not have an offset. -/
theorem array_fingerprint_kept_partial (mem : Nat → α) {a : Arr α} (hv : a.Valid) (hn : (a.data.size : Int) + 32 ≤ Edge.maxI64)
    (h0 : 0 < a.size) (ho : a.flt.off = 0) :
    ∃ b, sendArray mem a = some b ∧ b.fingerprintTokens = a.fingerprintTokens := sendArray_fingerprint mem hv hn h0 ho

example : ∃ b, sendArray (fun _ => 0) (⟨3, ⟨.partial', [1], 0⟩, ⟨[5], [], 0⟩, none⟩ : Arr Nat) = some b ∧
    b.fingerprintTokens = (⟨3, ⟨.partial', [1], 0⟩, ⟨[5], [], 0⟩, none⟩ : Arr Nat).fingerprintTokens :=
  array_fingerprint_kept_partial _ ⟨⟨by decide, Or.inl rfl⟩, ⟨by decide, by decide, by decide, by decide⟩, rfl⟩ (by decide)
    (by decide) rfl

/-- C111: the fingerprint of a slice is not kept: the encoder writes the ids without their offset. -/
theorem array_fingerprint_counterexample :
    ∃ b, sendArray (fun _ => 0) sliced = some b ∧ b.elems = sliced.elems ∧ b.fingerprintTokens ≠ sliced.fingerprintTokens :=
  ⟨⟨4, ⟨.partial', [1, 3], 0⟩, ⟨[5, 0], [0b01], 0⟩, some 7⟩, by decide +kernel, by decide +kernel, by decide +kernel⟩

/-- C111: the fingerprint of an empty array with a value for missing ids is not kept either. -/
theorem empty_array_fingerprint_counterexample :
    ∃ b, sendArray (fun _ => 0) (Arr.ofConst 0 (some 7) : Arr Nat) = some b ∧ (Arr.ofConst 0 (some 7) : Arr Nat).Valid ∧
      b.elems = (Arr.ofConst 0 (some 7) : Arr Nat).elems ∧
      b.fingerprintTokens ≠ (Arr.ofConst 0 (some 7) : Arr Nat).fingerprintTokens :=
  ⟨Arr.ofConst 0 none, by decide +kernel, ofConst_valid _ _, by decide +kernel, by decide +kernel⟩

/-- C111: any message with any input values is decoded iff it says what the rows are, and then to a valid array of these rows;
otherwise an error is returned. -/
theorem decode_array_exact (m : AMsg) (inputs : List (TV α)) (hin : InputsOk inputs) :
    (∀ rows, m.Says inputs rows → ∃ a, decodeArray m inputs = some (.ok a) ∧ a.Valid ∧ a.elems = rows) ∧
    ((¬ ∃ rows, m.Says inputs rows) → ∃ e, decodeArray m inputs = some (.error e)) :=
  ⟨fun _ h => decodeArray_ok hin h, decodeArray_error⟩

example : (∃ a, decodeArray ⟨some 4, [0, 2]⟩ [TV.dense (⟨[5, 6], [], 0⟩ : DArr Nat), .opt none] = some (.ok a) ∧
      a.elems = [some 5, none, some 6, none]) ∧
    ∃ e, decodeArray ⟨some 4, [2, 2]⟩ [TV.dense (⟨[5, 6], [], 0⟩ : DArr Nat), .opt none] = some (.error e) := by
  have hin : InputsOk [TV.dense (⟨[5, 6], [], 0⟩ : DArr Nat), .opt none] := by
    intro d hd
    simp at hd
    subst hd
    exact ⟨by decide, Or.inl rfl⟩
  constructor
  · obtain ⟨a, h1, _, h2⟩ := (decode_array_exact ⟨some 4, [0, 2]⟩ _ hin).1 _
      (AMsg.Says.sparse 4 [0, 2] (⟨[5, 6], [], 0⟩ : DArr Nat) none (by decide) (by decide) (by decide) (by
        intro x hx
        have : x = 0 ∨ x = 2 := by simpa using hx
        omega))
    exact ⟨a, h1, by rw [h2]; decide +kernel⟩
  · apply (decode_array_exact ⟨some 4, [2, 2]⟩ _ hin).2
    rintro ⟨rows, h⟩
    generalize hm : (⟨some 4, [2, 2]⟩ : AMsg) = m at h
    generalize hins : [TV.dense (⟨[5, 6], [], 0⟩ : DArr Nat), .opt none] = ins at h
    cases h with
    | empty => simp at hm
    | dense d h => simp at hm
    | sparse n ids d miss h hl hi hr =>
      have : ids = [2, 2] := (congrArg AMsg.ids hm).symm
      subst this
      exact absurd hi (by decide)

/-! ## C112: edges -/

/-- An edge of dense arrays is encoded and decoded, with its values. -/
def sendDenseEdge (mem : Nat → Int) (e : Edge.Edge) : Option (Except String Edge.Edge) :=
  match send mem (.dense e.values) with
  | none => none
  | some v => decodeDenseEdge (encodeEdge e.typ e.parentSize) [v]

/-- An edge of arrays is encoded and decoded, with its values. -/
def sendArrayEdge (env : Env) (e : AEdge) : Option (Except String AEdge) :=
  match sendArray env.mem e.values with
  | none => none
  | some a => decodeArrayEdge env (encodeEdge e.typ e.parentSize) [.array a]

/-- C112: decoding an encoded edge of dense arrays gives an edge of the same type and sizes with the same rows, which relates
the same children and parents. -/
theorem dense_edge_round_trip (mem : Nat → Int) {e : Edge.Edge} (h : Edge.WF e) (hn : (e.values.size : Int) + 32 ≤ Edge.maxI64) :
    ∃ e', sendDenseEdge mem e = some (.ok e') ∧ Edge.WF e' ∧ e'.typ = e.typ ∧ e'.parentSize = e.parentSize ∧
      e'.childSize = e.childSize ∧ elems e'.values = elems e.values ∧ ∀ c p, Edge.Rel e' c p ↔ Edge.Rel e c p := by
  obtain ⟨d, h1, h2, h3⟩ := send_dense mem h.1 hn
  obtain ⟨e', h4, h5, h6, h7⟩ := decodeDenseEdge_ok h2 (edge_okDense h h3)
  obtain ⟨ht, hp⟩ := encodeEdge_inj h7
  have hr : elems e'.values = elems e.values := by rw [h6, h3]
  obtain ⟨hs1, hs2⟩ := edge_sizes h h5 ht.symm (fun hm => (hp hm).symm) hr
  refine ⟨e', ?_, h5, ht.symm, hs1, hs2, hr, rel_of_elems ht.symm hr⟩
  unfold sendDenseEdge
  rw [h1]
  exact h4

/-- C112: the same for edges of arrays. -/
theorem array_edge_round_trip (env : Env) (hpe : PtrEq env.pe) {e : AEdge} (h : e.WF)
    (hn : (e.values.data.size : Int) + 32 ≤ Edge.maxI64) :
    ∃ e', sendArrayEdge env e = some (.ok e') ∧ e'.WF ∧ e'.typ = e.typ ∧ e'.parentSize = e.parentSize ∧
      e'.childSize = e.childSize ∧ e'.values.elems = e.values.elems ∧ ∀ c p, e'.Rel c p ↔ e.Rel c p := by
  obtain ⟨a, h1, h2, h3⟩ := sendArray_spec env.mem h.1 hn
  obtain ⟨e', h4, h5, h6, h7, h8⟩ := decodeArrayEdge_ok env hpe h2 (edge_okArray h h3)
  have ht : e'.typ = e.typ := by
    cases h9 : e'.typ <;> cases h10 : e.typ <;> rw [h9, h10] at h7 <;> first | rfl | simp [encodeEdge] at h7
  have hr : e'.values.elems = e.values.elems := by rw [h6, h3]
  have hp : e.typ = .mapping → e'.parentSize = e.parentSize := by
    intro hm
    have := h8 (by rw [ht, hm])
    rw [hm] at this
    simpa [encodeEdge] using this.symm
  obtain ⟨hs1, hs2⟩ := aedge_sizes h h5 ht hp hr
  refine ⟨e', ?_, h5, ht, hs1, hs2, hr, arel_of_elems ht hr⟩
  unfold sendArrayEdge
  rw [h1]
  exact h4

/-- An edge whose values are sparse: only child 2 of four has a parent. -/
example : ∃ e', sendArrayEdge ⟨fun _ => 0, fun _ => 0, fun _ _ => false⟩
      ⟨.mapping, 3, 4, ⟨4, ⟨.partial', [2], 0⟩, ⟨[1], [], 0⟩, none⟩⟩ = some (.ok e') ∧ e'.Rel 2 1 ∧ e'.childSize = 4 := by
  have hel : (⟨4, ⟨.partial', [2], 0⟩, ⟨[1], [], 0⟩, none⟩ : Arr Int).elems = [none, none, some 1, none] := by decide +kernel
  obtain ⟨e', h1, _, _, _, h2, _, h3⟩ := array_edge_round_trip ⟨fun _ => 0, fun _ => 0, fun _ _ => false⟩
    (by intro a b h; exact absurd h (by simp))
    (e := ⟨.mapping, 3, 4, ⟨4, ⟨.partial', [2], 0⟩, ⟨[1], [], 0⟩, none⟩⟩)
    ⟨⟨⟨by decide, Or.inl rfl⟩, ⟨by decide, by decide, by decide, by decide⟩, rfl⟩, by decide, by decide +kernel, by
      intro v hv
      dsimp only at hv
      rw [hel] at hv
      have : v = 1 := by simpa using hv
      subst this
      decide⟩ (by decide)
  refine ⟨e', h1, (h3 2 1).2 ?_, h2⟩
  show (⟨4, ⟨.partial', [2], 0⟩, ⟨[1], [], 0⟩, none⟩ : Arr Int).elems[2]? = some (some 1)
  rw [hel]
  rfl

/-- C112: any message with any input values is decoded to a well-formed edge of dense arrays iff it describes one, and gives an
error otherwise. -/
theorem decode_dense_edge_exact (m : EMsg) (inputs : List (TV Int)) (hin : InputsOk inputs) :
    (∀ d, inputs = [.dense d] → m.OkDense (elems d) →
      ∃ e, decodeDenseEdge m inputs = some (.ok e) ∧ Edge.WF e ∧ e.values = d ∧ m = encodeEdge e.typ e.parentSize) ∧
    ((¬ ∃ d, inputs = [.dense d] ∧ m.OkDense (elems d)) → ∃ e, decodeDenseEdge m inputs = some (.error e)) := by
  refine ⟨?_, decodeDenseEdge_error hin⟩
  rintro d rfl h
  exact decodeDenseEdge_ok (hin d (by simp)) h

example : (∃ e, decodeDenseEdge ⟨some .splitPoints, none⟩ [.dense ⟨[0, 2, 5], [], 0⟩] = some (.ok e) ∧ Edge.WF e) ∧
    ∃ e, decodeDenseEdge ⟨some .splitPoints, none⟩ [.dense ⟨[0, 5, 2], [], 0⟩] = some (.error e) := by
  have hin : ∀ l, InputsOk [TV.dense (⟨l, [], 0⟩ : DArr Int)] := by
    intro l d hd
    simp at hd
    subst hd
    exact ⟨by show 0 < 32; decide, Or.inl rfl⟩
  constructor
  · obtain ⟨e, h1, h2, _⟩ := (decode_dense_edge_exact ⟨some .splitPoints, none⟩ _ (hin [0, 2, 5])).1 _ rfl
      (Or.inr ⟨rfl, rfl, [0, 2, 5], by decide +kernel, rfl, by decide⟩)
    exact ⟨e, h1, h2⟩
  · apply (decode_dense_edge_exact ⟨some .splitPoints, none⟩ _ (hin [0, 5, 2])).2
    rintro ⟨d, h1, h2⟩
    simp at h1
    subst h1
    rcases h2 with h2 | ⟨_, _, sp, h3, _, h4⟩
    · exact absurd h2.1 (by decide)
    · have he : elems (⟨[0, 5, 2], [], 0⟩ : DArr Int) = [0, 5, 2].map some := by decide +kernel
      rw [he] at h3
      have := List.map_injective_iff.2 (fun _ _ h => Option.some.inj h) h3
      subst this
      exact absurd h4 (by decide)

/-- C112: the same for edges of arrays; here a size given with split points is ignored. -/
theorem decode_array_edge_exact (env : Env) (hpe : PtrEq env.pe) (m : EMsg) (inputs : List AV)
    (hin : ∀ a, AV.array a ∈ inputs → a.Valid) :
    (∀ a, inputs = [.array a] → m.OkArray a.elems →
      ∃ e, decodeArrayEdge env m inputs = some (.ok e) ∧ e.WF ∧ e.values.elems = a.elems ∧
        m.edgeType = (encodeEdge e.typ e.parentSize).edgeType ∧ (e.typ = .mapping → m.parentSize = some e.parentSize)) ∧
    ((¬ ∃ a, inputs = [.array a] ∧ m.OkArray a.elems) → ∃ e, decodeArrayEdge env m inputs = some (.error e)) := by
  refine ⟨?_, decodeArrayEdge_error env hpe hin⟩
  rintro a rfl h
  exact decodeArrayEdge_ok env hpe (hin a (by simp)) h

example : ∃ e, decodeArrayEdge ⟨fun _ => 0, fun _ => 0, fun _ _ => false⟩ ⟨some .splitPoints, some 77⟩
    [.array (Arr.ofConst 2 (some 0))] = some (.ok e) ∧ e.WF := by
  obtain ⟨e, h1, h2, _⟩ := (decode_array_edge_exact ⟨fun _ => 0, fun _ => 0, fun _ _ => false⟩
    (by intro a b h; exact absurd h (by simp)) ⟨some .splitPoints, some 77⟩ [.array (Arr.ofConst 2 (some 0))]
    (by intro a ha; simp at ha; subst ha; exact ofConst_valid _ _)).1 _ rfl
    (Or.inr ⟨rfl, [0, 0], by decide +kernel, rfl, by decide⟩)
  exact ⟨e, h1, h2⟩

/-- C112: the constructors of edges of arrays accept exactly the well-formed split points and mappings. -/
theorem array_edge_accepts (env : Env) (hpe : PtrEq env.pe) {a : Arr Int} (hv : a.Valid) (n : Int) :
    ((Edge.SplitOk a.elems → ∃ e, arrayFromSplitPoints env a = some (.ok e) ∧ e.typ = .splitPoints ∧
        e.values.elems = a.elems ∧ e.WF) ∧
      (¬ Edge.SplitOk a.elems → ∃ m, arrayFromSplitPoints env a = some (.error m))) ∧
    ((0 ≤ n ∧ Edge.MapOk a.elems n → ∃ e, arrayFromMapping a n = some (.ok e) ∧ e.typ = .mapping ∧
        e.values = a ∧ e.parentSize = n ∧ e.WF) ∧
      (¬ (0 ≤ n ∧ Edge.MapOk a.elems n) → ∃ m, arrayFromMapping a n = some (.error m))) :=
  ⟨arrayFromSplitPoints_spec env hpe hv, arrayFromMapping_spec hv n⟩

/-- The value for missing ids counts: all rows are mapped to parent 3 of three. -/
example : ∃ m, arrayFromMapping (Arr.ofConst 5 (some 3)) 3 = some (.error m) := by
  apply (array_edge_accepts ⟨fun _ => 0, fun _ => 0, fun _ _ => false⟩ (by intro a b h; exact absurd h (by simp))
    (ofConst_valid 5 (some 3)) 3).2.2
  rintro ⟨_, h⟩
  have he : (Arr.ofConst 5 (some 3) : Arr Int).elems = [some 3, some 3, some 3, some 3, some 3] := by decide +kernel
  have := h 3 (by rw [he]; simp)
  omega

/-- C112: scalar edges and shapes: the size is kept, and a negative one is an error. -/
theorem count_exact (n : Int) : (0 ≤ n → decodeCount n = .ok n) ∧ (n < 0 → ∃ e, decodeCount n = .error e) := by
  unfold decodeCount
  constructor
  · intro h
    rw [if_neg (by omega)]
  · intro h
    rw [if_pos h]
    exact ⟨_, rfl⟩

example : decodeCount 5 = .ok 5 ∧ ∃ e, decodeCount (-1) = .error e := ⟨(count_exact 5).1 (by decide), (count_exact (-1)).2 (by decide)⟩

end Verif.Codec
