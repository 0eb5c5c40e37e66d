import Verif.StrBuf.StrBufLemmas

/-!
# Properties of StringsBuffer
-/

namespace Verif.StrBuf

/-! ## C88: a list of strings -/

/-- **C88.** Whatever calls of `Set`, `Copy`, `SetN` and `SetNConst` are made in range, with any initial size of the characters, they
succeed, and `Build(size)` gives a valid buffer with the values that the calls have set (the empty string where none was set). -/
theorem builder_refines (maxSize initialChars : Nat) (calls : List Call) (l : List (List Nat))
    (h : effects (List.replicate maxSize []) calls = some l) :
    ∃ b, runCalls (Builder.new maxSize initialChars) calls = some b ∧
      ∀ size, Holds (b.build size) (l.take size) ∧ Valid (b.build size) := by
  obtain ⟨b, e, hb⟩ := binv_calls calls (binv_new maxSize initialChars) h
  exact ⟨b, e, fun size => build_spec hb size⟩

example : effects (List.replicate 3 []) [.set 0 [97], .setNConst 1 2 [98, 99], .copy 0 2, .setN 0 [[], [100]]] =
    some [[], [100], [97]] := by decide

/-- **C88.** `Create` gives a valid buffer with the given values. -/
theorem create_refines (values : List (List Nat)) : ∃ b, create values = some b ∧ Holds b values ∧ Valid b ∧ b.base = 0 := by
  cases values with
  | nil =>
    exact ⟨Buf.empty, rfl, ⟨rfl, fun i => by simp [Buf.get, Buf.empty]⟩, ⟨by simp [Buf.empty], by simp [Buf.empty]⟩, rfl⟩
  | cons v vs =>
    obtain ⟨b, e, hb⟩ := binv_setN (v :: vs) (binv_new (v :: vs).length ((v :: vs).length * 16)) 0 (v :: vs) (by
      unfold overwrite
      rw [if_pos (by simp)]
      simp [List.drop_eq_nil_of_le])
    refine ⟨b.build (v :: vs).length, ?_, ?_, (build_spec hb _).2, ?_⟩
    · simp only [create, Builder.make, e, Option.map_some]
    · have := (build_spec hb (v :: vs).length).1
      rwa [List.take_of_length_le (Nat.le_refl _)] at this
    · simp [Builder.build]

example : (create [[97, 98], [], [99]]).map (fun b => (b.get 0, b.get 1, b.get 2, b.get 3)) =
    some (some [97, 98], some [], some [99], none) := by decide +kernel

/-- **C88.** `CreateUninitialized` gives a valid buffer of empty strings. -/
theorem uninitialized_refines (n : Nat) : Holds (createUninitialized n) (List.replicate n []) ∧ Valid (createUninitialized n) := by
  refine ⟨⟨by simp [createUninitialized], ?_⟩, ?_, by simp [createUninitialized]⟩
  · intro i
    simp only [Buf.get, createUninitialized, List.getElem?_replicate]
    by_cases c : i < n
    · simp [c, Buf.view]
    · simp [c]
  · intro o ho
    simp only [createUninitialized, List.mem_replicate] at ho
    rw [ho.2]
    simp [createUninitialized]

/-- **C88.** Every value of a valid buffer can be read, and it has only one list of values. -/
theorem valid_holds {b : Buf} (h : Valid b) : ∃ l, Holds b l ∧ ∀ l', Holds b l' → l' = l := by
  obtain ⟨l, hl⟩ := holds_of_valid h
  exact ⟨l, hl, fun l' h' => holds_unique h' hl⟩

/-- **C88.** A slice in range is valid and has the values of the slice. -/
theorem slice_refines {b : Buf} {l : List (List Nat)} (h : Holds b l) (hv : Valid b) (offset count : Nat)
    (hr : offset + count ≤ l.length) :
    ∃ b', b.slice offset count = some b' ∧ Holds b' ((l.drop offset).take count) ∧ Valid b' := by
  unfold Buf.slice
  by_cases c : count = 0
  · rw [if_pos c]
    subst c
    exact ⟨Buf.empty, rfl, ⟨by simp [Buf.empty], fun i => by simp [Buf.get, Buf.empty]⟩, by simp [Buf.empty], by simp [Buf.empty]⟩
  · have hl := h.1
    rw [if_neg c]
    simp only [sliceList, if_neg c, if_pos (show offset + count ≤ b.offsets.length by omega), Option.map_some]
    refine ⟨_, rfl, ⟨by simp [hl], ?_⟩, ?_, hv.2⟩
    · intro i
      have := h.2 (offset + i)
      simp only [Buf.get] at this ⊢
      rw [List.getElem?_take, List.getElem?_take, List.getElem?_drop, List.getElem?_drop]
      by_cases hi : i < count
      · rw [if_pos hi, if_pos hi, ← this]
        cases b.offsets[offset + i]? <;> rfl
      · rw [if_neg hi, if_neg hi]
    · intro o ho
      exact hv.1 o (List.mem_of_mem_drop (List.mem_of_mem_take ho))

/-- **C88.** `Slice(offset)` gives the values from `offset` on. -/
theorem slice_from_refines {b : Buf} {l : List (List Nat)} (h : Holds b l) (hv : Valid b) (offset : Nat) (hr : offset ≤ l.length) :
    ∃ b', b.sliceFrom offset = some b' ∧ Holds b' (l.drop offset) ∧ Valid b' := by
  have hl := h.1
  unfold Buf.sliceFrom
  rw [if_pos (by omega), hl]
  obtain ⟨b', e, h1, h2⟩ := slice_refines h hv offset (l.length - offset) (by omega)
  rw [List.take_of_length_le (by simp)] at h1
  exact ⟨b', e, h1, h2⟩

/-- **C88.** A deep copy of a valid buffer reads only characters in range, is valid and has the same values. -/
theorem deepCopy_refines {b : Buf} {l : List (List Nat)} (h : Holds b l) (hv : Valid b) :
    ∃ b', b.deepCopy = some b' ∧ Holds b' l ∧ Valid b' := by
  obtain ⟨b', e, h1, h2, h3⟩ := deepCopy_spec hv
  exact ⟨b', e, ⟨by rw [h2]; exact h.1, fun i => by rw [h3 i]; exact h.2 i⟩, h1⟩

/-- **C88.** `operator==` is the equality of the lists of values. -/
theorem equal_refines {a b : Buf} {l l' : List (List Nat)} (h : Holds a l) (h' : Holds b l') : a.equal b = some (decide (l = l')) :=
  equal_spec h h'

/-- A buffer with a base: the deep copy of a slice. -/
def sliced : Option Buf :=
  match create [[97], [120, 121, 119]] with
  | none => none
  | some b => match b.slice 1 1 with
    | none => none
    | some b => b.deepCopy

example : sliced = some ⟨[⟨1, 4⟩], [some 120, some 121, some 119], 1⟩ := by decide +kernel

/-! ## C89: reshuffling -/

theorem fill_map (f : Option Nat → Offsets) (m : List (Option Nat)) (lo hi : Nat) (j : Nat) (h1 : lo ≤ hi) (h2 : hi ≤ m.length) :
    fillOffsets (m.map f) lo (hi - lo) (f (some j)) =
      some ((m.take lo ++ List.replicate (hi - lo) (some j) ++ m.drop hi).map f) := by
  rw [fill_spec _ _ _ _ (by rw [List.length_map]; omega)]
  have e : lo + (hi - lo) = hi := by omega
  simp [e, List.map_take, List.map_drop]

/-- The offsets of a reshuffled position. -/
def offsetOf (old : List Offsets) (d : Offsets) : Option Nat → Offsets
  | some j => old.getD j d
  | none => d

theorem runShuffles_spec : ∀ (cs : List Shuffle) (r : Reshuffle) (d : Offsets) (m m' : List (Option Nat)),
    r.offsets = m.map (offsetOf r.oldOffsets d) → shuffled r.oldOffsets.length m cs = some m' →
    ∃ r', runShuffles r cs = some r' ∧ r'.offsets = m'.map (offsetOf r.oldOffsets d) ∧ r'.chars = r.chars ∧ r'.base = r.base
  | [], r, d, m, m', h, e => by
    cases e
    exact ⟨r, rfl, h, rfl, rfl⟩
  | .copyValue new old :: cs, r, d, m, m', h, e => by
    simp only [shuffled] at e
    split at e
    · rename_i hc
      obtain ⟨r', e1, e2, e3, e4⟩ := runShuffles_spec cs { r with offsets := r.offsets.set new (r.oldOffsets.getD old d) } d
        (m.set new (some old)) m' (by simp [h, List.map_set, offsetOf]) e
      refine ⟨r', ?_, e2, e3, e4⟩
      have eo : r.oldOffsets.getD old d = r.oldOffsets[old]'hc.1 := by simp [List.getD, List.getElem?_eq_getElem hc.1]
      rw [eo] at e1
      simp only [runShuffles, Reshuffle.copyValue, List.getElem?_eq_getElem hc.1]
      rw [if_pos (by rw [h, List.length_map]; exact hc.2)]
      exact e1
    · cases e
  | .copyRange lo hi old :: cs, r, d, m, m', h, e => by
    simp only [shuffled] at e
    split at e
    · rename_i hc
      have eo : r.oldOffsets[old]? = some (offsetOf r.oldOffsets d (some old)) := by
        simp [offsetOf, List.getD, List.getElem?_eq_getElem hc.1]
      have ef := fill_map (offsetOf r.oldOffsets d) m lo hi old hc.2.1 hc.2.2
      obtain ⟨r', e1, e2, e3, e4⟩ := runShuffles_spec cs
        { r with offsets := (m.take lo ++ List.replicate (hi - lo) (some old) ++ m.drop hi).map (offsetOf r.oldOffsets d) } d
        _ m' rfl e
      refine ⟨r', ?_, e2, e3, e4⟩
      simp only [runShuffles, Reshuffle.copyRange, eo]
      rw [h, ef]
      exact e1
    · cases e

theorem shuffled_mem : ∀ (cs : List Shuffle) (n : Nat) (m m' : List (Option Nat)), (∀ j, some j ∈ m → j < n) →
    shuffled n m cs = some m' → ∀ j, some j ∈ m' → j < n
  | [], n, m, m', h, e => by cases e; exact h
  | .copyValue new old :: cs, n, m, m', h, e => by
    simp only [shuffled] at e
    split at e
    · rename_i hc
      refine shuffled_mem cs n _ m' ?_ e
      intro j hj
      rcases List.mem_or_eq_of_mem_set hj with hj | hj
      · exact h j hj
      · cases hj; exact hc.1
    · cases e
  | .copyRange lo hi old :: cs, n, m, m', h, e => by
    simp only [shuffled] at e
    split at e
    · rename_i hc
      refine shuffled_mem cs n _ m' ?_ e
      intro j hj
      rw [List.mem_append, List.mem_append] at hj
      rcases hj with (hj | hj) | hj
      · exact h j (List.mem_of_mem_take hj)
      · rw [List.mem_replicate] at hj
        cases hj.2; exact hc.1
      · exact h j (List.mem_of_mem_drop hj)
    · cases e

theorem view_append (b : Buf) (ext : List (Option Nat)) (o : Offsets) (h : b.base ≤ o.start ∧ o.start ≤ o.stop ∧ o.stop ≤ b.base + b.chars.length)
    (offs : List Offsets) : Buf.view ⟨offs, b.chars ++ ext, b.base⟩ o = b.view o := by
  unfold Buf.view
  by_cases c : o.start = o.stop
  · rw [if_pos c, if_pos c]
  · rw [if_neg c, if_neg c, if_pos h, if_pos ⟨h.1, h.2.1, by simp only [List.length_append]; omega⟩]
    dsimp only
    rw [List.drop_append_of_le_length (by omega), List.take_append_of_le_length (by rw [List.length_drop]; omega)]

/-- The part of C89 that holds: the values are those of the old buffer where a call has set them and the default elsewhere, if the
buffer has no base offset, or the default is missing or empty, or all values are set; and in the first and the third case the new
buffer is valid. -/
theorem reshuffle_partial {b : Buf} {l : List (List Nat)} (hb : Holds b l) (hv : Valid b) (maxSize size : Nat)
    (default : Option (List Nat)) (calls : List Shuffle) (m : List (Option Nat))
    (h : shuffled l.length (List.replicate maxSize none) calls = some m)
    (hd : b.base = 0 ∨ default.getD [] = [] ∨ none ∉ m.take size) :
    ∃ r, runShuffles (Reshuffle.new maxSize b default) calls = some r ∧
      Holds (r.build size) (reshuffled l default (m.take size)) ∧
      (b.base = 0 ∨ none ∉ m.take size → Valid (r.build size)) := by
  -- the new builder
  have hnew : ∃ (d : Offsets) (ext : List (Option Nat)), (∀ c ∈ ext, c ≠ none) ∧
      Reshuffle.new maxSize b default = ⟨List.replicate maxSize d, b.offsets, b.chars ++ ext, b.base⟩ ∧
      (b.base = 0 ∨ default.getD [] = [] → ∀ offs, Buf.view ⟨offs, b.chars ++ ext, b.base⟩ d = some (default.getD [])) ∧
      (b.base = 0 → d.start ≤ d.stop ∧ d.stop ≤ (b.chars ++ ext).length) := by
    rcases default with _ | ⟨_ | ⟨c, cs⟩⟩
    · exact ⟨⟨0, 0⟩, [], by simp, by simp [Reshuffle.new], fun _ _ => by simp [Buf.view], fun _ => by simp⟩
    · exact ⟨⟨0, 0⟩, [], by simp, by simp [Reshuffle.new], fun _ _ => by simp [Buf.view], fun _ => by simp⟩
    · refine ⟨⟨b.chars.length, (c :: cs).length + b.chars.length⟩, (c :: cs).map some, ?_, rfl, ?_, ?_⟩
      · intro x hx
        obtain ⟨y, _, e⟩ := List.mem_map.mp hx
        rw [← e]; simp
      · intro h0 offs
        have h0 : b.base = 0 := by
          rcases h0 with h0 | h0
          · exact h0
          · simp at h0
        apply view_of_take
        · simp [h0]
        · simp only; omega
        · simp only [List.length_append, List.length_map]; omega
        · simp only [h0, Nat.sub_zero, List.drop_left]
          rw [Option.getD_some, List.take_of_length_le (by simp)]
      · intro _
        simp only [List.length_append, List.length_map]; omega
  obtain ⟨d, ext, hext, hnew, hview, hval⟩ := hnew
  have hl := hb.1
  obtain ⟨r, e1, e2, e3, e4⟩ := runShuffles_spec calls (Reshuffle.new maxSize b default) d (List.replicate maxSize none) m
    (by simp [hnew, offsetOf]) (by rw [hnew]; simp only; rw [hl]; exact h)
  rw [hnew] at e2 e3 e4
  simp only at e2 e3 e4
  have hbuild : r.build size = ⟨(m.take size).map (offsetOf b.offsets d), b.chars ++ ext, b.base⟩ := by
    simp only [Reshuffle.build, e2, e3, e4, List.map_take]
  have hmem : ∀ j, some j ∈ m.take size → j < l.length :=
    fun j hj => shuffled_mem calls l.length _ m (by intro j hj; rw [List.mem_replicate] at hj; cases hj.2) h j (List.mem_of_mem_take hj)
  refine ⟨r, e1, ⟨?_, ?_⟩, ?_⟩
  · rw [hbuild]; simp [reshuffled]
  · intro i
    rw [hbuild]
    simp only [Buf.get, reshuffled, List.getElem?_map]
    cases hi : (m.take size)[i]? with
    | none => rfl
    | some j =>
      simp only [Option.map_some]
      have hj := List.mem_of_getElem? hi
      cases j with
      | some j =>
        have hjl := hmem j hj
        have hjo : j < b.offsets.length := by omega
        have eo : offsetOf b.offsets d (some j) = b.offsets[j]'hjo := by simp [offsetOf, List.getD, List.getElem?_eq_getElem hjo]
        rw [eo, view_append b ext _ (hv.1 _ (List.getElem_mem hjo))]
        have := hb.2 j
        simp only [Buf.get, List.getElem?_eq_getElem hjo] at this
        rw [this]
        simp [List.getD, List.getElem?_eq_getElem hjl]
      | none =>
        refine hview ?_ _
        rcases hd with hd | hd | hd
        · exact Or.inl hd
        · exact Or.inr hd
        · exact absurd hj hd
  · intro h0
    rw [hbuild]
    refine ⟨?_, ?_⟩
    · intro o ho
      obtain ⟨j, hj, rfl⟩ := List.mem_map.mp ho
      cases j with
      | some j =>
        have hjl := hmem j hj
        have hjo : j < b.offsets.length := by omega
        have eo : offsetOf b.offsets d (some j) = b.offsets[j]'hjo := by simp [offsetOf, List.getD, List.getElem?_eq_getElem hjo]
        have := hv.1 _ (List.getElem_mem hjo)
        rw [eo]
        simp only [List.length_append]
        omega
      | none =>
        rcases h0 with h0 | h0
        · have := hval h0
          simp only [offsetOf, h0]
          omega
        · exact absurd hj h0
    · intro c hc
      rcases List.mem_append.mp hc with hc | hc
      · exact hv.2 c hc
      · exact hext c hc

example : shuffled 2 (List.replicate 4 none) [.copyValue 0 1, .copyRange 2 4 0] = some [some 1, none, some 0, some 0] := by decide

example : reshuffled [[97], [98]] (some [122]) [some 1, none, some 0, some 0] = [[98], [122], [97], [97]] := by decide

/-- C89 is false for a buffer with a base offset (the deep copy of a slice, which is valid and has the value `xyw`) and a default that
is not empty: a value that is not set is `wz` instead of `zz`; for another default the buffer reads out of range. -/
theorem reshuffle_default_counterexample : ∃ b, sliced = some b ∧ Valid b ∧ Holds b [[120, 121, 119]] ∧
    ((Reshuffle.new 1 b (some [122, 122])).build 1).get 0 = some [119, 122] ∧
    (∃ b' : Buf, b'.base = 3 ∧ Valid b' ∧ Holds b' [[120]] ∧ ((Reshuffle.new 1 b' (some [122])).build 1).get 0 = none) := by
  refine ⟨⟨[⟨1, 4⟩], [some 120, some 121, some 119], 1⟩, by decide +kernel, by simp [Valid], ⟨rfl, ?_⟩, by decide +kernel,
    ⟨[⟨3, 4⟩], [some 120], 3⟩, rfl, by simp [Valid], ⟨rfl, ?_⟩, by decide +kernel⟩
  · intro i
    cases i with
    | zero => decide +kernel
    | succ i => simp [Buf.get]
  · intro i
    cases i with
    | zero => decide +kernel
    | succ i => simp [Buf.get]

/-- C89: with a missing default the new buffer need not be valid if the old one has a base offset, and its deep copy reads out of
range. -/
theorem reshuffle_missing_counterexample : ∃ b, sliced = some b ∧ Valid b ∧
    ∃ r, runShuffles (Reshuffle.new 2 b none) [.copyValue 0 0] = some r ∧ ¬ Valid (r.build 2) ∧
      Holds (r.build 2) [[120, 121, 119], []] ∧ (r.build 2).deepCopy = none := by
  refine ⟨⟨[⟨1, 4⟩], [some 120, some 121, some 119], 1⟩, by decide +kernel, by simp [Valid],
    ⟨[⟨1, 4⟩, ⟨0, 0⟩], [⟨1, 4⟩], [some 120, some 121, some 119], 1⟩, rfl, ?_, ⟨rfl, ?_⟩, by decide +kernel⟩
  · intro h
    have := h.1 ⟨0, 0⟩ (by decide +kernel)
    simp [Reshuffle.build] at this
  · intro i
    match i with
    | 0 => decide +kernel
    | 1 => decide +kernel
    | i + 2 => simp [Buf.get, Reshuffle.build]

/-! ## C90: hashes -/

/-- The part of C90 that holds: buffers made by `Create` combine the same into hashes and fingerprints iff they are equal. -/
theorem create_hash_partial {xs ys : List (List Nat)} {a b : Buf} (ha : create xs = some a) (hb : create ys = some b) :
    a.hashInput = b.hashInput ↔ a.equal b = some true := by
  obtain ⟨a', ea, h1, _, za⟩ := create_refines xs
  obtain ⟨b', eb, h2, _, zb⟩ := create_refines ys
  rw [ha] at ea; cases ea
  rw [hb] at eb; cases eb
  rw [equal_spec h1 h2]
  constructor
  · intro e
    have : xs = ys := by
      by_cases c : a.offsets = []
      · simp only [Buf.hashInput, c, Prod.mk.injEq] at e
        have hb0 : b.offsets = [] := List.length_eq_zero_iff.mp (by simpa using e.1.symm)
        have l1 := h1.1
        have l2 := h2.1
        rw [c] at l1
        rw [hb0] at l2
        have e1 := List.length_eq_zero_iff.mp l1.symm
        have e2 := List.length_eq_zero_iff.mp l2.symm
        rw [e1, e2]
      · have cb : b.offsets ≠ [] := by
          intro cb
          simp only [Buf.hashInput, cb, Prod.mk.injEq] at e
          exact c (List.length_eq_zero_iff.mp (by simpa using e.1))
        simp only [Buf.hashInput, if_neg c, if_neg cb, Prod.mk.injEq, Option.some.injEq] at e
        have : a = b := by
          cases a; cases b
          simp only at e za zb
          simp [e.2.1, e.2.2, za, zb]
        subst this
        exact holds_unique h1 h2
    simp [this]
  · intro e
    have : xs = ys := by simpa using e
    subst this
    rw [ha] at hb
    cases hb
    rfl

/-- C90 is false in general: two buffers with the values `a`, `a`, one made with `SetNConst` and one by `Create`, are equal but
combine differently; so are a slice and its deep copy. -/
theorem hash_counterexample :
    (∃ a bl, create [[97], [97]] = some a ∧ (Builder.make 2).setNConst 0 2 [97] = some bl ∧
      a.equal (bl.build 2) = some true ∧ a.hashInput ≠ (bl.build 2).hashInput) ∧
    (∃ a b c, create [[97], [98]] = some a ∧ a.slice 1 1 = some b ∧ b.deepCopy = some c ∧ b.equal c = some true ∧
      b.hashInput ≠ c.hashInput) := by
  constructor
  · obtain ⟨a, ea, h1, _⟩ := create_refines [[97], [97]]
    refine ⟨a, _, ea, rfl, ?_⟩
    have : create [[97], [97]] = some ⟨[⟨0, 1⟩, ⟨1, 2⟩], [some 97, some 97], 0⟩ := by decide +kernel
    rw [this] at ea
    cases ea
    decide +kernel
  · refine ⟨⟨[⟨0, 1⟩, ⟨1, 2⟩], [some 97, some 98], 0⟩, ⟨[⟨1, 2⟩], [some 97, some 98], 0⟩, ⟨[⟨1, 2⟩], [some 98], 1⟩, ?_⟩
    decide +kernel

end Verif.StrBuf
