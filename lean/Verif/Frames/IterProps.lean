import Verif.Frames.IterLemmas

/-!
# C72: the frame iterator applies a function to every row
-/

namespace Verif.Frames
open Verif.Bits Verif.Bitmap Verif.Dense Verif.Arr

variable {V : Type}

/-- C72: `FrameIterator::Create` succeeds exactly when the numbers of arrays and slots agree, the
types match, all input arrays have one size, and the row count — given by the inputs, the options or
both — is unambiguous.  The iteration order of the hash maps does not matter. -/
theorem create_iff {inKeys outKeys : List Key} {inputs : List (In V)} {inSlots : List Scalar}
    {outputs : List OutSlot} {outSlots : List Scalar} {options : Options}
    (hki : KeysOk (fun m => m.1.key) (inputs.zip inSlots) inKeys) :
    (∃ it, create inKeys outKeys inputs inSlots outputs outSlots options = .ok it) ↔
      inputs.length = inSlots.length ∧ outputs.length = outSlots.length ∧
      (∀ m ∈ inputs.zip inSlots, m.1.accepts m.2 = true) ∧
      (∀ o ∈ outputs.zip outSlots, o.2.ty = o.1.ty) ∧
      ∃ n, (∀ a ∈ inputs, a.arr.size = n) ∧ (options.rowCount = none → inputs ≠ []) ∧
        ∀ k, options.rowCount = some k → k = n := by
  constructor
  · rintro ⟨it, h⟩
    obtain ⟨h1, h2, h3, h4, h5, h6, _⟩ := create_ok hki h
    refine ⟨h1, h2, fun m hm => (h3 m hm).1, h4, it.rowCount, ?_, h5, h6⟩
    intro a ha
    obtain ⟨i, hi⟩ := List.getElem?_of_mem ha
    have hil : i < inputs.length := (List.getElem?_eq_some_iff.1 hi).1
    have : (inputs.zip inSlots)[i]? = some (a, inSlots[i]'(by omega)) := by
      rw [List.getElem?_zip_eq_some]
      exact ⟨hi, List.getElem?_eq_getElem (by omega)⟩
    exact (h3 _ (List.mem_of_getElem? this)).2
  · rintro ⟨h1, h2, h3, h4, n, h5, h6, h7⟩
    exact create_complete hki h1 h2 (fun m hm => ⟨h3 m hm, h5 _ (List.of_mem_zip hm).1⟩) h4 h6 h7

/-- C72: for every function whose outputs depend on the row only (and on constants set up before),
`ForEachFrame` terminates without leaving any buffer, calls the function once per row in ascending
order on a frame holding exactly that row, and `StoreOutput` yields arrays whose row `i` is what the
function leaves for row `i` — for every number of frame buffers, every representation of the input
arrays, every order of the copiers, and any contents of the frame buffers and of fresh memory. -/
theorem frame_iterator {inKeys outKeys : List Key} {inputs : List (In V)} {inSlots : List Scalar}
    {outputs : List OutSlot} {outSlots : List Scalar} {options : Options} {it : Iter V}
    (hki : KeysOk (fun m => m.1.key) (inputs.zip inSlots) inKeys)
    (hko : KeysOk (fun m => m.1.key) (outputs.zip outSlots) outKeys)
    (hc : create inKeys outKeys inputs inSlots outputs outSlots options = .ok it)
    (hv : ∀ a ∈ inputs, a.Valid) (hs : (inSlots.map Scalar.id).Nodup)
    (hbuf : 0 < options.frameBufferCount)
    {K : Nat → Prop} (hK : ∀ s ∈ inSlots, ¬ K s.id) {fn : Frame V → Frame V}
    (hfn : Respects inSlots outSlots K fn)
    {mem : Mem V} (hmem : ∀ k, k < outputs.length → (mem.vals k).length = it.rowCount ∧
      (mem.bits k).length = bitmapSize it.rowCount)
    {base : Frame V} {init : List (Frame V)} (hi : init.length = it.frames)
    (hib : ∀ f ∈ init, ∀ t, K t → f t = base t) (junk : V) :
    ∃ res calls, (∀ fuel, it.rowCount < fuel → run junk mem it fn init fuel = some (res, calls)) ∧
      calls.length = it.rowCount ∧
      (∀ (i : Nat) f, calls[i]? = some f → IsRow (inputs.zip inSlots) K base i f) ∧
      (res.map (·.1)).Perm (outputs.map OutSlot.id) ∧
      ∀ o s, (o, s) ∈ outputs.zip outSlots → ∃ a, (o.id, a) ∈ res ∧ a.Valid ∧ a.key = o.key ∧
        (∃ d, a.Wraps d ∧ (s.opt = false → d.bitmap = [])) ∧
        ∀ row : Nat → Frame V, (∀ i, i < it.rowCount → IsRow (inputs.zip inSlots) K base i (row i)) →
          a.elems = (List.range it.rowCount).map (fun i => look s.opt (fn (row i) s.id)) := by
  obtain ⟨c1, c2, c3, c4, c5, c6, c7⟩ := create_ok hki hc
  have hins : it.ins = byKey (fun m => m.1.key) inKeys (inputs.zip inSlots) := by rw [c7]; rfl
  have houts : it.outs = byKey (fun m => m.1.key) outKeys (outputs.zip outSlots) := by rw [c7]; rfl
  have hframes : it.frames = min it.rowCount options.frameBufferCount := by rw [c7]; rfl
  have hpi : it.ins.Perm (inputs.zip inSlots) := by rw [hins]; exact byKey_perm hki
  have hpo : it.outs.Perm (outputs.zip outSlots) := by rw [houts]; exact byKey_perm hko
  have hol : it.outs.length = outputs.length := by rw [hpo.length_eq, List.length_zip]; omega
  have hzi : (inputs.zip inSlots).map (fun m => m.2.id) = inSlots.map Scalar.id := by
    rw [show (fun m : In V × Scalar => m.2.id) = Scalar.id ∘ Prod.snd from rfl, ← List.map_map,
      List.map_snd_zip (by omega)]
  have hzo : (outputs.zip outSlots).map (fun m => m.1.id) = outputs.map OutSlot.id := by
    rw [show (fun m : OutSlot × Scalar => m.1.id) = OutSlot.id ∘ Prod.fst from rfl, ← List.map_map,
      List.map_fst_zip (by omega)]
  have hrow : ∀ i f, IsRow it.ins K base i f ↔ IsRow (inputs.zip inSlots) K base i f := by
    intro i f
    unfold IsRow
    constructor
    · rintro ⟨h1, h2⟩; exact ⟨fun m hm => h1 m (hpi.mem_iff.2 hm), h2⟩
    · rintro ⟨h1, h2⟩; exact ⟨fun m hm => h1 m (hpi.mem_iff.1 hm), h2⟩
  -- the loop does not depend on the fuel
  have hrun : ∀ fuel, it.rowCount < fuel → ∃ st',
      forEachFrame junk it fn fuel 0 ⟨0, init, startOuts mem it, []⟩ = some st' ∧
      st'.calls.length = it.rowCount ∧
      (∀ (i : Nat) f, st'.calls[i]? = some f → IsRow it.ins K base i f) ∧
      OutsInv mem.vals mem.bits it.outs (st'.calls.map fn) st'.outs := by
    intro fuel hfuel
    refine forEachFrame_inv (mem := mem) (K := K) (base := base) ?_ ?_ ?_ ?_ hfn.keeps ?_ fuel 0 _
      (by omega) (by simp) hi rfl (by simp) hib (startOuts_inv mem it)
    · exact (hpi.map _).nodup_iff.2 (by rw [hzi]; exact hs)
    · intro m hm
      exact hK _ (List.of_mem_zip (hpi.mem_iff.1 hm)).2
    · intro m hm
      have hm' := hpi.mem_iff.1 hm
      exact ⟨hv _ (List.of_mem_zip hm').1, (c3 m hm').1, (c3 m hm').2⟩
    · intro k hk
      exact hmem k (by omega)
    · intro hp
      rw [hframes]; omega
  have hmono : ∀ fuel offset st st', forEachFrame junk it fn fuel offset st = some st' →
      forEachFrame junk it fn (fuel + 1) offset st = some st' := by
    intro fuel
    induction fuel with
    | zero => intro offset st st' h; cases h
    | succ fuel ih =>
      intro offset st st' h
      rw [forEachFrame] at h ⊢
      split at h
      · rename_i hlt
        rw [if_pos hlt]
        cases hb : block junk it fn (min it.frames (it.rowCount - offset)) st with
        | none => rw [hb] at h; cases h
        | some st1 =>
          rw [hb, Option.bind_some] at h
          rw [Option.bind_some]
          exact ih _ _ _ h
      · rename_i hlt
        rw [if_neg hlt]; exact h
  obtain ⟨st', e1, e2, e3, e4⟩ := hrun (it.rowCount + 1) (by omega)
  have hall : ∀ d, forEachFrame junk it fn (it.rowCount + 1 + d) 0 ⟨0, init, startOuts mem it, []⟩ =
      some st' := by
    intro d
    induction d with
    | zero => exact e1
    | succ d ih => exact hmono _ _ _ _ ih
  refine ⟨storeOutput it st'.outs, st'.calls, ?_, e2, ?_, ?_, ?_⟩
  · intro fuel hfuel
    unfold run
    have := hall (fuel - (it.rowCount + 1))
    rw [show it.rowCount + 1 + (fuel - (it.rowCount + 1)) = fuel by omega] at this
    rw [this]; rfl
  · intro i f hf
    exact (hrow i f).1 (e3 i f hf)
  · have : (storeOutput it st'.outs).map (·.1) = it.outs.map (fun m => m.1.id) := by
      apply List.ext_getElem?
      intro k
      simp only [storeOutput, List.getElem?_map, List.getElem?_zipWith]
      cases ho : it.outs[k]? with
      | none => simp
      | some o =>
        obtain ⟨b, hb, _⟩ := e4.2 k o ho
        simp [hb]
    rw [this, ← hzo]
    exact hpo.map _
  · intro o s hos
    obtain ⟨k, hk⟩ := List.getElem?_of_mem (hpo.mem_iff.2 hos)
    have hkl : k < it.outs.length := (List.getElem?_eq_some_iff.1 hk).1
    obtain ⟨b, hb, hinv⟩ := e4.2 k _ hk
    obtain ⟨m1, m2⟩ := hmem k (by omega)
    obtain ⟨v1, v2, v3⟩ := finalize_spec (o := o) hinv (by rw [m1, List.length_map, e2]) (by rw [m2, m1])
    refine ⟨b.finalize o, ?_, v1, v2, ?_, ?_⟩
    · apply List.mem_of_getElem? (i := k)
      simp [storeOutput, List.getElem?_zipWith, hk, hb]
    · refine ⟨⟨b.vals, match b.bits with | none => [] | some bb => bb.build, 0⟩, ?_, fun hopt => ?_⟩
      · unfold OutB.finalize In.Wraps
        cases o.sparse <;> rfl
      · simp only [hinv.2.1 hopt]
    · intro row hrows
      rw [v3]
      apply List.ext_getElem?
      intro i
      simp only [List.getElem?_map]
      by_cases hil : i < it.rowCount
      · have hlt : i < st'.calls.length := by omega
        rw [List.getElem?_eq_getElem hlt, List.getElem?_range hil]
        simp only [Option.map_some]
        have r1 := (hrow i _).1 (e3 i _ (List.getElem?_eq_getElem hlt))
        have r2 := hrows i hil
        congr 1
        refine hfn.depends _ _ ?_ ?_ s (List.of_mem_zip hos).2
        · intro sl hsl
          obtain ⟨j, hj⟩ := List.getElem?_of_mem hsl
          have hjl : j < inSlots.length := (List.getElem?_eq_some_iff.1 hj).1
          have hz : (inputs.zip inSlots)[j]? = some (inputs[j]'(by omega), sl) := by
            rw [List.getElem?_zip_eq_some]
            exact ⟨List.getElem?_eq_getElem (by omega), hj⟩
          have hm := List.mem_of_getElem? hz
          rw [r1.1 _ hm, r2.1 _ hm]
        · intro t ht
          rw [r1.2 t ht, r2.2 t ht]
      · rw [List.getElem?_eq_none (by omega), List.getElem?_eq_none (by simp; omega)]
        rfl

/-- C72: with no frame buffer and at least one row the loop never ends. -/
theorem frame_iterator_no_buffers_counterexample (junk : V) (mem : Mem V) (it : Iter V)
    (fn : Frame V → Frame V) (hf : it.frames = 0) (hr : 0 < it.rowCount) (fuel : Nat) :
    run junk mem it fn [] fuel = none := by
  have : ∀ fuel st, forEachFrame junk it fn fuel 0 st = none := by
    intro fuel
    induction fuel with
    | zero => intro st; rfl
    | succ fuel ih =>
      intro st
      rw [forEachFrame, if_pos hr, hf]
      cases block junk it fn (min 0 (it.rowCount - 0)) st with
      | none => rfl
      | some st' => exact ih st'
  unfold run
  rw [this]; rfl

/-! ## A concrete case -/

/-- Two inputs of 5 rows: a dense array with a bitmap at offset 3, and a sparse array with ids offset
by 10 and a default. -/
def sampleInputs : List (In Int) :=
  [⟨0, .dense ⟨[1, 2, 3, 4, 5], [0xA8], 3⟩⟩,
   ⟨0, .sparse ⟨5, ⟨.partial', [11, 13], 10⟩, ⟨[20, 40], [], 0⟩, some 7⟩⟩]

/-- Both go to optional slots. -/
def sampleSlots : List Scalar := [⟨0, 0, true⟩, ⟨1, 0, true⟩]

/-- One output: a dense array from the optional slot 2. -/
def sampleOutputs : List OutSlot := [⟨9, 0, false⟩]

/-- Sum of slots 0 and 1, if both are present, plus the constant in slot 3. -/
def sampleFn (f : Frame Int) : Frame Int :=
  f.set 2 ((f 0).1 && (f 1).1, (f 0).2 + (f 1).2 + (f 3).2)

/-- Run the example with `b` frame buffers, the constant 100 and garbage elsewhere. -/
def sampleRun (b : Nat) : Option (List (Nat × List (Option Int))) :=
  match create [(true, 0), (false, 0)] [(false, 0)] sampleInputs sampleSlots sampleOutputs
      [⟨2, 0, true⟩] ⟨some 5, b⟩ with
  | .error _ => none
  | .ok it =>
    (run 55 ⟨fun _ => List.replicate 5 66, fun _ => [77]⟩ it sampleFn
      (List.replicate it.frames (fun t => (true, if t = 3 then 100 else 1000 + t))) 6).map
      (fun r => r.1.map (fun p => (p.1, p.2.elems)))

example : sampleRun 2 = some [(9, [some 108, none, some 110, none, some 112])] ∧
    sampleRun 64 = sampleRun 2 := by decide +kernel

example : KeysOk (fun m : In Int × Scalar => m.1.key) (sampleInputs.zip sampleSlots)
    [(true, 0), (false, 0)] := by
  refine ⟨by decide, ?_⟩
  intro k
  simp [sampleInputs, sampleSlots, In.key]
  tauto

example : ∀ a ∈ sampleInputs, a.Valid := by
  intro a ha
  simp only [sampleInputs, List.mem_cons, List.not_mem_nil, or_false] at ha
  rcases ha with rfl | rfl
  · show DArr.Valid _; decide
  · refine ⟨by decide, ⟨by decide, by decide, by decide, by decide⟩, rfl⟩

example : Respects sampleSlots [⟨2, 0, true⟩] (fun t => t = 3) sampleFn := by
  refine ⟨?_, ?_⟩
  · rintro f t rfl; rfl
  · intro f g h1 h2 s hs
    simp only [List.mem_singleton] at hs
    subst hs
    have a := h1 ⟨0, 0, true⟩ (by simp [sampleSlots])
    have b := h1 ⟨1, 0, true⟩ (by simp [sampleSlots])
    have c := h2 3 rfl
    simp only [look, if_true] at a b
    simp only [sampleFn, set_same, look, if_true, c]
    cases ha : (f 0).1 <;> cases ha' : (g 0).1 <;> cases hb : (f 1).1 <;> cases hb' : (g 1).1 <;>
      simp_all

end Verif.Frames
