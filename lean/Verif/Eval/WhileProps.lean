import Verif.Eval.WhileModel
import Mathlib.Tactic.Tauto

/-!
# C45: the while loop

The specification is the plain loop over one state.
-/

namespace Verif.Eval.While

/-- The plain loop: `Loop cond body s r` if the loop started in the state `s` ends with `r`. -/
inductive Loop (cond : S → Except E Bool) (body : S → Except E S) : S → Except E S → Prop where
  | stop {s} : cond s = .ok false → Loop cond body s (.ok s)
  | condError {s e} : cond s = .error e → Loop cond body s (.error e)
  | bodyError {s e} : cond s = .ok true → body s = .error e → Loop cond body s (.error e)
  | step {s s' r} : cond s = .ok true → body s = .ok s' → Loop cond body s' r → Loop cond body s r

/-- `x` computes `g` from the slot `input` and the constant slots, writes the result to the slot `output`, and changes
besides that only its own slots `scratch`. -/
structure Computes (x : Exec V E) (g : V → List V → Except E V) (input : Nat) (consts : List Nat) (output : Nat)
    (scratch : Nat → Prop) : Prop where
  ok : ∀ f v, g (f input) (consts.map f) = .ok v → (x f).2 = none ∧ (x f).1 output = v
  error : ∀ f e, g (f input) (consts.map f) = .error e → (x f).2 = some e
  frame : ∀ f s, s ≠ output → ¬ scratch s → (x f).1 s = f s

/-- What `CompileWhileOperator` (compile_while_operator.cc:168-202) provides: the four programs, in different slots. -/
structure WhileOp.Ok (w : WhileOp V E) (cond body : V → List V → Except E V) (consts : List Nat)
    (scratch : Nat → Prop) : Prop where
  outCond : Computes w.onOut.condition cond w.outSlot consts w.condSlot scratch
  outBody : Computes w.onOut.body body w.outSlot consts w.tmpSlot scratch
  tmpCond : Computes w.onTmp.condition cond w.tmpSlot consts w.condSlot scratch
  tmpBody : Computes w.onTmp.body body w.tmpSlot consts w.outSlot scratch
  distinct : w.outSlot ≠ w.tmpSlot ∧ w.outSlot ≠ w.condSlot ∧ w.tmpSlot ≠ w.condSlot
  constsKept : ∀ s ∈ consts, s ≠ w.outSlot ∧ s ≠ w.tmpSlot ∧ s ≠ w.condSlot ∧ ¬ scratch s
  slotsKept : ¬ scratch w.outSlot ∧ ¬ scratch w.tmpSlot ∧ ¬ scratch w.condSlot

section
variable {w : WhileOp V E} {cond body : V → List V → Except E V} {consts : List Nat} {scratch : Nat → Prop}

/-- The condition of the plain loop. -/
def condOf (w : WhileOp V E) (cond : V → List V → Except E V) (cs : List V) (s : V) : Except E Bool :=
  (cond s cs).map w.present

theorem condOf_ok {cs : List V} {s : V} {b : Bool} (h : condOf w cond cs s = .ok b) :
    ∃ v, cond s cs = .ok v ∧ w.present v = b := by
  simp only [condOf] at h
  cases hc : cond s cs with
  | error e => rw [hc] at h; simp [Except.map] at h
  | ok v => rw [hc] at h; simp [Except.map] at h; exact ⟨v, rfl, h⟩

theorem condOf_error {cs : List V} {s : V} {e : E} (h : condOf w cond cs s = .error e) : cond s cs = .error e := by
  simp only [condOf] at h
  cases hc : cond s cs with
  | error e => rw [hc] at h; simp [Except.map] at h; rw [h]
  | ok v => rw [hc] at h; simp [Except.map] at h

/-- The slots which the operator may change. -/
def Own (w : WhileOp V E) (scratch : Nat → Prop) (s : Nat) : Prop :=
  s = w.outSlot ∨ s = w.tmpSlot ∨ s = w.condSlot ∨ scratch s

/-- What the operator leaves. -/
def Ends (w : WhileOp V E) (scratch : Nat → Prop) (f : Frame V) (r : Except E V) (result : Frame V × Option E) : Prop :=
  (match r with
    | .ok v => result.2 = none ∧ result.1 w.outSlot = v
    | .error e => result.2 = some e) ∧
  ∀ s, ¬ Own w scratch s → result.1 s = f s

theorem consts_kept (h : w.Ok cond body consts scratch) {f f' : Frame V}
    (hk : ∀ s, ¬ Own w scratch s → f' s = f s) : consts.map f' = consts.map f := by
  apply List.map_congr_left
  intro s hs
  obtain ⟨h1, h2, h3, h4⟩ := h.constsKept s hs
  exact hk s (by simp only [Own]; tauto)

/-- One pass over the four programs is up to two iterations of the plain loop. -/
inductive Pass (w : WhileOp V E) (scratch : Nat → Prop) (cond : V → Except E Bool) (body : V → Except E V) (f : Frame V) :
    Prop where
  | ends (r : Except E V) (result : Frame V × Option E) : Loop cond body (f w.outSlot) r → Ends w scratch f r result →
      (∀ fuel, w.loop (fuel + 1) f = some result) → Pass w scratch cond body f
  | again (f' : Frame V) (s : V) : cond (f w.outSlot) = .ok true → body (f w.outSlot) = .ok s → cond s = .ok true →
      body s = .ok (f' w.outSlot) → (∀ s, ¬ Own w scratch s → f' s = f s) →
      (∀ fuel, w.loop (fuel + 1) f = w.loop fuel f') → Pass w scratch cond body f

theorem pass (h : w.Ok cond body consts scratch) (f : Frame V) :
    Pass w scratch (condOf w cond (consts.map f)) (fun s => body s (consts.map f)) f := by
  obtain ⟨d1, d2, d3⟩ := h.distinct
  obtain ⟨k1, k2, k3⟩ := h.slotsKept
  -- the condition on the output slot
  generalize hx1 : w.onOut.condition f = x1
  have keep1 : ∀ s, s ≠ w.condSlot → ¬ scratch s → x1.1 s = f s := by
    intro s h1 h2; rw [← hx1]; exact h.outCond.frame f s h1 h2
  have own1 : ∀ s, ¬ Own w scratch s → x1.1 s = f s := by
    intro s hs; simp only [Own] at hs; exact keep1 s (by tauto) (by tauto)
  have loop1 : ∀ fuel, w.loop (fuel + 1) f =
      if x1.2.isSome || !w.present (x1.1 w.condSlot) then some x1
      else
        let (f, status) := w.onOut.body x1.1
        if status.isSome then some (f, status)
        else
          let (f, status) := w.onTmp.condition f
          if status.isSome || !w.present (f w.condSlot) then some (f.set w.outSlot (f w.tmpSlot), status)
          else
            let (f, status) := w.onTmp.body f
            if status.isSome then some (f, status)
            else w.loop fuel f := by
    intro fuel; rw [WhileOp.loop]; simp only [hx1]
  cases hc1 : condOf w cond (consts.map f) (f w.outSlot) with
  | error e =>
    have he := h.outCond.error f e (condOf_error hc1)
    rw [hx1] at he
    refine .ends (.error e) x1 (.condError hc1) ⟨he, own1⟩ fun fuel => ?_
    rw [loop1]; simp [he]
  | ok b =>
    obtain ⟨v, hv, hb⟩ := condOf_ok hc1
    obtain ⟨ho1, ho2⟩ := h.outCond.ok f v hv
    rw [hx1] at ho1 ho2
    cases b with
    | false =>
      refine .ends (.ok (f w.outSlot)) x1 (.stop hc1) ⟨⟨ho1, keep1 _ d2 k1⟩, own1⟩ fun fuel => ?_
      rw [loop1]; simp [ho2, hb]
    | true =>
      -- the body from the output slot
      generalize hx2 : w.onOut.body x1.1 = x2
      have st1 : x1.1 w.outSlot = f w.outSlot := keep1 _ d2 k1
      have cs1 := consts_kept h own1
      have keep2 : ∀ s, s ≠ w.tmpSlot → ¬ scratch s → x2.1 s = x1.1 s := by
        intro s h1 h2; rw [← hx2]; exact h.outBody.frame x1.1 s h1 h2
      have own2 : ∀ s, ¬ Own w scratch s → x2.1 s = f s := by
        intro s hs
        rw [← own1 s hs]
        simp only [Own] at hs; exact keep2 s (by tauto) (by tauto)
      have loop2 : ∀ fuel, w.loop (fuel + 1) f =
          if x2.2.isSome then some x2
          else
            let (f, status) := w.onTmp.condition x2.1
            if status.isSome || !w.present (f w.condSlot) then some (f.set w.outSlot (f w.tmpSlot), status)
            else
              let (f, status) := w.onTmp.body f
              if status.isSome then some (f, status)
              else w.loop fuel f := by
        intro fuel; rw [loop1]; simp only [ho1, ho2, hb, hx2]; simp
      cases hb1 : body (f w.outSlot) (consts.map f) with
      | error e =>
        have he := h.outBody.error x1.1 e (by rw [st1, cs1]; exact hb1)
        rw [hx2] at he
        refine .ends (.error e) x2 (.bodyError hc1 hb1) ⟨he, own2⟩ fun fuel => ?_
        rw [loop2]; simp [he]
      | ok s1 =>
        obtain ⟨p1, p2⟩ := h.outBody.ok x1.1 s1 (by rw [st1, cs1]; exact hb1)
        rw [hx2] at p1 p2
        -- the condition on the temporary slot
        generalize hx3 : w.onTmp.condition x2.1 = x3
        have cs2 := consts_kept h own2
        have keep3 : ∀ s, s ≠ w.condSlot → ¬ scratch s → x3.1 s = x2.1 s := by
          intro s h1 h2; rw [← hx3]; exact h.tmpCond.frame x2.1 s h1 h2
        have own3 : ∀ s, ¬ Own w scratch s → x3.1 s = f s := by
          intro s hs
          rw [← own2 s hs]
          simp only [Own] at hs; exact keep3 s (by tauto) (by tauto)
        have st3 : x3.1 w.tmpSlot = s1 := by rw [keep3 _ d3 k2, p2]
        have loop3 : ∀ fuel, w.loop (fuel + 1) f =
            if x3.2.isSome || !w.present (x3.1 w.condSlot) then some (x3.1.set w.outSlot (x3.1 w.tmpSlot), x3.2)
            else
              let (f, status) := w.onTmp.body x3.1
              if status.isSome then some (f, status)
              else w.loop fuel f := by
          intro fuel; rw [loop2]; simp only [p1, hx3]; simp
        have ownSet : ∀ s, ¬ Own w scratch s → (x3.1.set w.outSlot (x3.1 w.tmpSlot)) s = f s := by
          intro s hs
          rw [Frame.set, if_neg (by rintro rfl; exact hs (Or.inl rfl)), own3 s hs]
        cases hc2 : condOf w cond (consts.map f) s1 with
        | error e =>
          have he := h.tmpCond.error x2.1 e (by rw [p2, cs2]; exact condOf_error hc2)
          rw [hx3] at he
          refine .ends (.error e) (x3.1.set w.outSlot (x3.1 w.tmpSlot), x3.2) (.step hc1 hb1 (.condError hc2)) ⟨he, ownSet⟩
            fun fuel => ?_
          rw [loop3]; simp [he]
        | ok b =>
          obtain ⟨v2, hv2, hb2⟩ := condOf_ok hc2
          obtain ⟨q1, q2⟩ := h.tmpCond.ok x2.1 v2 (by rw [p2, cs2]; exact hv2)
          rw [hx3] at q1 q2
          cases b with
          | false =>
            refine .ends (.ok s1) (x3.1.set w.outSlot (x3.1 w.tmpSlot), x3.2) (.step hc1 hb1 (.stop hc2))
              ⟨⟨q1, ?_⟩, ownSet⟩ fun fuel => ?_
            · simp [Frame.set, st3]
            · rw [loop3]; simp [q2, hb2]
          | true =>
            -- the body from the temporary slot
            generalize hx4 : w.onTmp.body x3.1 = x4
            have cs3 := consts_kept h own3
            have keep4 : ∀ s, s ≠ w.outSlot → ¬ scratch s → x4.1 s = x3.1 s := by
              intro s h1 h2; rw [← hx4]; exact h.tmpBody.frame x3.1 s h1 h2
            have own4 : ∀ s, ¬ Own w scratch s → x4.1 s = f s := by
              intro s hs
              rw [← own3 s hs]
              simp only [Own] at hs; exact keep4 s (by tauto) (by tauto)
            have loop4 : ∀ fuel, w.loop (fuel + 1) f = if x4.2.isSome then some x4 else w.loop fuel x4.1 := by
              intro fuel; rw [loop3]; simp only [q1, q2, hb2, hx4]; simp
            cases hbd : body s1 (consts.map f) with
            | error e =>
              have he := h.tmpBody.error x3.1 e (by rw [st3, cs3]; exact hbd)
              rw [hx4] at he
              refine .ends (.error e) x4 (.step hc1 hb1 (.bodyError hc2 hbd)) ⟨he, own4⟩ fun fuel => ?_
              rw [loop4]; simp [he]
            | ok s2 =>
              obtain ⟨t1, t2⟩ := h.tmpBody.ok x3.1 s2 (by rw [st3, cs3]; exact hbd)
              rw [hx4] at t1 t2
              refine .again x4.1 s1 hc1 hb1 hc2 (by rw [t2]; exact hbd) own4 fun fuel => ?_
              rw [loop4]; simp [t1]

theorem loop_sound (h : w.Ok cond body consts scratch) : ∀ (fuel : Nat) (f : Frame V) (result : Frame V × Option E),
    w.loop fuel f = some result →
    ∃ r, Loop (condOf w cond (consts.map f)) (fun s => body s (consts.map f)) (f w.outSlot) r ∧
      Ends w scratch f r result := by
  intro fuel
  induction fuel with
  | zero => intro f result hr; simp [WhileOp.loop] at hr
  | succ fuel ih =>
    intro f result hr
    cases pass h f with
    | ends r result' hl he hrun =>
      rw [hrun] at hr
      cases hr
      exact ⟨r, hl, he⟩
    | again f' s h1 h2 h3 h4 hk hrun =>
      rw [hrun] at hr
      obtain ⟨r, hl, he1, he2⟩ := ih f' result hr
      rw [consts_kept h hk] at hl
      exact ⟨r, .step h1 h2 (.step h3 h4 hl), he1, fun s hs => (he2 s hs).trans (hk s hs)⟩

theorem loop_step {c : S → Except E Bool} {b : S → Except E S} {s s' : S} {r : Except E S} (h : Loop c b s r)
    (h1 : c s = .ok true) (h2 : b s = .ok s') : Loop c b s' r := by
  cases h with
  | stop h => rw [h1] at h; simp at h
  | condError h => rw [h1] at h; simp at h
  | bodyError _ h => rw [h2] at h; simp at h
  | step _ h h' => rw [h2] at h; cases h; exact h'

/-- The number of iterations of a loop which ends. -/
theorem loop_complete (h : w.Ok cond body consts scratch) {cs : List V} {s₀ : V} {r : Except E V}
    (hl : Loop (condOf w cond cs) (fun s => body s cs) s₀ r) :
    (∀ f, f w.outSlot = s₀ → consts.map f = cs → ∃ fuel result, w.loop fuel f = some result) ∧
    (∀ s', condOf w cond cs s₀ = .ok true → body s₀ cs = .ok s' →
      ∀ f, f w.outSlot = s' → consts.map f = cs → ∃ fuel result, w.loop fuel f = some result) := by
  induction hl with
  | @stop s hs =>
    refine ⟨fun f hf hcs => ?_, fun s' h1 => by rw [hs] at h1; simp at h1⟩
    cases pass h f with
    | ends r result _ _ hrun => exact ⟨1, result, hrun 0⟩
    | again f' s1 h1 _ _ _ _ _ => rw [hcs, hf] at h1; rw [hs] at h1; simp at h1
  | @condError s e hs =>
    refine ⟨fun f hf hcs => ?_, fun s' h1 => by rw [hs] at h1; simp at h1⟩
    cases pass h f with
    | ends r result _ _ hrun => exact ⟨1, result, hrun 0⟩
    | again f' s1 h1 _ _ _ _ _ => rw [hcs, hf] at h1; rw [hs] at h1; simp at h1
  | @bodyError s e hs hb =>
    refine ⟨fun f hf hcs => ?_, fun s' _ h1 => by rw [hb] at h1; simp at h1⟩
    cases pass h f with
    | ends r result _ _ hrun => exact ⟨1, result, hrun 0⟩
    | again f' s1 _ h1 _ _ _ _ => rw [hcs, hf] at h1; rw [hb] at h1; simp at h1
  | @step s s1 r hs hb hrest ih =>
    refine ⟨fun f hf hcs => ?_, fun s' _ h1 => by rw [hb] at h1; cases h1; exact ih.1⟩
    cases pass h f with
    | ends r result _ _ hrun => exact ⟨1, result, hrun 0⟩
    | again f' s2 h1 h2 h3 h4 hk hrun =>
      rw [hcs] at h1 h2 h3 h4
      rw [hf] at h2
      rw [hb] at h2
      cases h2
      obtain ⟨fuel, result, hr⟩ := ih.2 _ h3 h4 f' rfl (by rw [consts_kept h hk, hcs])
      exact ⟨fuel + 1, result, by rw [hrun, hr]⟩

theorem set_own (f : Frame V) (v : V) {s : Nat} (hs : ¬ Own w scratch s) : f.set w.outSlot v s = f s := by
  rw [Frame.set, if_neg (by rintro rfl; exact hs (Or.inl rfl))]

/-- The operator ends exactly if the plain loop over the state ends. -/
theorem while_terminates (h : w.Ok cond body consts scratch) (f : Frame V) :
    (∃ fuel result, w.run fuel f = some result) ↔
      ∃ r, Loop (condOf w cond (consts.map f)) (fun s => body s (consts.map f)) (f w.initialSlot) r := by
  have hcs : consts.map (f.set w.outSlot (f w.initialSlot)) = consts.map f :=
    consts_kept h fun s hs => set_own f _ hs
  constructor
  · rintro ⟨fuel, result, hr⟩
    obtain ⟨r, hl, -⟩ := loop_sound h fuel _ result hr
    rw [hcs] at hl
    exact ⟨r, by simpa [Frame.set] using hl⟩
  · rintro ⟨r, hl⟩
    exact (loop_complete h hl).1 _ (by simp [Frame.set]) hcs

/-- Its result is that of the plain loop: the final state is in the output slot, or the error of the first failing
condition or body is reported; the slots of the inputs are unchanged. -/
theorem while_result (h : w.Ok cond body consts scratch) {f : Frame V} {fuel : Nat} {result : Frame V × Option E}
    (hr : w.run fuel f = some result) :
    ∃ r, Loop (condOf w cond (consts.map f)) (fun s => body s (consts.map f)) (f w.initialSlot) r ∧
      Ends w scratch f r result := by
  have hcs : consts.map (f.set w.outSlot (f w.initialSlot)) = consts.map f :=
    consts_kept h fun s hs => set_own f _ hs
  obtain ⟨r, hl, he1, he2⟩ := loop_sound h fuel _ result hr
  rw [hcs] at hl
  exact ⟨r, by simpa [Frame.set] using hl, he1, fun s hs => (he2 s hs).trans (set_own f _ hs)⟩

/-- The result of the plain loop is unique. -/
theorem plain_loop_unique {c : S → Except E Bool} {b : S → Except E S} {s : S} {r₁ r₂ : Except E S}
    (h₁ : Loop c b s r₁) (h₂ : Loop c b s r₂) : r₁ = r₂ := by
  induction h₁ with
  | stop h => cases h₂ <;> simp_all
  | condError h => cases h₂ <;> simp_all
  | bodyError h1 h2 => cases h₂ <;> simp_all
  | step h1 h2 _ ih => exact ih (loop_step h₂ h1 h2)

/-- Running longer does not change the result. -/
theorem while_fuel (h : w.Ok cond body consts scratch) {f : Frame V} {fuel fuel' : Nat} {result : Frame V × Option E}
    (hr : w.run fuel f = some result) (hf : fuel ≤ fuel') : w.run fuel' f = some result := by
  have : ∀ (fuel fuel' : Nat) (f : Frame V), w.loop fuel f = some result → fuel ≤ fuel' → w.loop fuel' f = some result := by
    intro fuel
    induction fuel with
    | zero => intro fuel' f hr; simp [WhileOp.loop] at hr
    | succ fuel ih =>
      intro fuel' f hr hf
      obtain ⟨m, rfl⟩ : ∃ m, fuel' = m + 1 := ⟨fuel' - 1, by omega⟩
      cases pass h f with
      | ends r result' _ _ hrun => rw [hrun] at hr ⊢; exact hr
      | again f' s _ _ _ _ _ hrun => rw [hrun] at hr ⊢; exact ih m f' hr (by omega)
  exact this fuel fuel' _ hr hf

end

/-! Doubling while the state is less than the constant in slot 4: slots 0 (initial), 1 (temporary), 2 (output), 3
(condition), 5 (scratch). -/

private def less (inp : Nat) : Exec Int String := fun f => ((f.set 5 7).set 3 (if f inp < f 4 then 1 else 0), none)
private def double (inp out : Nat) : Exec Int String := fun f =>
  if f inp = 0 then (f, some "zero") else (f.set out (2 * f inp), none)
private def sample : WhileOp Int String := ⟨⟨less 2, double 2 1⟩, ⟨less 1, double 1 2⟩, 3, 0, 1, 2, fun v => v != 0⟩
private def lessFn (s : Int) (cs : List Int) : Except String Int := .ok (if s < cs.headD 0 then 1 else 0)
private def doubleFn (s : Int) (_ : List Int) : Except String Int := if s = 0 then .error "zero" else .ok (2 * s)

private theorem less_computes (inp : Nat) :
    Computes (less inp) lessFn inp [4] 3 (fun s => s = 5) where
  ok f v hv := by
    refine ⟨rfl, ?_⟩
    simp [lessFn] at hv
    simp [less, Frame.set, ← hv]
  error f e hv := by simp [lessFn] at hv
  frame f s h1 h2 := by simp [less, Frame.set, h1, h2]

private theorem double_computes (inp out : Nat) :
    Computes (double inp out) doubleFn inp [4] out (fun s => s = 5) where
  ok f v hv := by
    simp only [doubleFn] at hv
    split at hv
    · simp at hv
    · next hz => simp at hv; simp [double, hz, Frame.set, ← hv]
  error f e hv := by
    simp only [doubleFn] at hv
    split at hv
    · next hz => simp at hv; simp [double, hz, hv]
    · simp at hv
  frame f s h1 h2 := by
    simp only [double]
    split <;> simp [Frame.set, h1]

example : sample.Ok lessFn doubleFn [4] (fun s => s = 5) :=
  ⟨less_computes 2, double_computes 2 1, less_computes 1, double_computes 1 2, by decide, by decide, by decide⟩
example : ((sample.run 10 fun s => if s = 0 then 3 else if s = 4 then 20 else 0).map fun r => (r.1 2, r.2)) =
    some (24, none) := by decide +kernel
example : ((sample.run 10 fun s => if s = 0 then 3 else if s = 4 then 10 else 0).map fun r => (r.1 2, r.2)) =
    some (12, none) := by decide +kernel
example : ((sample.run 10 fun s => if s = 4 then 10 else 0).map fun r => r.2) = some (some "zero") := by decide +kernel

end Verif.Eval.While
