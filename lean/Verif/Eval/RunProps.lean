import Verif.Eval.RunModel

/-!
# C44: short circuit `where`

The specification: the meaning of a program without jumps.
-/

namespace Verif.Eval

/-- The meaning: operators in order until the first failure; of a `where` exactly one branch. -/
def Code.denote : Code F E → F → F × Option E
  | .nil, f => (f, none)
  | .op g rest, f =>
    match g f with
    | (f, none) => rest.denote f
    | (f, some e) => (f, some e)
  | .cond c onTrue onFalse rest, f =>
    match (if c f then onTrue.denote f else onFalse.denote f) with
    | (f, none) => rest.denote f
    | (f, some e) => (f, some e)

/-- No false branch is empty (compilation of an expression always adds an operator which sets the output slot). -/
def Code.Ok : Code F E → Prop
  | .nil => True
  | .op _ rest => rest.Ok
  | .cond _ onTrue onFalse rest => onTrue.Ok ∧ onFalse.Ok ∧ onFalse ≠ .nil ∧ rest.Ok

/-- The emitted program. -/
def Code.flat : Code F E → List (BoundOp F E)
  | .nil => []
  | .op g rest => functorOp g :: rest.flat
  | .cond c onTrue onFalse rest =>
    jumpIfNotOp c (onTrue.flat.length + 1) ::
      (onTrue.flat ++ jumpOp onFalse.flat.length :: (onFalse.flat ++ rest.flat))

theorem flat_eq_nil {code : Code F E} : code.flat = [] ↔ code = .nil := by
  cases code <;> simp [Code.flat]

theorem setEvalOp_spec (a b : Builder F E) (op : BoundOp F E) (n : Int) (hn : n = a.length) :
    Builder.setEvalOp (a ++ none :: b) n op = some (a ++ some op :: b) := by
  subst hn
  simp only [Builder.setEvalOp]
  rw [if_neg (by simp; omega)]
  simp

theorem emit_eq {code : Code F E} : ∀ {b : Builder F E},
    (code.Ok → code.emit b = some (b ++ code.flat.map some)) ∧ (¬ code.Ok → code.emit b = none) := by
  induction code with
  | nil => intro b; simp [Code.emit, Code.flat, Code.Ok]
  | op g rest ih =>
    intro b
    simp only [Code.emit, Code.flat, Code.Ok, List.map_cons]
    refine ⟨fun h => ?_, fun h => ih.2 h⟩
    rw [(ih (b := b ++ [some (functorOp g)])).1 h]
    simp
  | cond c onTrue onFalse rest iht ihf ihr =>
    intro b
    have key : onTrue.Ok → onFalse.Ok → (Code.cond c onTrue onFalse rest).emit b =
        if onFalse.flat = [] then none else
          rest.emit (b ++ some (jumpIfNotOp c (onTrue.flat.length + 1)) :: (onTrue.flat.map some ++
            some (jumpOp onFalse.flat.length) :: onFalse.flat.map some)) := by
      intro h1 h2
      simp only [Code.emit]
      rw [(iht (b := b ++ [none])).1 h1]
      simp only [Option.bind_eq_bind, Option.bind_some]
      rw [(ihf).1 h2]
      simp only [Option.bind_some]
      rw [if_neg (by simp; omega)]
      have e1 : b ++ [none] ++ List.map some onTrue.flat ++ [none] ++ List.map some onFalse.flat =
          b ++ none :: (List.map some onTrue.flat ++ none :: List.map some onFalse.flat) := by simp
      rw [e1, setEvalOp_spec _ _ _ _ rfl]
      simp only [Option.bind_some]
      have e2 : ((b ++ [none] ++ List.map some onTrue.flat).length : Int) - b.length = onTrue.flat.length + 1 := by
        simp; omega
      rw [e2]
      have e3 : ∀ op : BoundOp F E, ((b ++ some op :: (List.map some onTrue.flat ++ none :: List.map some onFalse.flat)).length
          : Int) - (b ++ [none] ++ List.map some onTrue.flat).length - 1 = onFalse.flat.length := by
        intro op; simp; omega
      rw [e3]
      by_cases hn : onFalse.flat = []
      · simp [hn]
      · rw [if_neg (by simpa using hn), if_neg hn]
        have e4 : ∀ op : BoundOp F E, b ++ some op :: (List.map some onTrue.flat ++ none :: List.map some onFalse.flat) =
            (b ++ some op :: List.map some onTrue.flat) ++ none :: List.map some onFalse.flat := by intro op; simp
        rw [e4, setEvalOp_spec _ _ _ _ (by simp)]
        simp
    constructor
    · rintro ⟨h1, h2, h3, h4⟩
      rw [key h1 h2, if_neg (fun h => h3 (flat_eq_nil.1 h)), (ihr).1 h4]
      simp [Code.flat]
    · intro h
      by_cases h1 : onTrue.Ok
      · by_cases h2 : onFalse.Ok
        · rw [key h1 h2]
          split
          · rfl
          · next h3 => exact (ihr).2 fun h4 => h ⟨h1, h2, fun h => h3 (flat_eq_nil.2 h), h4⟩
        · simp only [Code.emit]
          rw [(iht).1 h1]
          simp only [Option.bind_eq_bind, Option.bind_some]
          rw [(ihf).2 h2]
          rfl
      · simp only [Code.emit]
        rw [(iht).2 h1]
        rfl

theorem build_map (ops : List (BoundOp F E)) : Builder.build (ops.map some) = some ops := by
  simp only [Builder.build]
  induction ops with
  | nil => rfl
  | cons op rest ih => simp [ih]

/-- No cancellation. -/
def never : Nat → Option E := fun _ => none

theorem runLoop_jump {p : List (BoundOp F E)} {ip : Nat} {op : BoundOp F E} (hop : p[ip]? = some op) {f f' : F} {j : Nat}
    (ho : op {} f = (({} : Ctx E).setJump j, f')) (hj : j ≠ 0) (hb : ip + j < p.length) (fuel k : Nat) :
    runLoop p never (fuel + 1) k ip {} f = runLoop p never fuel (k + 1) (ip + j + 1) {} f' := by
  have h1 : (0 ≤ (ip : Int) + j ∧ (ip : Int) + j < p.length) := by omega
  have h2 : ((ip : Int) + j).toNat = ip + j := by omega
  have h3 : (j : Int) ≠ 0 := by omega
  rw [runLoop, hop]
  simp [ho, Ctx.setJump, Ctx.resetSignals, never, h1, h2, h3, hj]

/-- The run of a part of a program. -/
theorem runLoop_flat (code : Code F E) : ∀ (hok : code.Ok) (pre post : List (BoundOp F E)) (f : F) (k : Nat),
    (∀ f', code.denote f = (f', none) → ∃ n ≤ code.flat.length, ∃ k', ∀ fuel,
      runLoop (pre ++ code.flat ++ post) never (fuel + n) k pre.length {} f =
        runLoop (pre ++ code.flat ++ post) never fuel k' (pre.length + code.flat.length) {} f') ∧
    (∀ f' e, code.denote f = (f', some e) → ∃ n ≤ code.flat.length, ∃ (ip : Nat) (ctx : Ctx E) (f₀ : F) (op : BoundOp F E),
      (∀ fuel, runLoop (pre ++ code.flat ++ post) never (fuel + n) k pre.length {} f = some ((ip : Int), ctx, f')) ∧
      pre.length ≤ ip ∧ ip < pre.length + code.flat.length ∧ (pre ++ code.flat ++ post)[ip]? = some op ∧
      op {} f₀ = (ctx, f') ∧ ctx.status = some e) := by
  induction code with
  | nil =>
    intro _ pre post f k
    simp only [Code.denote, Code.flat, Prod.mk.injEq]
    constructor
    · rintro f' ⟨rfl, -⟩
      exact ⟨0, by simp, k, fun fuel => by simp⟩
    · rintro f' e ⟨_, h⟩; cases h
  | op g rest ih =>
    intro hok pre post f k
    have hop : (pre ++ (Code.op g rest).flat ++ post)[pre.length]? = some (functorOp g) := by simp [Code.flat]
    have hlist : pre ++ (Code.op g rest).flat ++ post = (pre ++ [functorOp g]) ++ rest.flat ++ post := by simp [Code.flat]
    have hlen : (Code.op g rest).flat.length = rest.flat.length + 1 := by simp [Code.flat]
    simp only [Code.denote]
    rcases hg : g f with ⟨f1, _ | e⟩
    · have hstep : ∀ fuel, runLoop (pre ++ (Code.op g rest).flat ++ post) never (fuel + 1) k pre.length {} f =
          runLoop (pre ++ (Code.op g rest).flat ++ post) never fuel (k + 1) (pre.length + 1) {} f1 := by
        intro fuel
        rw [runLoop, hop]
        simp [functorOp, hg, never]
      have := ih hok (pre ++ [functorOp g]) post f1 (k + 1)
      rw [← hlist] at this
      simp only [List.length_append, List.length_singleton] at this
      simp only
      refine ⟨fun f' h => ?_, fun f' e h => ?_⟩
      · obtain ⟨n, hn, k', hr⟩ := this.1 f' h
        refine ⟨n + 1, by omega, k', fun fuel => ?_⟩
        rw [show fuel + (n + 1) = fuel + n + 1 from rfl, hstep, hr, hlen]
        congr 1; omega
      · obtain ⟨n, hn, ip, ctx, f₀, op, hr, h1, h2, h3, h4, h5⟩ := this.2 f' e h
        refine ⟨n + 1, by omega, ip, ctx, f₀, op, fun fuel => ?_, by omega, by omega, h3, h4, h5⟩
        rw [show fuel + (n + 1) = fuel + n + 1 from rfl, hstep, hr]
    · simp only [Prod.mk.injEq]
      constructor
      · rintro f' ⟨_, h⟩; cases h
      · rintro f' e' ⟨rfl, h⟩
        cases h
        refine ⟨1, by omega, pre.length, ({} : Ctx E).setStatus (some e), f, functorOp g, fun fuel => ?_, by omega,
          by omega, hop, ?_, rfl⟩
        · rw [runLoop, hop]
          simp only
          simp [functorOp, hg, Ctx.setStatus]
        · simp [functorOp, hg]
  | cond c onTrue onFalse rest iht ihf ihr =>
    intro hok pre post f k
    obtain ⟨okt, okf, hne, okr⟩ := hok
    generalize hp : pre ++ (Code.cond c onTrue onFalse rest).flat ++ post = p
    have hlen : (Code.cond c onTrue onFalse rest).flat.length =
        onTrue.flat.length + onFalse.flat.length + rest.flat.length + 2 := by simp [Code.flat]; omega
    have hpl : p.length = pre.length + (Code.cond c onTrue onFalse rest).flat.length + post.length := by
      rw [← hp]; simp; omega
    let j1 : BoundOp F E := jumpIfNotOp c (onTrue.flat.length + 1)
    let j2 : BoundOp F E := jumpOp onFalse.flat.length
    have hfpos : 0 < onFalse.flat.length := by
      rcases Nat.eq_zero_or_pos onFalse.flat.length with h | h
      · exact absurd (flat_eq_nil.1 (List.eq_nil_of_length_eq_zero h)) hne
      · exact h
    have hop1 : p[pre.length]? = some j1 := by rw [← hp]; simp [Code.flat, j1]
    have hop2 : p[pre.length + 1 + onTrue.flat.length]? = some j2 := by
      rw [← hp]
      simp only [Code.flat, List.append_assoc, List.cons_append]
      rw [List.getElem?_append_right (by omega)]
      simp only [show pre.length + 1 + onTrue.flat.length - pre.length = onTrue.flat.length + 1 by omega,
        List.getElem?_cons_succ]
      rw [List.getElem?_append_right (by omega)]
      simp [j2]
    have pt : p = (pre ++ [j1]) ++ onTrue.flat ++ (j2 :: (onFalse.flat ++ rest.flat) ++ post) := by
      rw [← hp]; simp [Code.flat, j1, j2]
    have pf : p = (pre ++ j1 :: (onTrue.flat ++ [j2])) ++ onFalse.flat ++ (rest.flat ++ post) := by
      rw [← hp]; simp [Code.flat, j1, j2]
    have pr : p = (pre ++ j1 :: (onTrue.flat ++ j2 :: onFalse.flat)) ++ rest.flat ++ post := by
      rw [← hp]; simp [Code.flat, j1, j2]
    -- the rest
    have hrest := fun f k => ihr okr (pre ++ j1 :: (onTrue.flat ++ j2 :: onFalse.flat)) post f k
    simp only [← pr] at hrest
    have hprel : (pre ++ j1 :: (onTrue.flat ++ j2 :: onFalse.flat)).length =
        pre.length + onTrue.flat.length + onFalse.flat.length + 2 := by simp; omega
    simp only [hprel] at hrest
    have finish : ∀ (f1 : F) (k1 m : Nat), m ≤ onTrue.flat.length + onFalse.flat.length + 2 →
        (∀ fuel, runLoop p never (fuel + m) k pre.length {} f =
          runLoop p never fuel k1 (pre.length + onTrue.flat.length + onFalse.flat.length + 2) {} f1) →
        (∀ f', rest.denote f1 = (f', none) → ∃ n ≤ (Code.cond c onTrue onFalse rest).flat.length, ∃ k', ∀ fuel,
          runLoop p never (fuel + n) k pre.length {} f =
            runLoop p never fuel k' (pre.length + (Code.cond c onTrue onFalse rest).flat.length) {} f') ∧
        (∀ f' e, rest.denote f1 = (f', some e) → ∃ n ≤ (Code.cond c onTrue onFalse rest).flat.length,
          ∃ (ip : Nat) (ctx : Ctx E) (f₀ : F) (op : BoundOp F E),
          (∀ fuel, runLoop p never (fuel + n) k pre.length {} f = some ((ip : Int), ctx, f')) ∧
          pre.length ≤ ip ∧ ip < pre.length + (Code.cond c onTrue onFalse rest).flat.length ∧ p[ip]? = some op ∧
          op {} f₀ = (ctx, f') ∧ ctx.status = some e) := by
      intro f1 k1 m hm hrun
      refine ⟨fun f' h => ?_, fun f' e h => ?_⟩
      · obtain ⟨n, hn, k', hr⟩ := (hrest f1 k1).1 f' h
        refine ⟨n + m, by omega, k', fun fuel => ?_⟩
        rw [← Nat.add_assoc, hrun, hr]
        congr 1; omega
      · obtain ⟨n, hn, ip, ctx, f₀, op, hr, h1, h2, h3⟩ := (hrest f1 k1).2 f' e h
        refine ⟨n + m, by omega, ip, ctx, f₀, op, fun fuel => ?_, by omega, by omega, h3⟩
        rw [← Nat.add_assoc, hrun, hr]
    simp only [Code.denote]
    by_cases hc : c f = true
    · -- the true branch
      rw [if_pos hc]
      have hstep : ∀ fuel, runLoop p never (fuel + 1) k pre.length {} f =
          runLoop p never fuel (k + 1) (pre.length + 1) {} f := by
        intro fuel
        rw [runLoop, hop1]
        simp [j1, jumpIfNotOp, hc, never]
      have hb := iht okt (pre ++ [j1]) (j2 :: (onFalse.flat ++ rest.flat) ++ post) f (k + 1)
      rw [← pt] at hb
      simp only [List.length_append, List.length_singleton] at hb
      rcases hd : onTrue.denote f with ⟨f1, _ | e⟩
      · obtain ⟨n, hn, k', hr⟩ := hb.1 f1 hd
        simp only
        refine finish f1 (k' + 1) (1 + n + 1) (by omega) fun fuel => ?_
        rw [show fuel + (1 + n + 1) = (fuel + 1 + n) + 1 by omega, hstep, hr,
          runLoop_jump hop2 (f' := f1) (j := onFalse.flat.length) rfl (by omega) (by omega)]
        congr 1
        omega
      · obtain ⟨n, hn, ip, ctx, f₀, op, hr, h1, h2, h3, h4, h5⟩ := hb.2 f1 e hd
        simp only [Prod.mk.injEq]
        constructor
        · rintro f' ⟨_, h⟩; cases h
        · rintro f' e' ⟨rfl, h⟩
          cases h
          refine ⟨n + 1, by omega, ip, ctx, f₀, op, fun fuel => ?_, by omega, by omega, h3, h4, h5⟩
          rw [← Nat.add_assoc, hstep, hr]
    · -- the false branch
      rw [if_neg hc]
      have hstep : ∀ fuel, runLoop p never (fuel + 1) k pre.length {} f =
          runLoop p never fuel (k + 1) (pre.length + onTrue.flat.length + 2) {} f := by
        intro fuel
        rw [runLoop_jump hop1 (f' := f) (j := onTrue.flat.length + 1) (by simp [j1, jumpIfNotOp, hc]) (by omega)
          (by omega)]
        congr 1
      have hb := ihf okf (pre ++ j1 :: (onTrue.flat ++ [j2])) (rest.flat ++ post) f (k + 1)
      rw [← pf] at hb
      have hl : (pre ++ j1 :: (onTrue.flat ++ [j2])).length = pre.length + onTrue.flat.length + 2 := by simp; omega
      rw [hl] at hb
      rcases hd : onFalse.denote f with ⟨f1, _ | e⟩
      · obtain ⟨n, hn, k', hr⟩ := hb.1 f1 hd
        simp only
        refine finish f1 k' (n + 1) (by omega) fun fuel => ?_
        rw [← Nat.add_assoc, hstep, hr]
        congr 1
        omega
      · obtain ⟨n, hn, ip, ctx, f₀, op, hr, h1, h2, h3, h4, h5⟩ := hb.2 f1 e hd
        simp only [Prod.mk.injEq]
        constructor
        · rintro f' ⟨_, h⟩; cases h
        · rintro f' e' ⟨rfl, h⟩
          cases h
          refine ⟨n + 1, by omega, ip, ctx, f₀, op, fun fuel => ?_, by omega, by omega, h3, h4, h5⟩
          rw [← Nat.add_assoc, hstep, hr]

/-- Compilation succeeds exactly if no false branch is empty. -/
theorem where_compiles (code : Code F E) : (∃ ops, (code.emit []).bind Builder.build = some ops) ↔ code.Ok := by
  constructor
  · intro h
    obtain ⟨ops, h⟩ := h
    by_cases hok : code.Ok
    · exact hok
    · rw [(emit_eq).2 hok] at h
      simp at h
  · intro hok
    rw [(emit_eq).1 hok]
    exact ⟨code.flat, by simpa using build_map code.flat⟩

/-- The compiled program does what the structured program means: of each `where` exactly one branch is executed, then
the operators after it; no jump leaves the program, the run ends, and the context is clean afterwards. -/
theorem where_run {code : Code F E} {ops} (hc : (code.emit []).bind Builder.build = some ops) (f f' : F)
    (hd : code.denote f = (f', none)) {fuel : Nat} (hf : ops.length < fuel) :
    run ops never fuel f = some ((ops.length : Int) - 1, {}, f') := by
  have hok := (where_compiles code).1 ⟨ops, hc⟩
  rw [(emit_eq).1 hok] at hc
  simp only [List.nil_append, Option.bind_some, build_map, Option.some.injEq] at hc
  subst hc
  obtain ⟨n, hn, k', hr⟩ := (runLoop_flat code hok [] [] f 0).1 f' hd
  simp only [List.nil_append, List.append_nil, List.length_nil, Nat.zero_add] at hr
  obtain ⟨m, rfl⟩ : ∃ m, fuel = m + 1 + n := ⟨fuel - n - 1, by omega⟩
  rw [run, hr, runLoop]
  simp

/-- If an operator fails, the run ends there with its error, and the reported position is that of the operator. -/
theorem where_run_error {code : Code F E} {ops} (hc : (code.emit []).bind Builder.build = some ops) (f f' : F) (e : E)
    (hd : code.denote f = (f', some e)) {fuel : Nat} (hf : ops.length < fuel) :
    ∃ (ip : Nat) (ctx : Ctx E) (f₀ : F) (op : BoundOp F E), run ops never fuel f = some ((ip : Int), ctx, f') ∧
      ctx.status = some e ∧ ops[ip]? = some op ∧ op {} f₀ = (ctx, f') := by
  have hok := (where_compiles code).1 ⟨ops, hc⟩
  rw [(emit_eq).1 hok] at hc
  simp only [List.nil_append, Option.bind_some, build_map, Option.some.injEq] at hc
  subst hc
  obtain ⟨n, hn, ip, ctx, f₀, op, hr, h1, h2, h3, h4, h5⟩ := (runLoop_flat code hok [] [] f 0).2 f' e hd
  simp only [List.nil_append, List.append_nil, List.length_nil] at hr h3
  obtain ⟨m, rfl⟩ : ∃ m, fuel = m + n := ⟨fuel - n, by omega⟩
  exact ⟨ip, ctx, f₀, op, hr m, h5, h3, h4⟩

/-- With a cancellation context, for any operators: the outcome is that of the run without cancellation, or the status
of the cancellation seen first. -/
theorem runLoop_cancel (ops : List (BoundOp F E)) (cancel : Nat → Option E) : ∀ (fuel k k₀ ip : Nat) (ctx : Ctx E) (f : F)
    (r : Int × Ctx E × F), runLoop ops never fuel k₀ ip ctx f = some r →
    runLoop ops cancel fuel k ip ctx f = some r ∨
    ∃ i e ip' ctx' f', k ≤ i ∧ cancel i = some e ∧ (∀ j, k ≤ j → j < i → cancel j = none) ∧
      runLoop ops cancel fuel k ip ctx f = some (ip', ctx', f') ∧ ctx'.status = some e := by
  intro fuel
  induction fuel with
  | zero => intro k k₀ ip ctx f r h; simp [runLoop] at h
  | succ fuel ih =>
    intro k k₀ ip ctx f r h
    have key : ∀ (ip : Nat) (ctx : Ctx E) (f : F), runLoop ops never fuel (k₀ + 1) (ip + 1) ctx f = some r →
        (match cancel k with
          | some e => some ((ip : Int), ctx.setStatus (some e), f)
          | none => runLoop ops cancel fuel (k + 1) (ip + 1) ctx f) = some r ∨
        ∃ i e ip' ctx' f', k ≤ i ∧ cancel i = some e ∧ (∀ j, k ≤ j → j < i → cancel j = none) ∧
          (match cancel k with
          | some e => some ((ip : Int), ctx.setStatus (some e), f)
          | none => runLoop ops cancel fuel (k + 1) (ip + 1) ctx f) = some (ip', ctx', f') ∧ ctx'.status = some e := by
      intro ip ctx f h
      cases hk : cancel k with
      | some e => exact Or.inr ⟨k, e, ip, ctx.setStatus (some e), f, Nat.le_refl _, hk, fun j h1 h2 => by omega, rfl, rfl⟩
      | none =>
        rcases ih (k + 1) (k₀ + 1) (ip + 1) ctx f r h with h | ⟨i, e, ip', ctx', f', h1, h2, h3, h4⟩
        · exact Or.inl h
        · refine Or.inr ⟨i, e, ip', ctx', f', by omega, h2, fun j h5 h6 => ?_, h4⟩
          rcases Nat.eq_or_lt_of_le h5 with rfl | h5
          · exact hk
          · exact h3 j h5 h6
    rw [runLoop] at h
    rw [runLoop]
    cases hop : ops[ip]? with
    | none => rw [hop] at h; exact Or.inl h
    | some op =>
      rw [hop] at h
      simp only [never] at h ⊢
      split at h
      · next hs =>
        rw [if_pos hs]
        split at h
        · next ht => rw [if_pos ht]; exact Or.inl h
        · next ht =>
          rw [if_neg ht]
          split at h
          · next hj =>
            rw [if_pos hj]
            split at h
            · next hb => rw [if_pos hb]; exact key _ _ _ h
            · simp at h
          · next hj => rw [if_neg hj]; exact key _ _ _ h
      · next hs => rw [if_neg hs]; exact key _ _ _ h

theorem run_cancel {ops : List (BoundOp F E)} (cancel : Nat → Option E) {fuel : Nat} {f : F} {r : Int × Ctx E × F}
    (h : run ops never fuel f = some r) :
    run ops cancel fuel f = some r ∨
    ∃ i e ip ctx f', cancel i = some e ∧ (∀ j < i, cancel j = none) ∧
      run ops cancel fuel f = some (ip, ctx, f') ∧ ctx.status = some e := by
  rcases runLoop_cancel ops cancel fuel 0 0 0 {} f r h with h | ⟨i, e, ip, ctx, f', _, h1, h2, h3⟩
  · exact Or.inl h
  · exact Or.inr ⟨i, e, ip, ctx, f', h1, fun j hj => h2 j (by omega) hj, h3⟩

/-! A frame which records the executed operators; two nested `where` operators. -/

private def log (s : Nat) : List Nat → List Nat × Option String := fun f => (f ++ [s], none)
private def fail : List Nat → List Nat × Option String := fun f => (f, some "failed")
private def sample (c d : Bool) : Code (List Nat) String :=
  .op (log 0) (.cond (fun _ => c) (.op (log 1) (.cond (fun _ => d) (.op (log 2) .nil) (.op fail .nil) .nil))
    (.op (log 3) (.op (log 4) .nil)) (.op (log 5) .nil))

private def runSample (c d : Bool) : Option (List Nat × Option String) :=
  (((sample c d).emit []).bind Builder.build).bind fun ops => (run ops never 20 []).map fun r => (r.2.2, r.2.1.status)

example : (sample c d).Ok := by simp [sample, Code.Ok]
example : runSample true true = some ([0, 1, 2, 5], none) := by rfl
example : runSample false true = some ([0, 3, 4, 5], none) := by rfl
example : runSample true false = some ([0, 1], some "failed") := by rfl

end Verif.Eval
