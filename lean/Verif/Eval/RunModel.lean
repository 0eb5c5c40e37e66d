/-!
# Model of `arolla/qexpr/eval_context.h`, `bound_operators.cc` and of the short circuit `where`

`F` is the type of frames and `E` of errors.  A bound operator may do anything to the frame and to the signals of the
evaluation context.
-/

namespace Verif.Eval

/-- The mutable part of `EvaluationContext` — qexpr/eval_context.h:127-129; `status = none` is `OkStatus`. -/
structure Ctx (E : Type u) where
  signal : Bool := false
  jump : Int := 0
  status : Option E := none

/-- `set_status` — qexpr/eval_context.h:76-86. -/
def Ctx.setStatus (c : Ctx E) (s : Option E) : Ctx E := { c with status := s, signal := c.signal || s.isSome }

/-- `set_requested_jump` — qexpr/eval_context.h:105-108. -/
def Ctx.setJump (c : Ctx E) (jump : Int) : Ctx E := { c with signal := true, jump }

/-- `ResetSignals` — qexpr/eval_context.h:116-120. -/
def Ctx.resetSignals (_c : Ctx E) : Ctx E := { signal := false, jump := 0, status := none }

/-- `BoundOperator::Run`. -/
abbrev BoundOp (F : Type v) (E : Type u) := Ctx E → F → Ctx E × F

/-- `FunctorBoundOperator::Run` for a functor which returns a status — qexpr/bound_operators.h:47-59. -/
def functorOp (g : F → F × Option E) : BoundOp F E := fun ctx f =>
  match g f with
  | (f, none) => (ctx, f)
  | (f, some e) => (ctx.setStatus (some e), f)

/-- `JumpBoundOperator` — qexpr/bound_operators.cc:76-80. -/
def jumpOp (jump : Int) : BoundOp F E := fun ctx f => (ctx.setJump jump, f)

/-- `JumpIfNotBoundOperator` — qexpr/bound_operators.cc:82-89. -/
def jumpIfNotOp (cond : F → Bool) (jump : Int) : BoundOp F E := fun ctx f =>
  if !cond f then (ctx.setJump jump, f) else (ctx, f)

/-- The loop of `RunBoundOperatorsImpl` — qexpr/bound_operators.cc:39-60.  `cancel k` is the status of the cancellation
context at the k-th check (`none` if not cancelled or if there is no cancellation context).  A jump out of the program
(`DCHECK_LT`, line 49) is `none`, and so is running out of fuel. -/
def runLoop (ops : List (BoundOp F E)) (cancel : Nat → Option E) :
    (fuel : Nat) → (k : Nat) → (ip : Nat) → Ctx E → F → Option (Int × Ctx E × F)
  | 0, _, _, _, _ => none
  | fuel + 1, k, ip, ctx, f =>
    match ops[ip]? with
    | none => some ((ops.length : Int) - 1, ctx, f)
    | some op =>
      let (ctx, f) := op ctx f
      let check (ip : Nat) (ctx : Ctx E) : Option (Int × Ctx E × F) :=
        match cancel k with
        | some e => some (ip, ctx.setStatus (some e), f)
        | none => runLoop ops cancel fuel (k + 1) (ip + 1) ctx f
      if ctx.signal then
        if ctx.status.isSome then some (ip, ctx, f)
        else if ctx.jump ≠ 0 then
          if 0 ≤ (ip : Int) + ctx.jump ∧ (ip : Int) + ctx.jump < ops.length then
            check ((ip : Int) + ctx.jump).toNat ctx.resetSignals
          else none
        else check ip ctx.resetSignals
      else check ip ctx

/-- `RunBoundOperators` — qexpr/bound_operators.cc:65-74. -/
def run (ops : List (BoundOp F E)) (cancel : Nat → Option E) (fuel : Nat) (f : F) : Option (Int × Ctx E × F) :=
  runLoop ops cancel fuel 0 0 {} f

/-! ### Compilation of `where` -/

/-- What the compiled program of an expression consists of: bound operators and `packed_where` nodes with the programs
of their branches (`DynamicCompiledOperator::BindTo` appends the program of the branch). -/
inductive Code (F : Type v) (E : Type u) where
  | nil
  | op (g : F → F × Option E) (rest : Code F E)
  | cond (c : F → Bool) (onTrue onFalse rest : Code F E)

/-- `eval_ops_` of `ExecutableBuilder`. -/
abbrev Builder (F : Type v) (E : Type u) := List (Option (BoundOp F E))

/-- `SetEvalOp` — expr/eval/executable_builder.cc:201-222; `none` is `InternalError`. -/
def Builder.setEvalOp (b : Builder F E) (offset : Int) (op : BoundOp F E) : Option (Builder F E) :=
  if offset < 0 ∨ offset ≥ b.length then none
  else match b[offset.toNat]? with
    | some none => some (b.set offset.toNat (some op))
    | _ => none

/-- `AddEvalOp`, `SkipEvalOp` — expr/eval/executable_builder.cc:183-199, and
`CompileWhereOperator` — expr/eval/compile_where_operator.cc:408-450; `none` is `InternalError`. -/
def Code.emit : Code F E → Builder F E → Option (Builder F E)
  | .nil, b => some b
  | .op g rest, b => rest.emit (b ++ [some (functorOp g)])
  | .cond c onTrue onFalse rest, b => do
    let beforeTrue : Int := b.length
    let b ← onTrue.emit (b ++ [none])
    let beforeFalse : Int := b.length
    let b ← onFalse.emit (b ++ [none])
    let jumpToFalse := beforeFalse - beforeTrue
    if jumpToFalse = 0 then none
    else
      let b ← Builder.setEvalOp b beforeTrue (jumpIfNotOp c jumpToFalse)
      let jumpAfterFalse : Int := b.length - beforeFalse - 1
      if jumpAfterFalse = 0 then none
      else
        let b ← Builder.setEvalOp b beforeFalse (jumpOp jumpAfterFalse)
        rest.emit b

/-- `ExecutableBuilder::Build` — expr/eval/executable_builder.cc:233-264: all the operators are set (`VerifyNoNulls`). -/
def Builder.build (b : Builder F E) : Option (List (BoundOp F E)) := b.mapM id

end Verif.Eval
