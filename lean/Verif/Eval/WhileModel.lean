/-!
# Model of `arolla/expr/eval/compile_while_operator.cc`

A frame maps slots to values.  `BoundExpr::Execute` takes a frame to a frame and an error (`none` is OK); it is called with
a context without signals (after a run without errors the signals are reset, see `Verif.Eval.where_run`).
-/

namespace Verif.Eval.While

abbrev Frame (V : Type v) := Nat → V

def Frame.set (f : Frame V) (slot : Nat) (v : V) : Frame V := fun s => if s = slot then v else f s

abbrev Exec (V : Type v) (E : Type u) := Frame V → Frame V × Option E

/-- `BoundLoopOperators` — compile_while_operator.cc:47-50. -/
structure LoopOps (V : Type v) (E : Type u) where
  condition : Exec V E
  body : Exec V E

/-- `WhileLoopBoundOperator` — compile_while_operator.cc:53-106. -/
structure WhileOp (V : Type v) (E : Type u) where
  onOut : LoopOps V E
  onTmp : LoopOps V E
  condSlot : Nat
  initialSlot : Nat
  tmpSlot : Nat
  outSlot : Nat
  /-- `OptionalUnit` as a condition -/
  present : V → Bool

/-- The loop of `Run` — compile_while_operator.cc:78-96. -/
def WhileOp.loop (w : WhileOp V E) : (fuel : Nat) → Frame V → Option (Frame V × Option E)
  | 0, _ => none
  | fuel + 1, f =>
    let (f, status) := w.onOut.condition f
    if status.isSome || !w.present (f w.condSlot) then some (f, status)
    else
      let (f, status) := w.onOut.body f
      if status.isSome then some (f, status)
      else
        let (f, status) := w.onTmp.condition f
        if status.isSome || !w.present (f w.condSlot) then some (f.set w.outSlot (f w.tmpSlot), status)
        else
          let (f, status) := w.onTmp.body f
          if status.isSome then some (f, status)
          else w.loop fuel f

/-- `Run` — compile_while_operator.cc:76-97. -/
def WhileOp.run (w : WhileOp V E) (fuel : Nat) (f : Frame V) : Option (Frame V × Option E) :=
  w.loop fuel (f.set w.outSlot (f w.initialSlot))

end Verif.Eval.While
