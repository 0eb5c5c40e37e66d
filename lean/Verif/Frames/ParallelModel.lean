import Verif.Frames.IterModel
import Verif.Frames.BarrierModel

/-!
# Model of the multi-threaded `ForEachFrame`

arolla/qtype/array_like/frame_iter.h:112-156.  The instructions of a worker depend on the sizes only,
so its loop is unrolled to a list of instructions.  `fn` on one frame, `PreloadFrames` and
`SaveOutputsOfProcessedFrames` are single actions.  The input and the output copiers have their own
`current_row_id_`.  The conversion of sizes to `int` is not modelled.
-/

namespace Verif.Frames

variable {V : Type}

/-- The shared state: `current_row_id_` of the input and of the output copiers, the frame buffers and
the output builders. -/
structure Shared (V : Type) where
  curIn : Nat
  curOut : Nat
  frames : List (Frame V)
  outs : List (OutB V)

/-- What workers do with the shared state. -/
inductive Act where
  | preload (count : Nat)
  | apply (i : Nat)
  | save (count : Nat)
  deriving DecidableEq

/-- `PreloadFrames(count)`, `fn(frames_[i])` and `SaveOutputsOfProcessedFrames(count)`. -/
def execAct (junk : V) (it : Iter V) (fn : Frame V → Frame V) (a : Act) (s : Shared V) :
    Option (Shared V) :=
  match a with
  | .preload count =>
    (preload junk s.curIn it.ins (s.frames.take count)).map (fun fs =>
      { s with curIn := s.curIn + count, frames := fs ++ s.frames.drop count })
  | .apply i =>
    match s.frames[i]? with
    | none => none
    | some f => some { s with frames := s.frames.set i (fn f) }
  | .save count =>
    (saveOutputs s.curOut (s.frames.take count) it.outs s.outs).map (fun os =>
      { s with curOut := s.curOut + count, outs := os })

/-- Accesses to the same memory: everything but `fn` on different frames. -/
def Act.Conflict : Act → Act → Prop
  | .apply i, .apply j => i = j
  | _, _ => True

/-- `frames_per_worker` — frame_iter.h:116-117. -/
def framesPerWorker (frames threads : Nat) : Nat := (frames + threads - 1) / threads

/-- The frames worker `w` applies `fn` to — frame_iter.h:134-138. -/
def ownFrames (frames threads count w : Nat) : List Nat :=
  let lo := w * framesPerWorker frames threads
  let hi := min count ((w + 1) * framesPerWorker frames threads)
  List.range' lo (hi - lo)

/-- `worker_fn(w)` from the iteration with this `offset` on — frame_iter.h:127-144. -/
def workerProg (frames rowCount threads w : Nat) : Nat → Nat → List (Instr Act)
  | 0, _ => []
  | fuel + 1, offset =>
    if offset < rowCount then
      let count := min frames (rowCount - offset)
      (if w = 0 then [.act (.preload count)] else []) ++ [.sync false] ++
        (ownFrames frames threads count w).map (fun i => .act (.apply i)) ++ [.sync true] ++
        (if w = 0 then [.act (.save count)] else []) ++
        workerProg frames rowCount threads w fuel (offset + frames)
    else []

/-- The machine at the start of `ForEachFrame(fn, threading, thread_count)`. -/
def parStart (it : Iter V) (mem : Mem V) (init : List (Frame V)) (threads : Nat) :
    Mach Act (Shared V) :=
  start ⟨0, 0, init, startOuts mem it⟩
    ((List.range threads).map (fun w =>
      workerProg it.frames it.rowCount threads w (it.rowCount + 1) 0))

end Verif.Frames
