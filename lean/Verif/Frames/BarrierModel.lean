/-!
# Threads synchronised by two alternating barriers

The synchronisation skeleton of the multi-threaded `FrameIterator::ForEachFrame`
(arolla/qtype/array_like/frame_iter.h:112-156).  A thread executes a list of instructions: actions on
the shared state, and `BarrierSync(barrier1)` / `BarrierSync(barrier2)`.  `BarrierSync` is split at
its blocking and scheduling points:

* `absl::Barrier::Block` (abseil, synchronization/barrier.cc): under the lock `--num_to_block_`
  (a negative value is a fatal error); wait for `num_to_block_ == 0`; `--num_to_exit_` (checked to be
  non-negative); return whether it is 0 now;
* the thread which got `true` replaces the barrier by a new one (frame_iter.h:121-125).

A step of the machine is one step of one thread; the scheduler is arbitrary.  Actions are single
steps; that this does not hide anything is the race freedom proved in `ParallelProps.lean`.
-/

namespace Verif.Frames

/-- `absl::Barrier`. -/
structure Bar where
  toBlock : Nat
  toExit : Nat
  deriving DecidableEq

/-- Instructions; `sync false` is `BarrierSync(barrier1)`, `sync true` is `BarrierSync(barrier2)`. -/
inductive Instr (A : Type) where
  | act (a : A)
  | sync (b : Bool)
  deriving DecidableEq

/-- Where a thread is inside of `BarrierSync`: not in it, blocked in `Block()`, or about to replace
the barrier. -/
inductive Micro where
  | run
  | waiting
  | resetting
  deriving DecidableEq

/-- A thread: the instructions left, the first of which is being executed. -/
structure Th (A : Type) where
  rest : List (Instr A)
  mic : Micro
  deriving DecidableEq

/-- The machine: shared state, `barrier1` (`bars false`) and `barrier2` (`bars true`), threads. -/
structure Mach (A S : Type) where
  sh : S
  bars : Bool → Bar
  th : List (Th A)

variable {A S : Type}

/-- `std::make_unique<absl::Barrier>(thread_count)`. -/
def freshBar (T : Nat) : Bar := ⟨T, T⟩

/-- Assign to one of the two barriers. -/
def setBar (bars : Bool → Bar) (b : Bool) (x : Bar) : Bool → Bar := fun c => if c = b then x else bars c

/-- A step of thread `w`.  `none`: the thread cannot run (blocked or finished); `some none`: the
program dies (undefined behaviour of an action, or a fatal error in `Block`). -/
def stepT (exec : A → S → Option S) (m : Mach A S) (w : Nat) : Option (Option (Mach A S)) :=
  match m.th[w]? with
  | none => none
  | some t =>
    match t.rest with
    | [] => none
    | .act a :: rest =>
      match exec a m.sh with
      | none => some none
      | some sh => some (some { m with sh := sh, th := m.th.set w ⟨rest, .run⟩ })
    | .sync b :: rest =>
      let bar := m.bars b
      match t.mic with
      | .run =>
        if bar.toBlock = 0 then some none
        else some (some { m with
          bars := setBar m.bars b ⟨bar.toBlock - 1, bar.toExit⟩
          th := m.th.set w ⟨.sync b :: rest, .waiting⟩ })
      | .waiting =>
        if bar.toBlock ≠ 0 then none
        else if bar.toExit = 0 then some none
        else some (some { m with
          bars := setBar m.bars b ⟨bar.toBlock, bar.toExit - 1⟩
          th := m.th.set w (if bar.toExit - 1 = 0 then ⟨.sync b :: rest, .resetting⟩ else ⟨rest, .run⟩) })
      | .resetting =>
        some (some { m with
          bars := setBar m.bars b (freshBar m.th.length)
          th := m.th.set w ⟨rest, .run⟩ })

/-- States reachable by any schedule. -/
inductive Reach (exec : A → S → Option S) (m0 : Mach A S) : Mach A S → Prop where
  | refl : Reach exec m0 m0
  | step {m m' : Mach A S} (w : Nat) : Reach exec m0 m → stepT exec m w = some (some m') →
      Reach exec m0 m'

/-- Start: nobody has done anything — frame_iter.h:119-120, 146-155. -/
def start (sh : S) (progs : List (List (Instr A))) : Mach A S :=
  ⟨sh, fun _ => freshBar progs.length, progs.map (fun p => ⟨p, .run⟩)⟩

/-- All threads have returned (and can be joined). -/
def Mach.Finished (m : Mach A S) : Prop := ∀ t ∈ m.th, t.rest = []

/-- Two threads are about to touch the same memory: two actions in conflict, or one thread is about
to replace (and destroy) a barrier which the other one is about to enter or still inside of. -/
def Mach.Race (conf : A → A → Prop) (m : Mach A S) (w v : Nat) : Prop :=
  ∃ t u, w ≠ v ∧ m.th[w]? = some t ∧ m.th[v]? = some u ∧
    ((∃ a b r r', t.rest = .act a :: r ∧ u.rest = .act b :: r' ∧ conf a b) ∨
     ∃ b r r', t.rest = .sync b :: r ∧ t.mic = .resetting ∧ u.rest = .sync b :: r')

/-- Instructions from segment `g` on, with `d` more barriers: the segments are separated by the two
barriers in turn. -/
def progFrom (segs : Nat → List A) (g : Nat) : Nat → List (Instr A)
  | 0 => (segs g).map .act
  | d + 1 => (segs g).map .act ++ .sync (decide (g % 2 = 1)) :: progFrom segs (g + 1) d

/-- Execute actions one after another. -/
def execAll (exec : A → S → Option S) : List A → S → Option S
  | [], s => some s
  | a :: as, s => (exec a s).bind (execAll exec as)

end Verif.Frames
