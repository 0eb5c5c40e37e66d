import Verif.Frames.ParallelLemmas
import Verif.Frames.IterProps

/-!
# C73: the multi-threaded frame iterator computes what the single-threaded one does
-/

namespace Verif.Frames
open Verif.Bits Verif.Bitmap Verif.Dense Verif.Arr

variable {V A S : Type}

/-- C73: threads which synchronise by two barriers in turn.  If the actions of different threads
between two barriers commute, then under every schedule: no action fails and no barrier overflows;
no two threads are about to access the same memory, and no barrier is destroyed while another thread
enters or leaves it; some thread can always run until all have finished; the final state is that of
executing the segments one after another. -/
theorem barrier_threads {exec : A → S → Option S} {segs : Nat → Nat → List A} {T N : Nat}
    {states : Nat → S} {conf : A → A → Prop} (hT : 0 < T) (hs : SegsOk exec segs T N states)
    (hc : ∀ g w v, w < T → v < T → w ≠ v → ∀ a ∈ segs w g, ∀ b ∈ segs v g, ¬ conf a b)
    {m : Mach A S}
    (h : Reach exec (start (states 0) ((List.range T).map (fun w => progFrom (segs w) 0 N))) m) :
    (∀ w, stepT exec m w ≠ some none) ∧ (∀ w v, ¬ m.Race conf w v) ∧
      ((m.Finished ∧ m.sh = states (N + 1)) ∨ ∃ w m', w < T ∧ stepT exec m w = some (some m')) ∧
      (m.Finished → m.sh = states (N + 1)) := by
  obtain ⟨G, ss, hi, hl⟩ := reach_inv hT hs h
  refine ⟨fun w => (step_inv hs hi hl w).1, no_race hc hi hl, can_step hs hi hl hT, ?_⟩
  intro hf
  rcases can_step hs hi hl hT with h1 | ⟨w, m', _, h2⟩
  · exact h1.2
  · exfalso
    unfold stepT at h2
    cases ht : m.th[w]? with
    | none => rw [ht] at h2; cases h2
    | some t =>
      rw [ht] at h2
      dsimp only at h2
      rw [hf t (List.mem_of_getElem? ht)] at h2
      cases h2

/-- C73: every execution is finite: the number of steps is bounded before it starts. -/
theorem barrier_threads_terminate (exec : A → S → Option S) (run : Nat → Mach A S) (n : Nat)
    (h : ∀ i, i < n → ∃ w, stepT exec (run i) w = some (some (run (i + 1)))) : n ≤ (run 0).steps := by
  have : ∀ k, k ≤ n → (run k).steps + k ≤ (run 0).steps := by
    intro k
    induction k with
    | zero => intro _; omega
    | succ k ih =>
      intro hk
      obtain ⟨w, hw⟩ := h k (by omega)
      have := steps_decrease hw
      have := ih (by omega)
      omega
  have := this n (Nat.le_refl n)
  omega

/-- C73: for every number of threads and every schedule, `ForEachFrame(fn, threading, thread_count)`
has no data race, no barrier overflow, no use of a destroyed barrier, no deadlock and no endless
execution, and when all workers have returned, `StoreOutput` yields exactly the arrays of the
single-threaded `ForEachFrame(fn)`. -/
theorem frame_iterator_parallel {it : Iter V} {fn : Frame V → Frame V} {mem : Mem V} {junk : V}
    {init : List (Frame V)} {fuel T : Nat} {res : List (Nat × In V)} {calls : List (Frame V)}
    (hT : 0 < T) (hi : init.length = it.frames)
    (hrun : run junk mem it fn init fuel = some (res, calls)) :
    (∀ m, Reach (execAct junk it fn) (parStart it mem init T) m →
      (∀ w, stepT (execAct junk it fn) m w ≠ some none) ∧ (∀ w v, ¬ m.Race Act.Conflict w v) ∧
      (m.Finished ∨ ∃ w m', w < T ∧ stepT (execAct junk it fn) m w = some (some m')) ∧
      (m.Finished → storeOutput it m.sh.outs = res)) ∧
    ∃ bound, ∀ (sched : Nat → Mach Act (Shared V)) (n : Nat), sched 0 = parStart it mem init T →
      (∀ i, i < n → ∃ w, stepT (execAct junk it fn) (sched i) w = some (some (sched (i + 1)))) →
      n ≤ bound := by
  refine ⟨?_, (parStart it mem init T).steps, fun sched n h0 h => by
    rw [← h0]; exact barrier_threads_terminate _ sched n h⟩
  obtain ⟨stF, hfe, hres⟩ := Option.map_eq_some_iff.1 hrun
  simp only [Prod.mk.injEq] at hres
  intro m hm
  -- the programs as segments
  have main : ∃ (sg : Nat → Nat → List Act) (N : Nat) (states : Nat → Shared V),
      SegsOk (execAct junk it fn) sg T N states ∧
      (∀ g w v, w < T → v < T → w ≠ v → ∀ a ∈ sg w g, ∀ b ∈ sg v g, ¬ Act.Conflict a b) ∧
      parStart it mem init T = start (states 0) ((List.range T).map (fun w => progFrom (sg w) 0 N)) ∧
      (states (N + 1)).outs = stF.outs := by
    by_cases hB : 0 < it.frames
    · obtain ⟨states, h1, h2, h3⟩ := segs_ok hT hB hi hfe
      refine ⟨segs it.frames it.rowCount T, _, states, h3, ?_, ?_, by rw [h2]⟩
      · intro g w v hw hv hwv a ha b hb hcf
        unfold segs at ha hb
        by_cases hg : g % 2 = 0
        · rw [if_pos hg] at ha hb
          by_cases hw0 : w = 0
          · rw [if_neg (by omega)] at hb
            simp at hb
          · rw [if_neg hw0] at ha
            simp at ha
        · rw [if_neg hg] at ha hb
          obtain ⟨i, hi1, rfl⟩ := List.mem_map.1 ha
          obtain ⟨j, hj1, rfl⟩ := List.mem_map.1 hb
          have : i = j := hcf
          subst this
          exact own_disjoint hwv hi1 hj1
      · unfold parStart
        rw [h1]
        congr 1
        apply List.map_congr_left
        intro w _
        have := workerProg_eq (rc := it.rowCount) (T := T) (w := w) hB (it.rowCount + 1) 0
          (Nat.zero_le _) (by
            have : ¬ it.rowCount < blocks it.frames it.rowCount := by
              rw [lt_blocks hB]
              have := Nat.le_mul_of_pos_right it.rowCount hB
              omega
            omega)
        simpa [pre] using this
    · -- no rows
      have hz : ¬ 0 < it.rowCount := by
        intro hr
        have hi0 : init = [] := List.length_eq_zero_iff.1 (by omega)
        rw [hi0, frame_iterator_no_buffers_counterexample junk mem it fn (by omega) hr fuel] at hrun
        cases hrun
      refine ⟨fun _ _ => [], 0, fun _ => ⟨0, 0, init, startOuts mem it⟩, ⟨?_, ?_⟩, ?_, ?_, ?_⟩
      · intro g w v _ _ _ a ha; simp at ha
      · intro g _
        rw [flatten_first hT (fun _ _ => rfl)]; rfl
      · intro g w v _ _ _ a ha; simp at ha
      · unfold parStart
        congr 1
        apply List.map_congr_left
        intro w _
        rw [workerProg, if_neg hz]; rfl
      · cases fuel with
        | zero => cases hfe
        | succ fuel =>
          rw [forEachFrame, if_neg hz] at hfe
          cases hfe; rfl
  obtain ⟨sg, N, states, h1, h2, h3, h4⟩ := main
  rw [h3] at hm
  obtain ⟨q1, q2, q3, q4⟩ := barrier_threads hT h1 h2 hm
  refine ⟨q1, q2, ?_, ?_⟩
  · rcases q3 with q | q
    · exact Or.inl q.1
    · exact Or.inr q
  · intro hf
    rw [← hres.1, q4 hf, h4]

/-! ## A concrete case -/

/-- Execute a schedule; a thread which cannot run is skipped. -/
def runSched (exec : A → S → Option S) : List Nat → Mach A S → Option (Mach A S)
  | [], m => some m
  | w :: ws, m =>
    match stepT exec m w with
    | none => runSched exec ws m
    | some none => none
    | some (some m') => runSched exec ws m'

/-- The example of `IterProps.lean` with 3 frame buffers, 2 threads, and the schedule which runs
thread 1 three times as often as thread 0. -/
def sampleParallel : Option (Bool × List (Nat × List (Option Int))) :=
  match create [(true, 0), (false, 0)] [(false, 0)] sampleInputs sampleSlots sampleOutputs
      [⟨2, 0, true⟩] ⟨some 5, 3⟩ with
  | .error _ => none
  | .ok it =>
    (runSched (execAct 55 it sampleFn) (List.replicate 20 [1, 1, 1, 0]).flatten
      (parStart it ⟨fun _ => List.replicate 5 66, fun _ => [77]⟩
        (List.replicate it.frames (fun t => (true, if t = 3 then 100 else 1000 + t))) 2)).map
      (fun m => (m.th.all (fun t => t.rest.isEmpty),
        (storeOutput it m.sh.outs).map (fun p => (p.1, p.2.elems))))

example : sampleParallel = some (true, [(9, [some 108, none, some 110, none, some 112])]) := by
  decide +kernel

end Verif.Frames
